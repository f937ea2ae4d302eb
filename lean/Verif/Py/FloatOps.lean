import Verif.Py.Float
import Verif.Spec.Vec
import Verif.Spec.Erf

/-!
# Arithmetic of numpy on floats with special values

Used where it matters that a formula divides by zero.  As in `Verif.Py.Float`, finite floats are exact real numbers.
-/

namespace Verif

namespace PyFloat

noncomputable instance : Div PyFloat := ⟨npDiv⟩

/-- `np.exp` -/
noncomputable def exp : PyFloat → PyFloat
  | nan => nan
  | pinf => pinf
  | ninf => fin 0
  | fin a => fin (Real.exp a)

/-- `scipy.special.erf` -/
noncomputable def erf : PyFloat → PyFloat
  | nan => nan
  | pinf => fin 1
  | ninf => fin (-1)
  | fin a => fin (Verif.erf a)

/-- A float that is neither infinite nor NaN. -/
def Finite (a : PyFloat) : Prop := ∃ x, a = fin x

end PyFloat

/-- An array of three floats with finite entries. -/
def fl (v : V3 ℝ) : V3 PyFloat := v.map PyFloat.fin

/-- `np.linalg.norm(v, axis=-1)` -/
noncomputable def V3.norm (v : V3 PyFloat) : PyFloat := PyFloat.sqrt (v.x ^ 2 + v.y ^ 2 + v.z ^ 2)

/-- Every entry is finite. -/
def V3.Finite (v : V3 PyFloat) : Prop := v.x.Finite ∧ v.y.Finite ∧ v.z.Finite

/-- Every entry is NaN. -/
def V3.nan : V3 PyFloat := ⟨.nan, .nan, .nan⟩

namespace PyFloat

theorem div_def (a b : PyFloat) : a / b = npDiv a b := rfl
theorem fin_div_fin {a b : ℝ} (h : b ≠ 0) : fin a / fin b = fin (a / b) := npDiv_fin h
theorem fin_div_zero_pos {a : ℝ} (h : 0 < a) : fin a / fin 0 = pinf := by simp [div_def, npDiv, h]
theorem fin_div_zero_neg {a : ℝ} (h : a < 0) : fin a / fin 0 = ninf := by simp [div_def, npDiv, h, h.le]
theorem zero_div_zero : fin 0 / fin 0 = nan := by simp [div_def, npDiv]
theorem sqrt_fin {a : ℝ} (h : 0 ≤ a) : sqrt (fin a) = fin (Real.sqrt a) := by simp [sqrt, not_lt.2 h]
theorem nan_mul (a : PyFloat) : nan * a = nan := by cases a <;> rfl
theorem mul_nan (a : PyFloat) : a * nan = nan := by cases a <;> rfl
theorem nan_add (a : PyFloat) : nan + a = nan := by cases a <;> rfl
theorem add_nan (a : PyFloat) : a + nan = nan := by cases a <;> rfl
theorem neg_nan : -nan = nan := rfl
theorem sub_def (a b : PyFloat) : a - b = a + -b := rfl
theorem nan_sub (a : PyFloat) : nan - a = nan := nan_add _
theorem sub_nan (a : PyFloat) : a - nan = nan := add_nan _
theorem nan_div (a : PyFloat) : nan / a = nan := by cases a <;> rfl
theorem div_nan (a : PyFloat) : a / nan = nan := by cases a <;> rfl
theorem not_finite_nan : ¬ nan.Finite := fun ⟨_, h⟩ => by cases h
theorem not_finite_pinf : ¬ pinf.Finite := fun ⟨_, h⟩ => by cases h
theorem not_finite_ninf : ¬ ninf.Finite := fun ⟨_, h⟩ => by cases h
theorem fin_mul_pinf (k : ℝ) : ¬ (fin k * pinf).Finite := by
  change ¬ (mul (fin k) pinf).Finite
  simp only [mul]
  split_ifs
  exacts [not_finite_pinf, not_finite_ninf, not_finite_nan]
theorem fin_mul_ninf (k : ℝ) : ¬ (fin k * ninf).Finite := by
  change ¬ (mul (fin k) ninf).Finite
  simp only [mul]
  split_ifs
  exacts [not_finite_ninf, not_finite_pinf, not_finite_nan]
theorem pinf_pow (n : ℕ) : pinf ^ (n + 1) = pinf := by
  have one : fin 1 * pinf = pinf := by
    change mul (fin 1) pinf = pinf
    simp [mul]
  induction n with
  | zero =>
    change npow pinf 0 * pinf = pinf
    exact one
  | succ n ih =>
    change npow pinf (n + 1) * pinf = pinf
    rw [show npow pinf (n + 1) = pinf from ih]
    rfl
theorem pinf_mul_pos {k : ℝ} (h : 0 < k) : pinf * fin k = pinf := by
  change mul pinf (fin k) = pinf
  simp [mul, h]
theorem pos_mul_pinf {k : ℝ} (h : 0 < k) : fin k * pinf = pinf := by
  change mul (fin k) pinf = pinf
  simp [mul, h]
theorem pinf_mul_zero : pinf * fin 0 = nan := by
  change mul pinf (fin 0) = nan
  simp [mul]
theorem pinf_div_pos {k : ℝ} (h : 0 ≤ k) : pinf / fin k = pinf := by
  rw [div_def]
  simp [npDiv, not_lt.2 h]
theorem fin_div_pinf (k : ℝ) : fin k / pinf = fin 0 := rfl
theorem pinf_add_fin (k : ℝ) : pinf + fin k = pinf := rfl
theorem fin_add_pinf (k : ℝ) : fin k + pinf = pinf := rfl
theorem neg_pinf : -pinf = ninf := rfl
theorem exp_ninf : exp ninf = fin 0 := rfl
theorem exp_fin (a : ℝ) : exp (fin a) = fin (Real.exp a) := rfl
theorem erf_pinf : erf pinf = fin 1 := rfl
theorem erf_fin (a : ℝ) : erf (fin a) = fin (Verif.erf a) := rfl
theorem sqrt_pinf : sqrt pinf = pinf := rfl
theorem finite_fin (a : ℝ) : (fin a).Finite := ⟨a, rfl⟩

end PyFloat

open PyFloat

theorem fl_sub (a b : V3 ℝ) : fl a - fl b = fl (a - b) := by
  simp only [fl, V3.map, V3.ext_iff, V3.sub_x, V3.sub_y, V3.sub_z, fin_sub_fin, and_self]

theorem norm_fl (v : V3 ℝ) : (fl v).norm = fin v.len := by
  simp only [V3.norm, fl, V3.map, fin_pow, fin_add_fin]
  rw [sqrt_fin (by positivity)]
  rfl

theorem fl_finite (v : V3 ℝ) : (fl v).Finite := ⟨⟨_, rfl⟩, ⟨_, rfl⟩, ⟨_, rfl⟩⟩

theorem nan_not_finite : ¬ V3.nan.Finite := fun h => not_finite_nan h.1

end Verif
