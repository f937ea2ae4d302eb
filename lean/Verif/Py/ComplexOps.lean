import Verif.Py.FloatOps
import Mathlib.Analysis.Complex.Trigonometric

/-!
# Complex numbers of numpy with special values in their parts
-/

namespace Verif

theorem PyFloat.ninf_mul_zero : PyFloat.ninf * PyFloat.fin 0 = PyFloat.nan := by
  change PyFloat.mul .ninf (.fin 0) = .nan
  norm_num [PyFloat.mul]
theorem PyFloat.ninf_mul_pos {k : ℝ} (h : 0 < k) : PyFloat.ninf * PyFloat.fin k = PyFloat.ninf := by
  change PyFloat.mul .ninf (.fin k) = .ninf
  simp [PyFloat.mul, h, h.ne', h.le]

/-- A numpy `complex`: two floats. -/
@[ext] structure PyComplex where
  re : PyFloat
  im : PyFloat

namespace PyComplex

open PyFloat

/-- A complex number with finite parts. -/
def fin (z : ℂ) : PyComplex := ⟨.fin z.re, .fin z.im⟩

/-- A float met by a complex number is converted, with imaginary part zero. -/
def ofFloat (x : PyFloat) : PyComplex := ⟨x, .fin 0⟩

/-- NaN in both parts. -/
def nan : PyComplex := ⟨.nan, .nan⟩

/-- Both parts are finite. -/
def Finite (a : PyComplex) : Prop := a.re.Finite ∧ a.im.Finite

noncomputable instance : Add PyComplex := ⟨fun a b => ⟨a.re + b.re, a.im + b.im⟩⟩
noncomputable instance : Neg PyComplex := ⟨fun a => ⟨-a.re, -a.im⟩⟩
noncomputable instance : Sub PyComplex := ⟨fun a b => ⟨a.re - b.re, a.im - b.im⟩⟩
noncomputable instance : Mul PyComplex := ⟨fun a b => ⟨a.re * b.re - a.im * b.im, a.re * b.im + a.im * b.re⟩⟩

open Classical in
/-- numpy's division: by zero part by part (by the absolute value of the real part), by a finite number exactly.  Dividing by a number that is
not finite is not needed and counts as NaN. -/
noncomputable def div (a b : PyComplex) : PyComplex :=
  match b with
  | ⟨.fin c, .fin d⟩ =>
    if c = 0 ∧ d = 0 then ⟨a.re / .fin 0, a.im / .fin 0⟩
    else ⟨(a.re * .fin c + a.im * .fin d) / .fin (c ^ 2 + d ^ 2), (a.im * .fin c - a.re * .fin d) / .fin (c ^ 2 + d ^ 2)⟩
  | _ => nan

noncomputable instance : Div PyComplex := ⟨div⟩

/-- `np.exp` of a finite number; of anything else it is not needed and counts as NaN. -/
noncomputable def exp (a : PyComplex) : PyComplex :=
  match a with
  | ⟨.fin x, .fin y⟩ => fin (Complex.exp ⟨x, y⟩)
  | _ => nan

/-- `a ** n`, by repeated multiplication. -/
noncomputable def npow (a : PyComplex) : ℕ → PyComplex
  | 0 => fin 1
  | n + 1 => npow a n * a

noncomputable instance : Pow PyComplex ℕ := ⟨npow⟩

theorem ofFloat_fin (x : ℝ) : ofFloat (.fin x) = fin x := rfl
theorem fin_add_fin (a b : ℂ) : fin a + fin b = fin (a + b) := rfl
theorem fin_sub_fin (a b : ℂ) : fin a - fin b = fin (a - b) := by
  change (⟨_, _⟩ : PyComplex) = ⟨_, _⟩
  simp only [fin, PyFloat.fin_sub_fin, Complex.sub_re, Complex.sub_im]
theorem neg_fin (a : ℂ) : -fin a = fin (-a) := rfl
theorem fin_mul_fin (a b : ℂ) : fin a * fin b = fin (a * b) := by
  change (⟨_, _⟩ : PyComplex) = ⟨_, _⟩
  simp only [fin, PyFloat.fin_mul_fin, PyFloat.fin_sub_fin, PyFloat.fin_add_fin, Complex.mul_re, Complex.mul_im]
theorem fin_pow (a : ℂ) (n : ℕ) : fin a ^ n = fin (a ^ n) := by
  induction n with
  | zero => rw [pow_zero]; rfl
  | succ n ih =>
    change fin a ^ n * fin a = _
    rw [ih, fin_mul_fin, pow_succ]
theorem exp_fin (a : ℂ) : exp (fin a) = fin (Complex.exp a) := rfl
theorem fin_div_fin {a b : ℂ} (h : b ≠ 0) : fin a / fin b = fin (a / b) := by
  have hn : ¬ (b.re = 0 ∧ b.im = 0) := fun e => h (Complex.ext e.1 e.2)
  have hs : b.re ^ 2 + b.im ^ 2 ≠ 0 := fun e => hn ⟨by nlinarith [sq_nonneg b.re, sq_nonneg b.im], by nlinarith [sq_nonneg b.re, sq_nonneg b.im]⟩
  change div (fin a) (fin b) = _
  simp only [div, fin, hn, if_false, PyFloat.fin_mul_fin, PyFloat.fin_sub_fin, PyFloat.fin_add_fin, PyFloat.fin_div_fin hs]
  simp only [Complex.div_re, Complex.div_im, Complex.normSq_apply, mk.injEq, PyFloat.fin.injEq]
  constructor
  · rw [show b.re * b.re + b.im * b.im = b.re ^ 2 + b.im ^ 2 by ring]
    ring
  · rw [show b.re * b.re + b.im * b.im = b.re ^ 2 + b.im ^ 2 by ring]
    ring
theorem fin_div_zero (a : ℂ) : fin a / fin 0 = ⟨.fin a.re / .fin 0, .fin a.im / .fin 0⟩ := by
  change div _ _ = _
  simp [div, fin]
theorem nan_mul (a : PyComplex) : nan * a = nan := by
  change (⟨_, _⟩ : PyComplex) = _
  simp only [nan, PyFloat.nan_mul, PyFloat.nan_sub, PyFloat.nan_add]
theorem mul_nan (a : PyComplex) : a * nan = nan := by
  change (⟨_, _⟩ : PyComplex) = _
  simp only [nan, PyFloat.mul_nan, PyFloat.nan_sub, PyFloat.nan_add]
theorem nan_add (a : PyComplex) : nan + a = nan := by
  change (⟨_, _⟩ : PyComplex) = _
  simp only [nan, PyFloat.nan_add]
theorem add_nan (a : PyComplex) : a + nan = nan := by
  change (⟨_, _⟩ : PyComplex) = _
  simp only [nan, PyFloat.add_nan]
theorem nan_sub (a : PyComplex) : nan - a = nan := by
  change (⟨_, _⟩ : PyComplex) = _
  simp only [nan, PyFloat.nan_sub]
theorem sub_nan (a : PyComplex) : a - nan = nan := by
  change (⟨_, _⟩ : PyComplex) = _
  simp only [nan, PyFloat.sub_nan]
theorem ofFloat_nan_mul (a : PyComplex) : ofFloat .nan * a = ⟨.nan, .nan⟩ := by
  change (⟨_, _⟩ : PyComplex) = _
  simp only [ofFloat, PyFloat.nan_mul, PyFloat.nan_sub, PyFloat.nan_add]

theorem mul_ofFloat_nan (a : PyComplex) : a * ofFloat .nan = nan := by
  change (⟨_, _⟩ : PyComplex) = _
  simp only [ofFloat, nan, PyFloat.mul_nan, PyFloat.nan_sub, PyFloat.add_nan]

/-- A NaN in the imaginary part spreads to both parts of a product. -/
theorem nan_im_mul (x : PyFloat) (b : PyComplex) : (⟨x, .nan⟩ : PyComplex) * b = nan := by
  change (⟨_, _⟩ : PyComplex) = _
  simp only [nan, PyFloat.nan_mul, PyFloat.sub_nan, PyFloat.add_nan]
theorem nan_re_mul (x : PyFloat) (b : PyComplex) : (⟨.nan, x⟩ : PyComplex) * b = nan := by
  change (⟨_, _⟩ : PyComplex) = _
  simp only [nan, PyFloat.nan_mul, PyFloat.nan_sub, PyFloat.nan_add]

/-- A real number that is not finite, times one. -/
theorem ofFloat_mul_one {x : PyFloat} (h : ¬ x.Finite) : ofFloat x * fin 1 = ⟨x, .nan⟩ := by
  change (⟨_, _⟩ : PyComplex) = _
  cases x
  · exact absurd (finite_fin _) h
  · simp only [ofFloat, fin, Complex.one_re, Complex.one_im, pinf_mul_pos one_pos, PyFloat.fin_mul_fin, pinf_mul_zero, PyFloat.nan_add]
    rfl
  · simp only [ofFloat, fin, Complex.one_re, Complex.one_im, ninf_mul_pos one_pos, PyFloat.fin_mul_fin, ninf_mul_zero, PyFloat.nan_add]
    rfl
  · simp only [ofFloat, fin, PyFloat.nan_mul, PyFloat.nan_add, PyFloat.nan_sub]

theorem nan_div (a : PyComplex) : nan / a = nan := by
  change div _ _ = _
  unfold div
  split
  · split_ifs <;> simp only [nan, PyFloat.nan_div, PyFloat.nan_mul, PyFloat.nan_add, PyFloat.nan_sub]
  · rfl

end PyComplex

/-- An array of three complex numbers with finite entries. -/
def cfl (v : V3 ℂ) : V3 PyComplex := v.map PyComplex.fin

/-- An array of three complex NaN. -/
def V3.cnan : V3 PyComplex := ⟨.nan, .nan, .nan⟩

end Verif
