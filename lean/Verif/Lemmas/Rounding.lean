import Verif.Spec.Rounding
import Mathlib.Analysis.Convex.SpecificFunctions.Basic
import Mathlib.Analysis.SpecialFunctions.Pow.Real
import Mathlib.Tactic.LinearCombination
import Mathlib.Tactic.Positivity

/-!
# Propagation of relative errors

`Near u n x y`: `y = x t` with `(1 - u)ⁿ ≤ t ≤ (1 - u)⁻ⁿ`.
-/

namespace Verif

/-- `y` is `x` times a factor that `n` roundings can produce. -/
def Near (u n x y : ℝ) : Prop := ∃ t, (1 - u) ^ n ≤ t ∧ t ≤ (1 - u) ^ (-n) ∧ y = x * t

namespace Near

variable {u n m x y z w : ℝ}

theorem refl (x : ℝ) : Near u 0 x x := ⟨1, by simp, by simp, by ring⟩

theorem factor_pos (hu1 : u < 1) {t : ℝ} (h : (1 - u) ^ n ≤ t) : 0 < t :=
  lt_of_lt_of_le (Real.rpow_pos_of_pos (by linarith) _) h

theorem mono (hu : 0 ≤ u) (hu1 : u < 1) (h : Near u n x y) (hnm : n ≤ m) : Near u m x y := by
  obtain ⟨t, h1, h2, h3⟩ := h
  refine ⟨t, le_trans ?_ h1, le_trans h2 ?_, h3⟩
  · exact Real.rpow_le_rpow_of_exponent_ge (by linarith) (by linarith) hnm
  · exact Real.rpow_le_rpow_of_exponent_ge (by linarith) (by linarith) (by linarith)

theorem trans (hu1 : u < 1) (h : Near u n x y) (h' : Near u m y z) : Near u (n + m) x z := by
  have hq : (0 : ℝ) < 1 - u := by linarith
  obtain ⟨t, h1, h2, rfl⟩ := h
  obtain ⟨s, k1, k2, rfl⟩ := h'
  refine ⟨t * s, ?_, ?_, by ring⟩
  · rw [Real.rpow_add hq]
    exact mul_le_mul h1 k1 (Real.rpow_pos_of_pos hq _).le (factor_pos hu1 h1).le
  · rw [neg_add, Real.rpow_add hq]
    exact mul_le_mul h2 k2 (factor_pos hu1 k1).le (Real.rpow_pos_of_pos hq _).le

theorem symm (hu1 : u < 1) (h : Near u n x y) : Near u n y x := by
  have hq : (0 : ℝ) < 1 - u := by linarith
  obtain ⟨t, h1, h2, rfl⟩ := h
  have ht := factor_pos hu1 h1
  refine ⟨t⁻¹, ?_, ?_, by field_simp⟩
  · rw [le_inv_comm₀ (Real.rpow_pos_of_pos hq _) ht, ← Real.rpow_neg hq.le]; exact h2
  · rw [Real.rpow_neg hq.le]; exact inv_anti₀ (Real.rpow_pos_of_pos hq _) h1

theorem mul (hu1 : u < 1) (h : Near u n x y) (h' : Near u m z w) : Near u (n + m) (x * z) (y * w) := by
  have hq : (0 : ℝ) < 1 - u := by linarith
  obtain ⟨t, h1, h2, rfl⟩ := h
  obtain ⟨s, k1, k2, rfl⟩ := h'
  refine ⟨t * s, ?_, ?_, by ring⟩
  · rw [Real.rpow_add hq]
    exact mul_le_mul h1 k1 (Real.rpow_pos_of_pos hq _).le (factor_pos hu1 h1).le
  · rw [neg_add, Real.rpow_add hq]
    exact mul_le_mul h2 k2 (factor_pos hu1 k1).le (Real.rpow_pos_of_pos hq _).le

theorem inv (hu1 : u < 1) (h : Near u n x y) : Near u n x⁻¹ y⁻¹ := by
  have hq : (0 : ℝ) < 1 - u := by linarith
  obtain ⟨t, h1, h2, rfl⟩ := h
  have ht := factor_pos hu1 h1
  refine ⟨t⁻¹, ?_, ?_, by rw [mul_inv]⟩
  · rw [le_inv_comm₀ (Real.rpow_pos_of_pos hq _) ht, ← Real.rpow_neg hq.le]; exact h2
  · rw [Real.rpow_neg hq.le]; exact inv_anti₀ (Real.rpow_pos_of_pos hq _) h1

theorem div (hu1 : u < 1) (h : Near u n x y) (h' : Near u m z w) : Near u (n + m) (x / z) (y / w) := by
  rw [div_eq_mul_inv, div_eq_mul_inv]; exact h.mul hu1 (h'.inv hu1)

theorem neg (h : Near u n x y) : Near u n (-x) (-y) := by
  obtain ⟨t, h1, h2, rfl⟩ := h
  exact ⟨t, h1, h2, by ring⟩

theorem pow (hu1 : u < 1) (h : Near u n x y) (k : ℕ) : Near u (k * n) (x ^ k) (y ^ k) := by
  have hq : (0 : ℝ) < 1 - u := by linarith
  obtain ⟨t, h1, h2, rfl⟩ := h
  refine ⟨t ^ k, ?_, ?_, by ring⟩
  · rw [mul_comm, Real.rpow_mul hq.le, Real.rpow_natCast]
    exact pow_le_pow_left₀ (Real.rpow_pos_of_pos hq _).le h1 k
  · rw [show -((k : ℝ) * n) = -n * k by ring, Real.rpow_mul hq.le, Real.rpow_natCast]
    exact pow_le_pow_left₀ (factor_pos hu1 h1).le h2 k

theorem sqrt (hu1 : u < 1) (hx : 0 ≤ x) (h : Near u n x y) : Near u (n / 2) (Real.sqrt x) (Real.sqrt y) := by
  have hq : (0 : ℝ) < 1 - u := by linarith
  obtain ⟨t, h1, h2, rfl⟩ := h
  refine ⟨Real.sqrt t, ?_, ?_, Real.sqrt_mul hx t⟩
  · rw [show n / 2 = n * (1 / 2) by ring, Real.rpow_mul hq.le, ← Real.sqrt_eq_rpow]
    exact Real.sqrt_le_sqrt h1
  · rw [show -(n / 2) = -n * (1 / 2) by ring, Real.rpow_mul hq.le, ← Real.sqrt_eq_rpow]
    exact Real.sqrt_le_sqrt h2

theorem add (hx : 0 ≤ x) (hz : 0 ≤ z) (h : Near u n x y) (h' : Near u n z w) : Near u n (x + z) (y + w) := by
  obtain ⟨t, h1, h2, rfl⟩ := h
  obtain ⟨s, k1, k2, rfl⟩ := h'
  rcases eq_or_lt_of_le (add_nonneg hx hz) with h0 | h0
  · have e1 : x = 0 := by linarith
    have e2 : z = 0 := by linarith
    subst e1 e2
    exact ⟨t, h1, h2, by ring⟩
  · refine ⟨(x * t + z * s) / (x + z), ?_, ?_, by field_simp⟩
    · rw [le_div_iff₀ h0]
      have e1 := mul_le_mul_of_nonneg_left h1 hx
      have e2 := mul_le_mul_of_nonneg_left k1 hz
      linarith
    · rw [div_le_iff₀ h0]
      have e1 := mul_le_mul_of_nonneg_left h2 hx
      have e2 := mul_le_mul_of_nonneg_left k2 hz
      linarith

/-- One rounding. -/
theorem of_err (hu : 0 ≤ u) (hu1 : u < 1) (h : |y - x| ≤ u * |x|) : Near u 1 x y := by
  by_cases hx : x = 0
  · subst hx
    have : y = 0 := by simpa using h
    subst this
    exact ⟨1, by simpa using hu, by rw [Real.rpow_neg (by linarith), Real.rpow_one]; exact (one_le_inv₀ (by linarith)).2 (by linarith), by ring⟩
  · have hp : 0 < |x| := abs_pos.2 hx
    have e : y = x * (y / x) := by field_simp
    have hd : |y / x - 1| ≤ u := by
      have : y / x - 1 = (y - x) / x := by field_simp
      rw [this, abs_div, div_le_iff₀ hp]; exact h
    rw [abs_le] at hd
    refine ⟨y / x, by rw [Real.rpow_one]; linarith, ?_, e⟩
    rw [Real.rpow_neg (by linarith), Real.rpow_one]
    have h1 : 1 + u ≤ (1 - u)⁻¹ := by
      rw [← one_div, le_div_iff₀ (by linarith)]
      nlinarith
    linarith

/-- A nonzero number stays nonzero, and signs are kept. -/
theorem ne_zero (hu1 : u < 1) (h : Near u n x y) (hx : x ≠ 0) : y ≠ 0 := by
  obtain ⟨t, h1, h2, rfl⟩ := h
  exact mul_ne_zero hx (factor_pos hu1 h1).ne'

theorem nonneg (hu1 : u < 1) (h : Near u n x y) (hx : 0 ≤ x) : 0 ≤ y := by
  obtain ⟨t, h1, h2, rfl⟩ := h
  exact mul_nonneg hx (factor_pos hu1 h1).le

theorem pos (hu1 : u < 1) (h : Near u n x y) (hx : 0 < x) : 0 < y := by
  obtain ⟨t, h1, h2, rfl⟩ := h
  exact mul_pos hx (factor_pos hu1 h1)

/-- The factor of `n ≥ 1` roundings differs from one by at most `n u / (1 - n u)`. -/
theorem factor_close (hu : 0 ≤ u) (hn : 1 ≤ n) (hnu : n * u < 1) {t : ℝ} (h1 : (1 - u) ^ n ≤ t) (h2 : t ≤ (1 - u) ^ (-n)) :
    |t - 1| ≤ n * u / (1 - n * u) := by
  have hu1 : u < 1 := by nlinarith
  have hb : 1 - n * u ≤ (1 - u) ^ n := by
    have := one_add_mul_self_le_rpow_one_add (s := -u) (by linarith) hn
    calc 1 - n * u = 1 + n * -u := by ring
      _ ≤ (1 + -u) ^ n := this
      _ = (1 - u) ^ n := by ring_nf
  have hp : 0 < 1 - n * u := by linarith
  have hnn : 0 ≤ n * u := by positivity
  have hi : (1 - u) ^ (-n) ≤ (1 - n * u)⁻¹ := by
    rw [Real.rpow_neg (by linarith)]
    exact inv_anti₀ hp hb
  have e : n * u / (1 - n * u) = (1 - n * u)⁻¹ - 1 := by field_simp; ring
  have h3 : n * u ≤ n * u / (1 - n * u) := by
    rw [le_div_iff₀ hp]; nlinarith
  rw [abs_le]
  constructor
  · linarith
  · rw [e]; linarith

theorem accurate (hu : 0 ≤ u) (hn : 1 ≤ n) (hnu : n * u < 1) (h : Near u n x y) : Accurate u n x y := by
  obtain ⟨t, h1, h2, rfl⟩ := h
  have := factor_close hu hn hnu h1 h2
  unfold Accurate
  rw [show x * t - x = (t - 1) * x by ring, abs_mul]
  exact mul_le_mul_of_nonneg_right this (abs_nonneg _)

end Near

namespace Arith

variable {u : ℝ} (F : Arith u) (hu : 0 ≤ u) (hu1 : u < 1) {n m x y z w : ℝ}
include hu hu1

theorem near_mul (h : Near u n x y) (h' : Near u m z w) : Near u (n + m + 1) (x * z) (F.mul y w) :=
  (h.mul hu1 h').trans hu1 (Near.of_err hu hu1 (F.mul_err y w))

theorem near_div (h : Near u n x y) (h' : Near u m z w) (hz : z ≠ 0) : Near u (n + m + 1) (x / z) (F.div y w) :=
  (h.div hu1 h').trans hu1 (Near.of_err hu hu1 (F.div_err y w (h'.ne_zero hu1 hz)))

theorem near_sqrt (hx : 0 ≤ x) (h : Near u n x y) : Near u (n / 2 + 1) (Real.sqrt x) (F.sqrt y) :=
  (h.sqrt hu1 hx).trans hu1 (Near.of_err hu hu1 (F.sqrt_err y (h.nonneg hu1 hx)))

theorem near_pow (h : Near u n x y) (k : ℕ) : Near u (k * n + 1) (x ^ k) (F.pow y k) :=
  (h.pow hu1 k).trans hu1 (Near.of_err hu hu1 (F.pow_err y k))

theorem near_const (x : ℝ) : Near u 1 x (F.const x) := Near.of_err hu hu1 (F.const_err x)

theorem near_sub (x z : ℝ) : Near u 1 (x - z) (F.sub x z) := Near.of_err hu hu1 (F.sub_err x z)

theorem near_add (hx : 0 ≤ x) (hz : 0 ≤ z) (h : Near u n x y) (h' : Near u n z w) :
    Near u (n + 1) (x + z) (F.add y w) :=
  (h.add hx hz h').trans hu1 (Near.of_err hu hu1 (F.add_err y w))

end Arith

end Verif
