import Mathlib.Analysis.RCLike.Sqrt
import Mathlib.Analysis.Complex.Norm
import Mathlib.Tactic.LinearCombination
import Mathlib.Tactic.Positivity

/-! # The principal complex square root (helper lemmas) -/

namespace Verif

theorem csqrt_sq (z : ℂ) : Complex.sqrt z ^ 2 = z := by
  rw [Complex.sqrt, ← Complex.cpow_nat_mul]; simp

theorem csqrt_re (z : ℂ) : (Complex.sqrt z).re = Real.sqrt ((‖z‖ + z.re) / 2) := by
  rw [Complex.sqrt, Complex.cpow_inv_two_re]

theorem csqrt_re_nonneg (z : ℂ) : 0 ≤ (Complex.sqrt z).re := by
  rw [csqrt_re]; exact Real.sqrt_nonneg _

theorem csqrt_im_neg {z : ℂ} (h : z.im < 0) : (Complex.sqrt z).im = -Real.sqrt ((‖z‖ - z.re) / 2) := by
  rw [Complex.sqrt, Complex.cpow_inv_two_im_eq_neg_sqrt h]

theorem csqrt_im_lt {z : ℂ} (h : z.im < 0) : (Complex.sqrt z).im < 0 := by
  rw [csqrt_im_neg h, neg_lt_zero]
  apply Real.sqrt_pos.2
  have h1 : z.re < ‖z‖ := by
    have h2 := Complex.abs_re_lt_norm.2 h.ne
    exact lt_of_le_of_lt (le_abs_self _) h2
  linarith

theorem csqrt_re_pos {z : ℂ} (h : z.im ≠ 0) : 0 < (Complex.sqrt z).re := by
  rw [csqrt_re]
  apply Real.sqrt_pos.2
  have h2 := Complex.abs_re_lt_norm.2 h
  have := neg_abs_le z.re
  linarith

/-- Two square roots with positive real part are equal. -/
theorem sq_root_unique {a b : ℂ} (h : a ^ 2 = b ^ 2) (ha : 0 < a.re) (hb : 0 ≤ b.re) : a = b := by
  rcases sq_eq_sq_iff_eq_or_eq_neg.1 h with h | h
  · exact h
  · rw [h] at ha; simp at ha; linarith

end Verif
