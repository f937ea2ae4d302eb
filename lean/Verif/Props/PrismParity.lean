import Verif.Model.PrismKernels
import Mathlib.Tactic.NormNum
import Mathlib.Tactic.Tauto

/-! # C20: the Python and the Cython prism kernels are the same functions on `ℝ³` -/

namespace Verif.Prism

open Real

private theorem r_eq_zero {x y z : ℝ} (h : √(x * x + y * y + z * z) = 0) : x = 0 ∧ y = 0 ∧ z = 0 := by
  rw [sqrt_eq_zero (add_nonneg (add_nonneg (mul_self_nonneg x) (mul_self_nonneg y))
    (mul_self_nonneg z))] at h
  refine ⟨?_, ?_, ?_⟩ <;> nlinarith [mul_self_nonneg x, mul_self_nonneg y, mul_self_nonneg z]

/-- **C20** for `prism_f`. -/
theorem prismF_parity (x y z : ℝ) : Py.prismF x y z = Cy.prismF x y z := by
  unfold Py.prismF Cy.prismF
  by_cases hx : x = 0 <;> by_cases hy : y = 0 <;> by_cases hz : z = 0 <;>
    simp only [hx, hy, hz, ne_eq, not_true_eq_false, not_false_eq_true, false_and, and_false, true_and,
      if_false, if_true, mul_zero, zero_mul, zero_div, arctan_zero, add_zero, zero_add]
  rw [mul_comm z x]
  split_ifs <;> ring_nf

/-- **C20** for `prism_fz`. -/
theorem prismFz_parity (x y z : ℝ) : Py.prismFz x y z = Cy.prismFz x y z := by
  unfold Py.prismFz Cy.prismFz
  by_cases hx : x = 0 <;> by_cases hy : y = 0 <;> by_cases hz : z = 0 <;>
    simp only [hx, hy, hz, ne_eq, not_true_eq_false, not_false_eq_true, false_and, true_and,
      if_false, if_true]

/-- **C20** for `prism_fzz`. -/
theorem prismFzz_parity (x y z : ℝ) : Py.prismFzz x y z = Cy.prismFzz x y z := rfl

/-- **C20** for `prism_fzx`. -/
theorem prismFzx_parity (x y z : ℝ) : Py.prismFzx x y z = Cy.prismFzx x y z := by
  unfold Py.prismFzx Cy.prismFzx
  by_cases h : y + √(x * x + y * y + z * z) = 0 <;> simp [h]

/-- **C20** for `prism_fzy`. -/
theorem prismFzy_parity (x y z : ℝ) : Py.prismFzy x y z = Cy.prismFzy x y z := by
  unfold Py.prismFzy Cy.prismFzy
  by_cases h : x + √(x * x + y * y + z * z) = 0 <;> simp [h]

/-- **C20** for `prism_fzzz`. -/
theorem prismFzzz_parity (x y z : ℝ) : Py.prismFzzz x y z = Cy.prismFzzz x y z := by
  unfold Py.prismFzzz Cy.prismFzzz
  norm_num

/-- **C20** for `prism_fxxy`. -/
theorem prismFxxy_parity (x y z : ℝ) : Py.prismFxxy x y z = Cy.prismFxxy x y z := by
  unfold Py.prismFxxy Cy.prismFxxy
  by_cases hx : x = 0
  · subst hx
    simpa using fun e => (r_eq_zero (x := 0) (by simpa using e)).2.1
  · have hv : x * x + y * y ≠ 0 := by
      have := mul_self_pos.2 hx; nlinarith [mul_self_nonneg y]
    have hr : √(x * x + y * y + z * z) ≠ 0 := fun e => hx (r_eq_zero e).1
    simp only [ne_eq, hx, hv, hr, not_false_eq_true, if_true]
    field_simp

/-- **C20** for `prism_fxxz`. -/
theorem prismFxxz_parity (x y z : ℝ) : Py.prismFxxz x y z = Cy.prismFxxz x y z := by
  unfold Py.prismFxxz Cy.prismFxxz
  by_cases hx : x = 0
  · subst hx
    simpa using fun e => (r_eq_zero (x := 0) (by simpa using e)).2.2
  · have hv : x * x + z * z ≠ 0 := by
      have := mul_self_pos.2 hx; nlinarith [mul_self_nonneg z]
    have hr : √(x * x + y * y + z * z) ≠ 0 := fun e => hx (r_eq_zero e).1
    simp only [ne_eq, hx, hv, hr, not_false_eq_true, if_true]
    field_simp

/-- **C20** for `prism_fxyz`. -/
theorem prismFxyz_parity (x y z : ℝ) : Py.prismFxyz x y z = Cy.prismFxyz x y z := by
  unfold Py.prismFxyz Cy.prismFxyz
  norm_num

end Verif.Prism
