import Verif.Model.Spatial

/-! # `arctan2` (helper lemmas) -/

namespace Verif.Spatial

theorem arctan2_mem (y x : ℝ) : -Real.pi < arctan2 y x ∧ arctan2 y x ≤ Real.pi :=
  ⟨Complex.neg_pi_lt_arg _, Complex.arg_le_pi _⟩

theorem norm_mk (x y : ℝ) : ‖(⟨x, y⟩ : ℂ)‖ = Real.sqrt (x ^ 2 + y ^ 2) := by
  rw [Complex.norm_def, Complex.normSq_mk]; congr 1; ring

theorem sqrt_mul_cos_arctan2 (y x : ℝ) :
    Real.sqrt (x ^ 2 + y ^ 2) * Real.cos (arctan2 y x) = x := by
  have h := Complex.norm_mul_cos_arg (⟨x, y⟩ : ℂ)
  rwa [norm_mk] at h

theorem sqrt_mul_sin_arctan2 (y x : ℝ) :
    Real.sqrt (x ^ 2 + y ^ 2) * Real.sin (arctan2 y x) = y := by
  have h := Complex.norm_mul_sin_arg (⟨x, y⟩ : ℂ)
  rwa [norm_mk] at h

theorem arctan2_polar {r t : ℝ} (hr : 0 < r) (h1 : -Real.pi < t) (h2 : t ≤ Real.pi) :
    arctan2 (r * Real.sin t) (r * Real.cos t) = t := by
  have h := Complex.arg_mul_cos_add_sin_mul_I hr (θ := t) ⟨h1, h2⟩
  have e : (⟨r * Real.cos t, r * Real.sin t⟩ : ℂ) = r * (Complex.cos t + Complex.sin t * Complex.I) := by
    rw [← Complex.ofReal_cos, ← Complex.ofReal_sin]
    apply Complex.ext <;> simp [-Complex.ofReal_cos, -Complex.ofReal_sin]
  rw [arctan2, e]
  exact h

theorem arctan2_nonneg {y : ℝ} (hy : 0 ≤ y) (x : ℝ) : 0 ≤ arctan2 y x :=
  Complex.arg_nonneg_iff.2 hy

theorem sqrt_polar {r : ℝ} (hr : 0 ≤ r) (t : ℝ) :
    Real.sqrt ((r * Real.cos t) ^ 2 + (r * Real.sin t) ^ 2) = r := by
  rw [show (r * Real.cos t) ^ 2 + (r * Real.sin t) ^ 2 = r ^ 2 by
    linear_combination r ^ 2 * Real.sin_sq_add_cos_sq t]
  exact Real.sqrt_sq hr

end Verif.Spatial
