import Verif.Model.Gravity
import Verif.Lemmas.Grad

/-! # C13, C14: point mass -/

namespace Verif.Gravity

open V3

/-- **C13.** Off the source, the field of a point mass is the gradient of its potential. -/
theorem pointMass_field_is_gradient (s : PointMass) (p : V3 ℝ) (hp : p ≠ s.location) :
    HasGrad s.gravitationalPotential (s.gravitationalField p) p := by
  have hr := len_sub_ne_zero hp
  have h := hasGrad_radial s.location p hr (g := fun r => (G * s.mass) / r)
    (((hasDerivAt_const _ (G * s.mass)).div (hasDerivAt_id _) hr))
  refine HasGrad.congr h ?_
  ext <;> simp only [PointMass.gravitationalField, V3.map_x, V3.map_y, V3.map_z, smul_eq_mul] <;>
    field_simp <;> simp <;> ring

/-- **C13.** The field has magnitude `G |m| / r²`. -/
theorem pointMass_field_magnitude (s : PointMass) (p : V3 ℝ) (hp : p ≠ s.location) :
    (s.gravitationalField p).len = G * |s.mass| / (p - s.location).len ^ 2 := by
  have hr := len_sub_pos hp
  have hG : (0 : ℝ) < G := by norm_num [G]
  have h2 := len_sq (p - s.location)
  rw [V3.len, Real.sqrt_eq_iff_eq_sq (by positivity) (by positivity)]
  simp only [PointMass.gravitationalField, V3.map_x, V3.map_y, V3.map_z, div_pow, mul_pow, sq_abs]
  field_simp
  linear_combination (- s.mass ^ 2) * h2

/-- **C13.** The field of a positive mass points toward it: it is a positive multiple of
`location - p`. -/
theorem pointMass_field_attracts (s : PointMass) (p : V3 ℝ) (hp : p ≠ s.location)
    (hm : 0 < s.mass) :
    ∃ c : ℝ, 0 < c ∧ s.gravitationalField p = c • (s.location - p) := by
  have hr := len_sub_pos hp
  have hG : (0 : ℝ) < G := by norm_num [G]
  refine ⟨G * s.mass / (p - s.location).len ^ 3, by positivity, ?_⟩
  ext <;> simp [PointMass.gravitationalField] <;> field_simp <;> ring

/-- **C14.** The gradient tensor is the Jacobian of the field. -/
theorem pointMass_gradient_is_jacobian (s : PointMass) (p : V3 ℝ) (hp : p ≠ s.location) :
    HasJac s.gravitationalField (s.gravitationalGradient p) p := by
  have hr := len_sub_ne_zero hp
  have key : HasGrad (fun q => -G * s.mass / (q - s.location).len ^ 3) _ p :=
    hasGrad_radial s.location p hr (g := fun r => -G * s.mass / r ^ 3)
    (((hasDerivAt_const _ (-G * s.mass)).div ((hasDerivAt_id _).pow 3) (pow_ne_zero 3 hr)))
  refine ⟨?_, ?_, ?_⟩
  · have h := key.mul (hasGrad_sub_x s.location p)
    have e : (fun q => (s.gravitationalField q).x) =
        fun q => -G * s.mass / (q - s.location).len ^ 3 * (q.x - s.location.x) := by
      funext q; simp [PointMass.gravitationalField]; ring
    rw [e]; refine h.congr ?_
    ext <;> simp [PointMass.gravitationalGradient] <;> field_simp <;> ring
  · have h := key.mul (hasGrad_sub_y s.location p)
    have e : (fun q => (s.gravitationalField q).y) =
        fun q => -G * s.mass / (q - s.location).len ^ 3 * (q.y - s.location.y) := by
      funext q; simp [PointMass.gravitationalField]; ring
    rw [e]; refine h.congr ?_
    ext <;> simp [PointMass.gravitationalGradient] <;> field_simp <;> ring
  · have h := key.mul (hasGrad_sub_z s.location p)
    have e : (fun q => (s.gravitationalField q).z) =
        fun q => -G * s.mass / (q - s.location).len ^ 3 * (q.z - s.location.z) := by
      funext q; simp [PointMass.gravitationalField]; ring
    rw [e]; refine h.congr ?_
    ext <;> simp [PointMass.gravitationalGradient] <;> field_simp <;> ring

/-- **C14.** The gradient tensor is symmetric. -/
theorem pointMass_gradient_symm (s : PointMass) (p : V3 ℝ) :
    (s.gravitationalGradient p).IsSymm := by
  unfold M3.IsSymm M3.transpose
  ext <;> simp [PointMass.gravitationalGradient] <;> ring

/-- **C14.** The gradient tensor is trace-free off the source (Laplace's equation). -/
theorem pointMass_gradient_traceless (s : PointMass) (p : V3 ℝ) (hp : p ≠ s.location) :
    M3.trace (s.gravitationalGradient p) = 0 := by
  have hr := len_sub_ne_zero hp
  have h2 := len_sq (p - s.location)
  simp only [M3.trace, PointMass.gravitationalGradient, V3.map_x, V3.map_y, V3.map_z]
  field_simp
  linear_combination (-3 * G * s.mass) * h2

/-- Non-vacuity: a concrete mass and observation point. -/
example : ∃ (s : PointMass) (p : V3 ℝ), p ≠ s.location ∧ 0 < s.mass :=
  ⟨⟨2, ⟨1, 0, 0⟩⟩, ⟨0, 3, 4⟩, by simp, by norm_num⟩

end Verif.Gravity
