import Verif.Props.UnitsTransient

/-!
# C111: the results do not depend on the system of units (coordinates)
-/

namespace Verif.Spatial

variable (u : Units) (k : ℝ) (g v : V3 ℝ)

theorem rho_units : √((u.length * g.x) ^ 2 + (u.length * g.y) ^ 2) = u.length * √(g.x ^ 2 + g.y ^ 2) := by
  rw [← Fdem.sqrt_scale u.length_pos]
  refine congrArg Real.sqrt ?_
  ring

/-- **C111.** Conversion of points: the distances are lengths and the angles pure numbers. -/
theorem points_units :
    cartToCyl (u.length • g) = ⟨u.length * (cartToCyl g).x, (cartToCyl g).y, u.length * (cartToCyl g).z⟩ ∧
    cylToCart ⟨u.length * g.x, g.y, u.length * g.z⟩ = u.length • cylToCart g ∧
    cartToSph (u.length • g) = ⟨u.length * (cartToSph g).x, (cartToSph g).y, (cartToSph g).z⟩ ∧
    sphToCart ⟨u.length * g.x, g.y, g.z⟩ = u.length • sphToCart g := by
  have hL := u.length_pos
  refine ⟨?_, ?_, ?_, ?_⟩
  · simp only [cartToCyl, V3.smul_x, V3.smul_y, V3.smul_z, smul_eq_mul, rho_units, Tdem.arctan2_scale hL]
  · ext <;> simp only [cylToCart, V3.smul_x, V3.smul_y, V3.smul_z, smul_eq_mul, mul_assoc]
  · simp only [cartToSph, V3.len_smul, abs_of_pos hL, V3.smul_x, V3.smul_y, V3.smul_z, smul_eq_mul, rho_units, Tdem.arctan2_scale hL]
  · ext <;> simp only [sphToCart, V3.smul_x, V3.smul_y, V3.smul_z, smul_eq_mul, mul_assoc]

/-- **C111.** Conversion of vectors measured in any unit, attached to points: the cylindrical ones, and the spherical ones towards Cartesian
components.  The other direction: `cartToSphVec_depends_on_units`. -/
theorem vectors_units :
    cartToCylVec (u.length • g) (k • v) = k • cartToCylVec g v ∧
    cylToCartVec ⟨u.length * g.x, g.y, u.length * g.z⟩ (k • v) = k • cylToCartVec g v ∧
    sphToCartVec ⟨u.length * g.x, g.y, g.z⟩ (k • v) = k • sphToCartVec g v := by
  have hL := u.length_pos
  refine ⟨?_, ?_, ?_⟩
  · ext <;> simp only [cartToCylVec, V3.smul_x, V3.smul_y, V3.smul_z, smul_eq_mul, Tdem.arctan2_scale hL] <;> ring
  · ext <;> simp only [cylToCartVec, V3.smul_x, V3.smul_y, V3.smul_z, smul_eq_mul] <;> ring
  · ext <;> simp only [sphToCartVec, V3.smul_x, V3.smul_y, V3.smul_z, smul_eq_mul] <;> ring

/-- **C111, in part.** The radial and azimuthal components of a vector do not depend on the unit of length nor on the unit of the vector. -/
theorem cartToSphVec_units_partial :
    (cartToSphVec (u.length • g) (k • v)).x = k * (cartToSphVec g v).x ∧ (cartToSphVec (u.length • g) (k • v)).y = k * (cartToSphVec g v).y := by
  have hL := u.length_pos
  refine ⟨?_, ?_⟩ <;>
    simp only [cartToSphVec, V3.smul_x, V3.smul_y, V3.smul_z, smul_eq_mul, rho_units, Tdem.arctan2_scale hL] <;> ring

/-- The polar component is computed with the cosine of the azimuthal component in the place of the cosine of the azimuth, so it depends on the
unit of the vector. -/
theorem cartToSphVec_depends_on_units : ∃ (g v : V3 ℝ) (k : ℝ), 0 < k ∧ (cartToSphVec g (k • v)).z ≠ k * (cartToSphVec g v).z := by
  refine ⟨⟨1, 0, 1⟩, ⟨1, Real.pi, 0⟩, 2, by norm_num, ?_⟩
  have h1 : arctan2 0 1 = 0 := by
    have : (⟨1, 0⟩ : ℂ) = 1 := by apply Complex.ext <;> simp
    rw [arctan2, this, Complex.arg_one]
  have h0 : Real.sqrt 1 = 1 := Real.sqrt_one
  have hc : 0 < Real.cos (arctan2 1 1) := by
    rw [arctan2, Complex.cos_arg (by intro h; have := congrArg Complex.re h; simp at this)]
    have : 0 < ‖(⟨1, 1⟩ : ℂ)‖ := norm_pos_iff.2 (by intro h; have := congrArg Complex.re h; simp at this)
    positivity
  simp only [cartToSphVec, V3.smul_x, V3.smul_y, V3.smul_z, smul_eq_mul]
  norm_num [h1, h0]
  generalize Real.cos (arctan2 1 1) = c at *
  intro h
  nlinarith [Real.pi_pos]

end Verif.Spatial
