import Verif.Lemmas.PrismThird

/-!
# C18, C19, C24, C25 at every point off the surface of the prism

Also on the planes of the faces and on the lines of the edges, where the kernels take their special branches.
-/

namespace Verif.Prism

open Real Filter Topology

/-- The point is not on the surface of the box: it is outside the closed box or inside the open one. -/
def Box.OffSurface (b : Box) (p : V3 ℝ) : Prop :=
  (p.x, p.y, p.z) ∉ b.closed ∨
    (b.min.x < p.x ∧ p.x < b.max.x) ∧ (b.min.y < p.y ∧ p.y < b.max.y) ∧ b.min.z < p.z ∧ p.z < b.max.z

theorem offPlanes_of_inside (b : Box) (p : V3 ℝ)
    (h : (b.min.x < p.x ∧ p.x < b.max.x) ∧ (b.min.y < p.y ∧ p.y < b.max.y) ∧ b.min.z < p.z ∧ p.z < b.max.z) : b.OffPlanes p := by
  obtain ⟨⟨h1, h2⟩, ⟨h3, h4⟩, h5, h6⟩ := h
  exact ⟨⟨(sub_neg.2 h1).ne, (sub_neg.2 h3).ne, (sub_neg.2 h5).ne⟩,
    (sub_pos.2 h2).ne', (sub_pos.2 h4).ne', (sub_pos.2 h6).ne'⟩

/-- **C18.** Off the surface of the prism the gradient tensor is the Jacobian of the field. -/
theorem gravPrism_gradient_is_jacobian_off_surface (s : GravPrism) (h : s.box.Proper) (p : V3 ℝ) (hp : s.box.OffSurface p) :
    HasJac s.gravitationalField (s.gravitationalGradient p) p := by
  rcases hp with hp | hp
  · obtain ⟨h1, h2, h3⟩ := grad_fz_out s.box h p hp
    refine ⟨?_, ?_, ?_⟩
    · refine (h1.const_mul (-Gravity.G * s.rho)).congr ?_
      ext <;> simp [GravPrism.gravitationalGradient]
    · refine (h2.const_mul (-Gravity.G * s.rho)).congr ?_
      ext <;> simp [GravPrism.gravitationalGradient]
    · refine (h3.const_mul (-Gravity.G * s.rho)).congr ?_
      ext <;> simp [GravPrism.gravitationalGradient]
  · exact gravPrism_gradient_is_jacobian s p (offPlanes_of_inside _ _ hp)

/-- **C19.** Poisson's equation inside and Laplace's outside, at every point off the surface. -/
theorem gravPrism_poisson_off_surface (s : GravPrism) (h : s.box.Proper) (p : V3 ℝ) :
    ((p.x, p.y, p.z) ∉ s.box.closed → HasDiv s.gravitationalField 0 p) ∧
    ((s.box.min.x < p.x ∧ p.x < s.box.max.x) ∧ (s.box.min.y < p.y ∧ p.y < s.box.max.y) ∧
      s.box.min.z < p.z ∧ p.z < s.box.max.z → HasDiv s.gravitationalField (-4 * π * Gravity.G * s.rho) p) := by
  constructor
  · intro hp
    refine ⟨_, gravPrism_gradient_is_jacobian_off_surface s h p (.inl hp), gravPrism_trace_outside s h p ?_⟩
    by_contra hc
    push Not at hc
    exact hp ⟨⟨hc.1, hc.2.1⟩, ⟨hc.2.2.1, hc.2.2.2.1⟩, ⟨hc.2.2.2.2.1, hc.2.2.2.2.2⟩⟩
  · intro hp
    exact ⟨_, gravPrism_gradient_is_jacobian_off_surface s h p (.inr hp), gravPrism_trace_inside s p hp.1 hp.2.1 hp.2.2⟩

/-- **C18.** Off the surface the field is free of curl. -/
theorem gravPrism_curl_off_surface (s : GravPrism) (h : s.box.Proper) (p : V3 ℝ) (hp : s.box.OffSurface p) :
    HasCurl s.gravitationalField 0 p := by
  refine ⟨_, gravPrism_gradient_is_jacobian_off_surface s h p hp, ?_⟩
  ext <;> simp [M3.curl, GravPrism.gravitationalGradient]

/-- **C24.** Off the surface `H` is the gradient of the scalar potential. -/
theorem magPrism_field_is_gradient_off_surface (s : MagPrism) (h : s.box.Proper) (p : V3 ℝ) (hp : s.box.OffSurface p) :
    HasGrad s.scalarPotential (s.magneticField p) p := by
  rcases hp with hp | hp
  · obtain ⟨h1, h2, h3⟩ := grad_fz_out s.box h p hp
    have hg := (((h1.mul_const s.magnetization.x).add (h2.mul_const s.magnetization.y)).add
      (h3.mul_const s.magnetization.z)).const_mul (-1.0 / (4 * π))
    refine HasGrad.congr hg ?_
    ext <;> simp [MagPrism.magneticField]
  · exact magPrism_field_is_gradient s p (offPlanes_of_inside _ _ hp)

/-- **C25.** Off the surface the gradient tensor of the magnetised prism is the Jacobian of `H`. -/
theorem magPrism_gradient_is_jacobian_off_surface (s : MagPrism) (h : s.box.Proper) (p : V3 ℝ) (hp : s.box.OffSurface p) :
    HasJac s.magneticField (s.magneticFieldGradient p) p := by
  rcases hp with hp | hp
  · obtain ⟨zz, xx, yy⟩ := third_entries s.box h p hp
    obtain ⟨xz, xy⟩ := grad_fzx_out s.box h p hp
    have yz := grad_fzy_out s.box h p hp
    refine ⟨?_, ?_, ?_⟩
    · have hg := (((xx.mul_const s.magnetization.x).add (xy.mul_const s.magnetization.y)).add
        (xz.mul_const s.magnetization.z)).const_mul (-1.0 / (4 * π))
      refine HasGrad.congr hg ?_
      ext <;> simp [MagPrism.magneticFieldGradient]
    · have hg := (((xy.mul_const s.magnetization.x).add (yy.mul_const s.magnetization.y)).add
        (yz.mul_const s.magnetization.z)).const_mul (-1.0 / (4 * π))
      refine HasGrad.congr hg ?_
      ext <;> simp [MagPrism.magneticFieldGradient]
    · have hg := (((xz.mul_const s.magnetization.x).add (yz.mul_const s.magnetization.y)).add
        (zz.mul_const s.magnetization.z)).const_mul (-1.0 / (4 * π))
      refine HasGrad.congr hg ?_
      ext <;> simp [MagPrism.magneticFieldGradient]
  · exact magPrism_gradient_is_jacobian s p (offPlanes_of_inside _ _ hp)

/-- **C24.** Off the surface the flux density is free of divergence. -/
theorem magPrism_div_B_off_surface (s : MagPrism) (h : s.box.Proper) (p : V3 ℝ) (hp : s.box.OffSurface p) :
    HasDiv s.magneticFluxDensity 0 p := by
  rcases hp with hp | hp
  · obtain ⟨hx, hy, hz⟩ := magPrism_gradient_is_jacobian_off_surface s h p (.inl hp)
    have hout : ∀ v : V3 ℝ, ∀ᶠ t : ℝ in 𝓝 0, s.magneticFluxDensity (p + t • v) = (s.magneticField (p + t • v)).map (mu0 * ·) := by
      intro v
      filter_upwards [line_out s.box p hp v] with t ht
      have hin : ¬s.isInside (p + t • v) := fun hc => ht ⟨⟨hc.1.1, hc.2.1⟩, ⟨hc.1.2.1, hc.2.2.1⟩, ⟨hc.1.2.2, hc.2.2.2⟩⟩
      rw [MagPrism.magneticFluxDensity, if_neg hin]
    obtain ⟨z0, z1, z2⟩ := evalDefInt_fzzz s.box h p hp
    refine ⟨(s.magneticFieldGradient p).map (fun row => row.map (mu0 * ·)), ⟨?_, ?_, ?_⟩, ?_⟩
    · refine (hx.const_mul mu0).congr_of_lines fun v => ?_
      filter_upwards [hout v] with t ht
      rw [ht]
      rfl
    · refine (hy.const_mul mu0).congr_of_lines fun v => ?_
      filter_upwards [hout v] with t ht
      rw [ht]
      rfl
    · refine (hz.const_mul mu0).congr_of_lines fun v => ?_
      filter_upwards [hout v] with t ht
      rw [ht]
      rfl
    · simp only [M3.trace, V3.map_x, V3.map_y, V3.map_z, MagPrism.magneticFieldGradient, z0, z1, z2]
      generalize (-1.0 / (4 * π) : ℝ) = k
      ring
  · exact magPrism_div_B s p (offPlanes_of_inside _ _ hp)

/-- **C24.** Off the surface `H` is free of curl. -/
theorem magPrism_curl_off_surface (s : MagPrism) (h : s.box.Proper) (p : V3 ℝ) (hp : s.box.OffSurface p) :
    HasCurl s.magneticField 0 p := by
  refine ⟨_, magPrism_gradient_is_jacobian_off_surface s h p hp, ?_⟩
  ext <;> simp [M3.curl, MagPrism.magneticFieldGradient]

/-- Points off the surface but on the planes of the faces and on the line of an edge. -/
example : Box.OffSurface ⟨⟨0, 0, 0⟩, ⟨1, 2, 3⟩⟩ ⟨0, 0, 4⟩ ∧ ¬Box.OffPlanes ⟨⟨0, 0, 0⟩, ⟨1, 2, 3⟩⟩ ⟨0, 0, 4⟩ ∧
    Box.OffSurface ⟨⟨0, 0, 0⟩, ⟨1, 2, 3⟩⟩ ⟨1 / 2, 1, 1⟩ := by
  norm_num [Box.OffSurface, Box.OffPlanes, Box.closed]

end Verif.Prism
