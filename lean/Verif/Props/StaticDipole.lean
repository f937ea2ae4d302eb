import Verif.Model.StaticWholeSpace
import Verif.Lemmas.Radial
import Verif.Lemmas.Arctan2
import Verif.Spec.Frames

/-! # C26–C28: static magnetic dipole and pole -/

namespace Verif.Static

open V3 Spatial

/-- The vector potential in dipole form. -/
theorem MagDipole.vectorPotential_eq (s : MagDipole) (q : V3 ℝ) (hq : q ≠ s.location) :
    s.vectorPotential q =
      dipX s.orientation s.location (fun r => s.moment * s.mu / (4 * Real.pi) / r ^ 3) q := by
  have hr := len_sub_ne_zero hq
  ext <;> simp [MagDipole.vectorPotential, dipX] <;> field_simp

/-- The flux density in dipole form. -/
theorem MagDipole.magneticFluxDensity_eq (s : MagDipole) (q : V3 ℝ) (hq : q ≠ s.location) :
    s.magneticFluxDensity q =
      dipF s.orientation s.location (fun r => 3 * (s.moment * s.mu / (4 * Real.pi)) / r ^ 5)
        (fun r => -(s.moment * s.mu / (4 * Real.pi)) / r ^ 3) q := by
  have hr := len_sub_ne_zero hq
  ext <;> simp [MagDipole.magneticFluxDensity, dipF, V3.dot] <;> field_simp <;> ring

/-- **C26.** Off the dipole the flux density is the curl of the vector potential. -/
theorem dipole_flux_is_curl (s : MagDipole) (p : V3 ℝ) (hp : p ≠ s.location) :
    HasCurl s.vectorPotential (s.magneticFluxDensity p) p := by
  have hr := len_sub_ne_zero hp
  refine (dipX_curl (o := s.orientation) hr (hasDerivAt_const_div_pow _ 3 hr)).congr_off hp
    (fun q hq => s.vectorPotential_eq q hq) ?_
  rw [s.magneticFluxDensity_eq p hp]
  ext <;> simp [dipF] <;> field_simp <;> ring

/-- **C26.** Off the dipole the flux density has zero divergence. -/
theorem dipole_flux_div_free (s : MagDipole) (p : V3 ℝ) (hp : p ≠ s.location) :
    HasDiv s.magneticFluxDensity 0 p := by
  have hr := len_sub_ne_zero hp
  refine (dipF_div (o := s.orientation) hr (hasDerivAt_const_div_pow _ 5 hr)
    (hasDerivAt_const_div_pow _ 3 hr)).congr_off hp (fun q hq => s.magneticFluxDensity_eq q hq) ?_
  simp only [smul_eq_mul]
  field_simp
  ring

/-- **C26.** Off the dipole the magnetic field `B / mu` has zero curl. -/
theorem dipole_field_curl_free (s : MagDipole) (p : V3 ℝ) (hp : p ≠ s.location) :
    HasCurl s.magneticField 0 p := by
  have hr := len_sub_ne_zero hp
  refine (dipF_curl (o := s.orientation) hr
    (hasDerivAt_const_div_pow (3 * (s.moment * s.mu / (4 * Real.pi)) / s.mu) 5 hr)
    (hasDerivAt_const_div_pow (-(s.moment * s.mu / (4 * Real.pi)) / s.mu) 3 hr)).congr_off hp
    (fun q hq => ?_) ?_
  · rw [MagDipole.magneticField, s.magneticFluxDensity_eq q hq]
    ext <;> simp [dipF] <;> ring
  · ext <;> simp <;> field_simp <;> simp

/-- **C26.** The field is the flux density over the permeability. -/
theorem dipole_field_eq (s : MagDipole) (p : V3 ℝ) (hmu : 0 < s.mu) :
    s.mu • s.magneticField p = s.magneticFluxDensity p := by
  have := hmu.ne'
  ext <;> simp [MagDipole.magneticField] <;> field_simp

/-- **C26.** Potential and flux are linear in the moment and in the orientation. -/
theorem dipole_linear (s : MagDipole) (m1 m2 c1 c2 : ℝ) (o1 o2 p : V3 ℝ) :
    (({ s with moment := c1 * m1 + c2 * m2 } : MagDipole).magneticFluxDensity p =
      c1 • ({ s with moment := m1 } : MagDipole).magneticFluxDensity p +
      c2 • ({ s with moment := m2 } : MagDipole).magneticFluxDensity p) ∧
    (({ s with orientation := c1 • o1 + c2 • o2 } : MagDipole).magneticFluxDensity p =
      c1 • ({ s with orientation := o1 } : MagDipole).magneticFluxDensity p +
      c2 • ({ s with orientation := o2 } : MagDipole).magneticFluxDensity p) ∧
    (({ s with moment := c1 * m1 + c2 * m2 } : MagDipole).vectorPotential p =
      c1 • ({ s with moment := m1 } : MagDipole).vectorPotential p +
      c2 • ({ s with moment := m2 } : MagDipole).vectorPotential p) ∧
    (({ s with orientation := c1 • o1 + c2 • o2 } : MagDipole).vectorPotential p =
      c1 • ({ s with orientation := o1 } : MagDipole).vectorPotential p +
      c2 • ({ s with orientation := o2 } : MagDipole).vectorPotential p) := by
  refine ⟨?_, ?_, ?_, ?_⟩ <;> ext <;>
    simp [MagDipole.magneticFluxDensity, MagDipole.vectorPotential, V3.dot] <;> ring

/-- **C26.** Absolute size, pinned on the axis of the dipole: at distance `d > 0` along a unit orientation the flux is
`mu m / (2 π d³)` times the orientation. -/
theorem dipole_flux_on_axis (s : MagDipole) (h : s.orientation.len = 1) (d : ℝ) (hd : 0 < d) :
    s.magneticFluxDensity (s.location + d • s.orientation) =
      (s.mu * s.moment / (2 * Real.pi * d ^ 3)) • s.orientation := by
  have e : s.location + d • s.orientation - s.location = d • s.orientation := by
    rw [add_sub_cancel_left]
  have hl : (d • s.orientation).len = d := by
    have h2 := len_sq s.orientation
    rw [h] at h2
    rw [V3.len, Real.sqrt_eq_iff_mul_self_eq_of_pos hd]
    simp only [smul_x, smul_y, smul_z, smul_eq_mul]
    linear_combination d ^ 2 * h2
  have h2 := len_sq s.orientation
  rw [h] at h2
  have hπ := Real.pi_pos.ne'
  have hd' := hd.ne'
  have hdot : ((d • s.orientation).map (· / d)).dot s.orientation = 1 := by
    simp only [V3.dot, map_x, map_y, map_z, smul_x, smul_y, smul_z, smul_eq_mul]
    field_simp; linear_combination -h2
  ext <;> simp only [MagDipole.magneticFluxDensity, e, hl, hdot] <;> simp <;> field_simp <;> ring

/-- Non-vacuity. -/
example : ∃ (s : MagDipole) (p : V3 ℝ), p ≠ s.location ∧ 0 < s.mu ∧ s.orientation.len = 1 :=
  ⟨⟨1, 2, ⟨0, 0, 0⟩, ⟨0, 0, 1⟩⟩, ⟨1, 1, 1⟩, by simp, by norm_num, by simp [V3.len]⟩

/-! ## C27 -/

/-- **C27.** The field of a pole is minus the gradient of `moment / (4 π r)`. -/
theorem pole_field_is_gradient (s : MagDipole) (hmu : 0 < s.mu) (p : V3 ℝ) (hp : p ≠ s.location) :
    HasGrad (fun q => s.moment / (4 * Real.pi * (q - s.location).len)) (-(s.poleField p)) p := by
  have hr := len_sub_ne_zero hp
  have hmu' := hmu.ne'
  have h := hasGrad_radial s.location p hr (hasDerivAt_const_div_pow (s.moment / (4 * Real.pi)) 1 hr)
  have e : (fun q : V3 ℝ => s.moment / (4 * Real.pi * (q - s.location).len)) =
      fun q => (s.moment / (4 * Real.pi)) / (q - s.location).len ^ 1 := by
    funext q; rw [pow_one, div_div]
  rw [e]
  refine h.congr ?_
  ext <;> simp [MagDipole.poleField, MagDipole.poleFluxDensity] <;> field_simp

/-- Jacobian of `k R / r³`. -/
theorem hasJac_inverse_square (k : ℝ) (loc p : V3 ℝ) (hp : p ≠ loc) :
    HasJac (fun q => (q - loc).map (fun c => k / (q - loc).len ^ 3 * c))
      (let R := p - loc
       let r := R.len
       let e := fun (a b δ : ℝ) => k / r ^ 3 * δ - 3 * k * a * b / r ^ 5
       ⟨⟨e R.x R.x 1, e R.x R.y 0, e R.x R.z 0⟩, ⟨e R.y R.x 0, e R.y R.y 1, e R.y R.z 0⟩,
        ⟨e R.z R.x 0, e R.z R.y 0, e R.z R.z 1⟩⟩) p := by
  have hr := len_sub_ne_zero hp
  have h := hasGrad_radial loc p hr (hasDerivAt_const_div_pow k 3 hr)
  refine ⟨?_, ?_, ?_⟩
  · refine (h.mul (hasGrad_sub_x loc p)).congr ?_
    ext <;> simp <;> field_simp <;> ring
  · refine (h.mul (hasGrad_sub_y loc p)).congr ?_
    ext <;> simp <;> field_simp <;> ring
  · refine (h.mul (hasGrad_sub_z loc p)).congr ?_
    ext <;> simp <;> field_simp <;> ring

/-- **C27.** Off the pole, the field has zero divergence and zero curl. -/
theorem pole_field_harmonic (s : MagDipole) (p : V3 ℝ) (hp : p ≠ s.location) :
    HasDiv s.poleField 0 p ∧ HasCurl s.poleField 0 p := by
  have hr := len_sub_ne_zero hp
  have h2 := len_sq (p - s.location)
  have e : s.poleField = fun q => (q - s.location).map
      (fun c => (s.moment * s.mu / (4 * Real.pi) / s.mu) / (q - s.location).len ^ 3 * c) := by
    funext q
    ext <;> simp [MagDipole.poleField, MagDipole.poleFluxDensity] <;> ring
  have h := hasJac_inverse_square (s.moment * s.mu / (4 * Real.pi) / s.mu) s.location p hp
  rw [← e] at h
  generalize s.moment * s.mu / (4 * Real.pi) / s.mu = k at h
  refine ⟨⟨_, h, ?_⟩, ⟨_, h, ?_⟩⟩
  · simp only [M3.trace]
    field_simp
    linear_combination (3 * k) * h2
  · ext <;> simp [M3.curl] <;> ring

/-! ## C28: the `coordinates` flag of the dipole and the pole (any method `f`) -/

/-- **C28.** Calling with `coordinates='cylindrical'` on the cylindrical coordinates of the point `p` returns the
cylindrical components at `p` of the Cartesian result at `p`; the flag is case-insensitive. -/
theorem withCoordinates_cylindrical (f : V3 ℝ → V3 ℝ) (c : String) (hc : c.toLower = "cylindrical")
    (p : V3 ℝ) : withCoordinates f c (cartToCyl p) = .ok (cartToCylVec p (f p)) := by
  have e : cylToCart (cartToCyl p) = p := by
    ext
    · exact sqrt_mul_cos_arctan2 p.y p.x
    · exact sqrt_mul_sin_arctan2 p.y p.x
    · rfl
  simp [withCoordinates, hc, e]

/-- **C28.** On an arbitrary cylindrical triple `(r, t, z)` with `r > 0` (any angle, not only in `(-π, π]`), the result
has the components of the Cartesian vector in the local frame at azimuth `t`. -/
theorem withCoordinates_frame (f : V3 ℝ → V3 ℝ) (c : String) (hc : c.toLower = "cylindrical")
    (q : V3 ℝ) (hq : 0 < q.x) :
    withCoordinates f c q = .ok ⟨(Frames.cylR q.y).dot (f (cylToCart q)),
      (Frames.azimuth q.y).dot (f (cylToCart q)), (f (cylToCart q)).z⟩ := by
  have h1 := sqrt_mul_cos_arctan2 (cylToCart q).y (cylToCart q).x
  have h2 := sqrt_mul_sin_arctan2 (cylToCart q).y (cylToCart q).x
  have hs : Real.sqrt ((cylToCart q).x ^ 2 + (cylToCart q).y ^ 2) = q.x := sqrt_polar hq.le q.y
  rw [hs] at h1 h2
  have hcos : Real.cos (arctan2 (cylToCart q).y (cylToCart q).x) = Real.cos q.y :=
    mul_left_cancel₀ hq.ne' h1
  have hsin : Real.sin (arctan2 (cylToCart q).y (cylToCart q).x) = Real.sin q.y :=
    mul_left_cancel₀ hq.ne' h2
  simp [withCoordinates, hc, cartToCylVec, Frames.cylR, Frames.azimuth, V3.dot, hcos, hsin]

/-- **C28.** `coordinates='cartesian'` in any capitalisation is the plain method. -/
theorem withCoordinates_cartesian (f : V3 ℝ → V3 ℝ) (c : String) (hc : c.toLower = "cartesian")
    (p : V3 ℝ) : withCoordinates f c p = .ok (f p) := by
  simp [withCoordinates, hc]

/-- **C28.** Any other word is rejected. -/
theorem withCoordinates_other (f : V3 ℝ → V3 ℝ) (c : String) (h1 : c.toLower ≠ "cartesian")
    (h2 : c.toLower ≠ "cylindrical") (p : V3 ℝ) : withCoordinates f c p = .error .assertionError := by
  simp [withCoordinates, h1, h2]

end Verif.Static
