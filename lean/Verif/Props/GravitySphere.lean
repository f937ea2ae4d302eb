import Verif.Model.Gravity
import Verif.Lemmas.SphereRegion
import Verif.Props.GravityPointMass

/-! # C15, C16: homogeneous sphere -/

namespace Verif.Gravity

open V3

/-- **C15.** The field of a sphere is the gradient of its potential at *every* point of space: outside,
inside, at the centre and on the surface. -/
theorem sphere_field_is_gradient (s : Sphere) (hR : 0 < s.radius) (p : V3 ℝ) :
    HasGrad s.gravitationalPotential (s.gravitationalField p) p := by
  rcases lt_trichotomy (p - s.location).len s.radius with h | h | h
  · -- inside
    have hq := hasGrad_quad s.location p (G * 2 / 3 * Real.pi * s.rho) s.radius
    refine (hq.congr ?_).congr_of_lines fun v => ?_
    · have : ¬ (p - s.location).len > s.radius := not_lt.2 h.le
      simp only [Sphere.gravitationalField, if_neg this]
      ext <;> simp <;> ring
    · filter_upwards [eventually_len_lt s.location p s.radius h v] with t ht
      simp only [Sphere.gravitationalPotential]
      rw [if_neg (not_lt.2 ht.le)]
  · -- on the surface
    have hr : (p - s.location).len ≠ 0 := by rw [h]; exact hR.ne'
    have hd : HasDerivAt (fun r : ℝ => if r > s.radius then (G * s.mass) / r
        else G * 2 / 3 * Real.pi * s.rho * (3 * s.radius ^ 2 - r ^ 2))
        (-(G * 4 / 3 * Real.pi * s.rho * s.radius)) s.radius := by
      have h1 : HasDerivAt (fun r : ℝ => (G * s.mass) / r)
          (-(G * 4 / 3 * Real.pi * s.rho * s.radius)) s.radius := by
        refine ((hasDerivAt_const _ (G * s.mass)).div (hasDerivAt_id _) hR.ne').congr_deriv ?_
        simp only [Sphere.mass, id]; field_simp; ring
      have h2 : HasDerivAt (fun r : ℝ => G * 2 / 3 * Real.pi * s.rho * (3 * s.radius ^ 2 - r ^ 2))
          (-(G * 4 / 3 * Real.pi * s.rho * s.radius)) s.radius := by
        refine ((((hasDerivAt_id s.radius).pow 2).const_sub (3 * s.radius ^ 2)).const_mul
          (G * 2 / 3 * Real.pi * s.rho)).congr_deriv ?_
        simp; ring
      rw [← hasDerivWithinAt_univ, ← Set.Iic_union_Ici (a := s.radius)]
      refine HasDerivWithinAt.union ?_ ?_
      · refine h2.hasDerivWithinAt.congr (fun x hx => ?_) ?_
        · rw [if_neg (not_lt.2 hx)]
        · rw [if_neg (lt_irrefl _)]
      · refine h1.hasDerivWithinAt.congr (fun x hx => ?_) ?_
        · rcases eq_or_lt_of_le (Set.mem_Ici.1 hx) with e | e
          · subst e
            rw [if_neg (lt_irrefl _)]; simp only [Sphere.mass]; field_simp; ring
          · rw [if_pos e]
        · rw [if_neg (lt_irrefl _)]; simp only [Sphere.mass]; field_simp; ring
    have hg := hasGrad_radial s.location p hr (by rw [h]; exact hd)
    refine HasGrad.congr hg ?_
    have : ¬ (p - s.location).len > s.radius := by rw [h]; exact lt_irrefl _
    simp only [Sphere.gravitationalField, if_neg this]
    ext <;> simp [h] <;> field_simp
  · -- outside
    have hp : p ≠ s.toPointMass.location := by
      rintro e
      have : (p - s.location).len = 0 := by rw [e]; simp [Sphere.toPointMass, V3.len]
      linarith
    have hg := pointMass_field_is_gradient s.toPointMass p hp
    refine (hg.congr ?_).congr_of_lines fun v => ?_
    · simp only [Sphere.gravitationalField, if_pos h]
    · filter_upwards [eventually_lt_len s.location p s.radius hR.le h v] with t ht
      simp only [Sphere.gravitationalPotential, if_pos ht]

/-- **C15.** On the surface the interior and the exterior formulas give the same potential and the same field:
both are continuous across the surface. -/
theorem sphere_continuous_across_surface (s : Sphere) (hR : 0 < s.radius) (p : V3 ℝ)
    (hp : (p - s.location).len = s.radius) :
    s.gravitationalPotential p = (PointMass.mk s.mass s.location).gravitationalPotential p ∧
    s.gravitationalField p = (PointMass.mk s.mass s.location).gravitationalField p := by
  have : ¬ (p - s.location).len > s.radius := by rw [hp]; exact lt_irrefl _
  constructor
  · simp only [Sphere.gravitationalPotential, if_neg this]
    simp only [PointMass.gravitationalPotential, hp, Sphere.mass]
    field_simp; ring
  · simp only [Sphere.gravitationalField, if_neg this]
    simp only [PointMass.gravitationalField, hp, Sphere.mass]
    ext <;> simp <;> field_simp

/-- **C16.** Outside, a sphere is indistinguishable from a point mass of the same total mass
`4/3 π R³ ρ` at its centre. -/
theorem sphere_exterior_eq_pointMass (s : Sphere) (p : V3 ℝ) (h : s.radius < (p - s.location).len) :
    let m : PointMass := ⟨4 / 3 * Real.pi * s.radius ^ 3 * s.rho, s.location⟩
    s.gravitationalPotential p = m.gravitationalPotential p ∧
    s.gravitationalField p = m.gravitationalField p ∧
    s.gravitationalGradient p = some (m.gravitationalGradient p) := by
  refine ⟨?_, ?_, ?_⟩
  · simp only [Sphere.gravitationalPotential, if_pos h]; rfl
  · simp only [Sphere.gravitationalField, if_pos h]; rfl
  · simp only [Sphere.gravitationalGradient, if_neg h.ne', if_pos h]; rfl

/-- **C16.** Off the surface a tensor is returned and it is the Jacobian of the field. -/
theorem sphere_gradient_is_jacobian (s : Sphere) (hR : 0 < s.radius) (p : V3 ℝ)
    (hp : (p - s.location).len ≠ s.radius) :
    ∃ J, s.gravitationalGradient p = some J ∧ HasJac s.gravitationalField J p ∧ J.IsSymm := by
  rcases lt_or_gt_of_ne hp with h | h
  · have hn : ¬ (p - s.location).len > s.radius := not_lt.2 h.le
    refine ⟨_, by simp only [Sphere.gravitationalGradient, if_neg hp, if_neg hn]; rfl, ?_, ?_⟩
    · have hin : ∀ v : V3 ℝ, ∀ᶠ t : ℝ in nhds 0, s.gravitationalField (p + t • v) =
          (p + t • v - s.location).map (fun c => -G * 4 / 3 * Real.pi * s.rho * c) := by
        intro v
        filter_upwards [eventually_len_lt s.location p s.radius h v] with t ht
        simp only [Sphere.gravitationalField]
        rw [if_neg (not_lt.2 ht.le)]
      refine ⟨?_, ?_, ?_⟩
      · refine (((hasGrad_sub_x s.location p).const_mul (-G * 4 / 3 * Real.pi * s.rho)).congr
          ?_).congr_of_lines fun v => ?_
        · ext <;> simp
        · filter_upwards [hin v] with t ht
          rw [ht]; simp
      · refine (((hasGrad_sub_y s.location p).const_mul (-G * 4 / 3 * Real.pi * s.rho)).congr
          ?_).congr_of_lines fun v => ?_
        · ext <;> simp
        · filter_upwards [hin v] with t ht
          rw [ht]; simp
      · refine (((hasGrad_sub_z s.location p).const_mul (-G * 4 / 3 * Real.pi * s.rho)).congr
          ?_).congr_of_lines fun v => ?_
        · ext <;> simp
        · filter_upwards [hin v] with t ht
          rw [ht]; simp
    · unfold M3.IsSymm M3.transpose; simp
  · have hpl : p ≠ s.toPointMass.location := by
      rintro e
      have : (p - s.location).len = 0 := by rw [e]; simp [Sphere.toPointMass, V3.len]
      linarith
    refine ⟨s.toPointMass.gravitationalGradient p,
      by simp only [Sphere.gravitationalGradient, if_neg hp, if_pos h], ?_,
      pointMass_gradient_symm _ _⟩
    obtain ⟨hx, hy, hz⟩ := pointMass_gradient_is_jacobian s.toPointMass p hpl
    have hout : ∀ v : V3 ℝ, ∀ᶠ t : ℝ in nhds 0, s.gravitationalField (p + t • v) =
        s.toPointMass.gravitationalField (p + t • v) := by
      intro v
      filter_upwards [eventually_lt_len s.location p s.radius hR.le h v] with t ht
      simp only [Sphere.gravitationalField, if_pos ht]
    refine ⟨hx.congr_of_lines fun v => ?_, hy.congr_of_lines fun v => ?_,
      hz.congr_of_lines fun v => ?_⟩ <;>
    · filter_upwards [hout v] with t ht
      rw [ht]

/-- **C16.** Poisson's equation: the divergence of the field is `-4πGρ` inside, `0` outside, and equals the trace
of the returned tensor. -/
theorem sphere_poisson (s : Sphere) (hR : 0 < s.radius) (p : V3 ℝ) :
    ((p - s.location).len < s.radius →
      HasDiv s.gravitationalField (-4 * Real.pi * G * s.rho) p) ∧
    (s.radius < (p - s.location).len → HasDiv s.gravitationalField 0 p) := by
  constructor
  · intro h
    obtain ⟨J, hJ, hjac, -⟩ := sphere_gradient_is_jacobian s hR p h.ne
    refine ⟨J, hjac, ?_⟩
    have hn : ¬ (p - s.location).len > s.radius := not_lt.2 h.le
    simp only [Sphere.gravitationalGradient, if_neg h.ne, if_neg hn, Option.some.injEq] at hJ
    rw [← hJ]; simp only [M3.trace]; ring
  · intro h
    obtain ⟨J, hJ, hjac, -⟩ := sphere_gradient_is_jacobian s hR p h.ne'
    refine ⟨J, hjac, ?_⟩
    have hpl : p ≠ s.toPointMass.location := by
      rintro e
      have : (p - s.location).len = 0 := by rw [e]; simp [Sphere.toPointMass, V3.len]
      linarith
    simp only [Sphere.gravitationalGradient, if_neg h.ne', gt_iff_lt, if_pos h,
      Option.some.injEq] at hJ
    rw [← hJ]; exact pointMass_gradient_traceless _ _ hpl

/-- **C16.** Exactly on the surface the tensor is NaN, and nowhere else. -/
theorem sphere_gradient_nan_iff_surface (s : Sphere) (p : V3 ℝ) :
    s.gravitationalGradient p = none ↔ (p - s.location).len = s.radius := by
  unfold Sphere.gravitationalGradient
  simp only
  split_ifs with h1 h2 <;> simp [h1]

/-- Non-vacuity: a sphere with points inside, on, and outside its surface. -/
example : ∃ (s : Sphere) (a b c : V3 ℝ), 0 < s.radius ∧ (a - s.location).len < s.radius ∧
    (b - s.location).len = s.radius ∧ s.radius < (c - s.location).len := by
  refine ⟨⟨5, 1, ⟨0, 0, 0⟩⟩, ⟨0, 0, 0⟩, ⟨3, 4, 0⟩, ⟨6, 8, 0⟩, by norm_num, ?_, ?_, ?_⟩
  · simp [V3.len]
  · simp only [V3.len, V3.sub_x, V3.sub_y, V3.sub_z]
    rw [Real.sqrt_eq_iff_eq_sq] <;> norm_num
  · simp only [V3.len, V3.sub_x, V3.sub_y, V3.sub_z]
    rw [Real.lt_sqrt] <;> norm_num

end Verif.Gravity
