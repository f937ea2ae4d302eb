import Verif.Lemmas.RadialIntegral
import Verif.Lemmas.Distance
import Verif.Props.GravitySphere

/-!
# C164: the energy that binds a ball

It can be had from the potential, by an integral over the ball, or from the field, by an integral over all of space.
-/

namespace Verif.Gravity

open Real MeasureTheory Set Prism

/-! ### Specification -/

/-- Half the mass times its potential, over the ball. -/
noncomputable def Sphere.energyOfMass (s : Sphere) : ℝ := 1 / 2 * ∫ q in Ball.points s.location s.radius, s.rho * s.gravitationalPotential (vec q)

/-- The square of the field over all of space, divided by `8πG`. -/
noncomputable def Sphere.energyOfField (s : Sphere) : ℝ := 1 / (8 * π * G) * ∫ q : ℝ × ℝ × ℝ, (s.gravitationalField (vec q)).len ^ 2

/-! ### Properties -/

/-- The sum of mass times potential is the binding energy `3GM²/5R`. -/
theorem Sphere.energy_of_mass (s : Sphere) (h : 0 < s.radius) : s.energyOfMass = 3 / 5 * G * s.mass ^ 2 / s.radius := by
  have e : ∫ q in Ball.points s.location s.radius, s.rho * s.gravitationalPotential (vec q) =
      ∫ q in Ball.points s.location s.radius, (fun r => s.rho * (G * 2 / 3 * π * s.rho * (3 * s.radius ^ 2 - r ^ 2))) (vec q - s.location).len := by
    refine setIntegral_congr_fun (Ball.measurableSet_points _ _) fun q hq => ?_
    have hq : (vec q - s.location).len ≤ s.radius := hq
    simp only [gravitationalPotential, gt_iff_lt, if_neg (not_lt.2 hq)]
  have e' : (fun r : ℝ => r ^ 2 * (s.rho * (G * 2 / 3 * π * s.rho * (3 * s.radius ^ 2 - r ^ 2)))) =
      fun r => G * 2 / 3 * π * s.rho ^ 2 * (3 * s.radius ^ 2 * r ^ 2 - r ^ 4) := by
    funext r; ring
  have i : ∀ n : ℕ, IntegrableOn (fun r : ℝ => r ^ n) (Ioc 0 s.radius) := fun n =>
    ((continuous_pow n).integrableOn_Icc (a := 0) (b := s.radius)).mono_set Ioc_subset_Icc_self
  rw [energyOfMass, e.trans (RadialIntegral.integral_radial_ball s.location (fun r => s.rho * (G * 2 / 3 * π * s.rho * (3 * s.radius ^ 2 - r ^ 2))) s.radius), e', integral_const_mul, integral_sub ((i 2).const_mul _) (i 4), integral_const_mul,
    RadialIntegral.integral_sq _ h.le, RadialIntegral.integral_sq _ h.le, mass]
  have := h.ne'
  field_simp
  push_cast
  ring

/-- The square of the field as a function of the distance. -/
theorem Sphere.field_sq (s : Sphere) (h : 0 < s.radius) (p : V3 ℝ) :
    (s.gravitationalField p).len ^ 2 =
      (if (p - s.location).len ≤ s.radius then (G * 4 / 3 * π * s.rho) ^ 2 * (p - s.location).len ^ 2 else (G * s.mass) ^ 2 / (p - s.location).len ^ 4) := by
  have l : ∀ v : V3 ℝ, v.len ^ 2 = v.x ^ 2 + v.y ^ 2 + v.z ^ 2 := fun v => by rw [V3.len, Real.sq_sqrt (by positivity)]
  rw [l]
  split_ifs with hp
  · simp only [gravitationalField, gt_iff_lt, if_neg (not_lt.2 hp), V3.map_x, V3.map_y, V3.map_z, l]
    ring
  · have hp := not_le.1 hp
    have h0 : (p - s.location).len ≠ 0 := (h.trans hp).ne'
    have l' := l (p - s.location)
    simp only [gravitationalField, gt_iff_lt, if_pos hp, PointMass.gravitationalField, toPointMass, V3.map_x, V3.map_y, V3.map_z]
    generalize (p - s.location).len = r at *
    generalize p - s.location = v at *
    field_simp
    linear_combination (G ^ 2 * s.mass ^ 2) * -l'

/-- The square of the field over all of space gives the same energy. -/
theorem Sphere.energy_of_field (s : Sphere) (h : 0 < s.radius) : s.energyOfField = 3 / 5 * G * s.mass ^ 2 / s.radius := by
  have hG : G ≠ 0 := by norm_num [G]
  have e : ∫ q : ℝ × ℝ × ℝ, (s.gravitationalField (vec q)).len ^ 2 =
      ∫ q : ℝ × ℝ × ℝ, (fun r => if r ≤ s.radius then (G * 4 / 3 * π * s.rho) ^ 2 * r ^ 2 else (G * s.mass) ^ 2 / r ^ 4) (vec q - s.location).len := by
    refine integral_congr_ae (Filter.Eventually.of_forall fun q => ?_)
    exact s.field_sq h (vec q)
  have e1 : ∀ r ∈ Ioc 0 s.radius, r ^ 2 * (if r ≤ s.radius then (G * 4 / 3 * π * s.rho) ^ 2 * r ^ 2 else (G * s.mass) ^ 2 / r ^ 4) =
      (G * 4 / 3 * π * s.rho) ^ 2 * r ^ 4 := fun r hr => by
    rw [if_pos hr.2]; ring
  have e2 : ∀ r ∈ Ioi s.radius, r ^ 2 * (if r ≤ s.radius then (G * 4 / 3 * π * s.rho) ^ 2 * r ^ 2 else (G * s.mass) ^ 2 / r ^ 4) =
      (G * s.mass) ^ 2 * (1 / r ^ 2) := fun r hr => by
    have : r ≠ 0 := (h.trans hr).ne'
    rw [if_neg (not_le.2 hr)]; field_simp
  have i : IntegrableOn (fun r : ℝ => r ^ 4) (Ioc 0 s.radius) :=
    ((continuous_pow 4).integrableOn_Icc (a := 0) (b := s.radius)).mono_set Ioc_subset_Icc_self
  obtain ⟨j, hj⟩ := RadialIntegral.integral_inv_sq h
  have i' : IntegrableOn (fun r => r ^ 2 * if r ≤ s.radius then (G * 4 / 3 * π * s.rho) ^ 2 * r ^ 2 else (G * s.mass) ^ 2 / r ^ 4) (Ioc 0 s.radius) :=
    IntegrableOn.congr_fun (i.const_mul ((G * 4 / 3 * π * s.rho) ^ 2)) (fun r hr => (e1 r hr).symm) measurableSet_Ioc
  have j' : IntegrableOn (fun r => r ^ 2 * if r ≤ s.radius then (G * 4 / 3 * π * s.rho) ^ 2 * r ^ 2 else (G * s.mass) ^ 2 / r ^ 4) (Ioi s.radius) :=
    IntegrableOn.congr_fun (j.const_mul ((G * s.mass) ^ 2)) (fun r hr => (e2 r hr).symm) measurableSet_Ioi
  rw [energyOfField, e.trans (RadialIntegral.integral_radial s.location fun r => if r ≤ s.radius then (G * 4 / 3 * π * s.rho) ^ 2 * r ^ 2 else (G * s.mass) ^ 2 / r ^ 4), ← Ioc_union_Ioi_eq_Ioi h.le,
    setIntegral_union (Ioc_disjoint_Ioi le_rfl) measurableSet_Ioi i'
      j',
    setIntegral_congr_fun measurableSet_Ioc e1, setIntegral_congr_fun measurableSet_Ioi e2, integral_const_mul, integral_const_mul, hj,
    RadialIntegral.integral_sq _ h.le, mass]
  have := h.ne'
  field_simp
  push_cast
  ring

/-- The two energies agree. -/
theorem Sphere.energy_balance (s : Sphere) (h : 0 < s.radius) : s.energyOfMass = s.energyOfField := by
  rw [s.energy_of_mass h, s.energy_of_field h]

/-- A ball that is not empty is bound: its energy is positive, whatever the sign of its density, and the square of its field has an integral over
space. -/
theorem Sphere.energy_pos (s : Sphere) (h : 0 < s.radius) (hr : s.rho ≠ 0) :
    0 < s.energyOfMass ∧ Integrable fun q : ℝ × ℝ × ℝ => (s.gravitationalField (vec q)).len ^ 2 := by
  have hG : 0 < G := by norm_num [G]
  have m : s.mass ≠ 0 := by rw [mass]; positivity
  have p : 0 < 3 / 5 * G * s.mass ^ 2 / s.radius := by positivity
  refine ⟨by rwa [s.energy_of_mass h], ?_⟩
  by_contra hn
  have := s.energy_of_field h
  rw [energyOfField, integral_undef hn, mul_zero] at this
  exact p.ne this

example : ∃ s : Sphere, 0 < s.radius ∧ s.rho ≠ 0 := ⟨⟨2, 3, ⟨0, 0, 0⟩⟩, by norm_num, by norm_num⟩

/-! ### Two balls -/

/-- The mass of one ball times the potential of the other. -/
noncomputable def Sphere.energyBetween (s t : Sphere) : ℝ := ∫ q in Ball.points s.location s.radius, s.rho * t.gravitationalPotential (vec q)

/-- The energy between two balls that do not overlap is that of two point masses; it does not matter whose potential is used. -/
theorem Sphere.energy_between (s t : Sphere) (hs : 0 < s.radius) (ht : 0 < t.radius) (h : s.radius + t.radius < (t.location - s.location).len) :
    s.energyBetween t = G * s.mass * t.mass / (t.location - s.location).len ∧ s.energyBetween t = t.energyBetween s := by
  have key : ∀ s t : Sphere, 0 < s.radius → 0 < t.radius → s.radius + t.radius < (t.location - s.location).len →
      s.energyBetween t = G * s.mass * t.mass / (t.location - s.location).len := by
    intro s t hs ht h
    have e : ∀ q ∈ Ball.points s.location s.radius, s.rho * t.gravitationalPotential (vec q) = s.rho * t.toPointMass.gravitationalPotential (vec q) := by
      intro q hq
      have hq : (vec q - s.location).len ≤ s.radius := hq
      have tri := V3.len_add_le (vec q - s.location) (t.location - vec q)
      have k : vec q - s.location + (t.location - vec q) = t.location - s.location := by
        ext <;> simp only [V3.add_x, V3.add_y, V3.add_z, V3.sub_x, V3.sub_y, V3.sub_z] <;> ring
      rw [k, V3.len_sub_comm t.location (vec q)] at tri
      have : (vec q - t.location).len > t.radius := by linarith
      simp only [gravitationalPotential, if_pos this]
    rw [energyBetween, setIntegral_congr_fun (Ball.measurableSet_points _ _) e, integral_const_mul,
      PointMass.potential_mean _ _ hs (show s.radius < (t.toPointMass.location - s.location).len by simp only [toPointMass]; linarith), Ball.integral_one _ hs]
    simp only [PointMass.gravitationalPotential, toPointMass]
    rw [V3.len_sub_comm t.location]
    simp only [mass]
    ring
  refine ⟨key s t hs ht h, ?_⟩
  rw [key s t hs ht h, key t s ht hs (by rw [V3.len_sub_comm]; linarith), V3.len_sub_comm]
  ring

example : ∃ s t : Sphere, 0 < s.radius ∧ 0 < t.radius ∧ s.radius + t.radius < (t.location - s.location).len :=
  ⟨⟨1, 1, ⟨0, 0, 0⟩⟩, ⟨1, 1, ⟨0, 0, 3⟩⟩, by norm_num, by norm_num, by
    rw [V3.len, Real.lt_sqrt (by norm_num)]
    norm_num⟩

end Verif.Gravity
