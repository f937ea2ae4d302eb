import Verif.Props.TdemSimple
import Verif.Lemmas.Transient

/-! # Start, decay and sign of the transients over a halfspace; loop and dipole agree (C75, C76) -/

namespace Verif.Tdem

open Real Spatial Filter
open scoped Topology

variable {t sigma mu radius current turns moment x y : ℝ}

theorem tendsto_theta_zero (hs : 0 < sigma) (hm : 0 < mu) : Tendsto (fun t => theta t sigma mu) (𝓝[>] 0) atTop := by
  have h1 : Tendsto (fun t : ℝ => mu * sigma / 4 * t⁻¹) (𝓝[>] 0) atTop :=
    tendsto_inv_nhdsGT_zero.const_mul_atTop (by positivity)
  refine (tendsto_sqrt_atTop.comp h1).congr fun t => ?_
  simp only [Function.comp, theta]
  congr 1
  rw [div_mul_eq_mul_div, ← div_eq_mul_inv, div_div, mul_comm t 4]

theorem tendsto_theta_atTop (sigma mu : ℝ) : Tendsto (fun t => theta t sigma mu) atTop (𝓝 0) := by
  have h1 : Tendsto (fun t : ℝ => mu * sigma / (4 * t)) atTop (𝓝 0) :=
    tendsto_const_nhds.div_atTop (tendsto_id.const_mul_atTop (by norm_num))
  have := (continuous_sqrt.tendsto 0).comp h1
  rwa [sqrt_zero] at this

/-- The dimensionless factor of the loop's field, in terms of `erfRest`. -/
theorem loopField_eq (ht : 0 < t) (hs : 0 < sigma) (hm : 0 < mu) (ha : 0 < radius) :
    loopField t sigma mu radius current turns = turns * current / (2 * radius) *
      (erf (theta t sigma mu * radius) - 3 / (2 * (theta t sigma mu * radius) ^ 2) * erfRest (theta t sigma mu * radius)) := by
  have hp := theta_pos ht hs hm
  have hu : 0 < theta t sigma mu * radius := by positivity
  have hpi : √π ≠ 0 := (sqrt_pos.2 pi_pos).ne'
  simp only [loopField, erfRest]
  generalize theta t sigma mu * radius = u at *
  generalize erf u = E
  generalize exp (-u ^ 2) = X
  field_simp
  ring

theorem tendsto_loopShape_zero : Tendsto (fun u => erf u - 3 / (2 * u ^ 2) * erfRest u) (𝓝[>] 0) (𝓝 0) := by
  have hpi : 0 < √π := sqrt_pos.2 pi_pos
  have h1 : Tendsto erf (𝓝[>] 0) (𝓝 0) := by
    have := (hasDerivAt_erf 0).continuousAt.tendsto
    rw [erf_zero] at this
    exact this.mono_left nhdsWithin_le_nhds
  have h2 : Tendsto (fun u => 3 / (2 * u ^ 2) * erfRest u) (𝓝[>] 0) (𝓝 0) := by
    have h3 : Tendsto (fun u : ℝ => 2 / √π * u) (𝓝[>] 0) (𝓝 0) := by
      have : Tendsto (fun u : ℝ => 2 / √π * u) (𝓝 0) (𝓝 (2 / √π * 0)) := (continuous_const.mul continuous_id).tendsto 0
      rw [mul_zero] at this
      exact this.mono_left nhdsWithin_le_nhds
    refine squeeze_zero' ?_ ?_ h3
    · filter_upwards [self_mem_nhdsWithin] with u hu
      have hu : 0 < u := hu
      have : 0 < erfRest u := lt_trans (by positivity) (lt_erfRest hu)
      positivity
    · filter_upwards [self_mem_nhdsWithin] with u hu
      have hu : 0 < u := hu
      have h := erfRest_lt hu
      calc 3 / (2 * u ^ 2) * erfRest u ≤ 3 / (2 * u ^ 2) * (4 * u ^ 3 / (3 * √π)) := by gcongr
        _ = 2 / √π * u := by field_simp; ring
  simpa using h1.sub h2

theorem tendsto_erfRest_atTop : Tendsto erfRest atTop (𝓝 1) := by
  have h := ((tendsto_pow_mul_gauss 1).const_mul (2 / √π))
  rw [mul_zero] at h
  have h2 := tendsto_erf_atTop.sub h
  rw [sub_zero] at h2
  refine h2.congr fun u => ?_
  simp only [erfRest]
  ring

theorem tendsto_inv_sq (c : ℝ) : Tendsto (fun u : ℝ => c / (2 * u ^ 2)) atTop (𝓝 0) :=
  tendsto_const_nhds.div_atTop ((tendsto_pow_atTop (by norm_num)).const_mul_atTop (by norm_num))

/-- **C76.** As `t → 0` the field at the centre of the loop tends to the static field of the loop in free space. -/
theorem loopField_start (hs : 0 < sigma) (hm : 0 < mu) (ha : 0 < radius) :
    Tendsto (fun t => loopField t sigma mu radius current turns) (𝓝[>] 0) (𝓝 (turns * current / (2 * radius))) := by
  have hu := (tendsto_theta_zero hs hm).atTop_mul_const ha
  have h := (tendsto_erf_atTop.sub ((tendsto_inv_sq 3).mul tendsto_erfRest_atTop)).comp hu
  have h2 := h.const_mul (turns * current / (2 * radius))
  rw [zero_mul, sub_zero, mul_one] at h2
  refine h2.congr' ?_
  filter_upwards [self_mem_nhdsWithin] with t ht
  exact (loopField_eq ht hs hm ha).symm

/-- **C76.** As `t → ∞` the field at the centre of the loop vanishes. -/
theorem loopField_end (hs : 0 < sigma) (hm : 0 < mu) (ha : 0 < radius) :
    Tendsto (fun t => loopField t sigma mu radius current turns) atTop (𝓝 0) := by
  have hu : Tendsto (fun t => theta t sigma mu * radius) atTop (𝓝[>] 0) := by
    refine tendsto_nhdsWithin_iff.2 ⟨?_, ?_⟩
    · simpa using (tendsto_theta_atTop sigma mu).mul_const radius
    · filter_upwards [eventually_gt_atTop 0] with t ht
      have := theta_pos ht hs hm
      exact mul_pos this ha
  have h2 := (tendsto_loopShape_zero.comp hu).const_mul (turns * current / (2 * radius))
  rw [mul_zero] at h2
  refine h2.congr' ?_
  filter_upwards [eventually_gt_atTop 0] with t ht
  exact (loopField_eq ht hs hm ha).symm

/-- **C76.** For positive current and turns the field decreases at every time ... -/
theorem loopFieldTimeDeriv_neg (ht : 0 < t) (hs : 0 < sigma) (hm : 0 < mu) (ha : 0 < radius) (hi : 0 < turns * current) :
    loopFieldTimeDeriv t sigma mu radius current turns < 0 := by
  have hp := theta_pos ht hs hm
  have hu : 0 < theta t sigma mu * radius := by positivity
  have hpi : 0 < √π := sqrt_pos.2 pi_pos
  have h := lt_erfRest hu
  simp only [loopFieldTimeDeriv, loopFluxTimeDeriv]
  rw [erfRest] at h
  generalize theta t sigma mu * radius = u at *
  generalize exp (-u ^ 2) = X at *
  generalize erf u = E at *
  have h1 : 0 < 3 * E - 2 * u / √π * (3 + 2 * u ^ 2) * X := by
    have e : 3 * E - 2 * u / √π * (3 + 2 * u ^ 2) * X =
      3 * (E - 2 * u / √π * X - 4 * u ^ 3 / (3 * √π) * X) := by field_simp; ring
    rw [e]; linarith
  have h2 : 0 < turns * current / (sigma * radius ^ 3) * (3 * E - 2 * u / √π * (3 + 2 * u ^ 2) * X) / mu := by positivity
  have e : -turns * current / (sigma * radius ^ 3) * (3 * E - 2 * u / √π * (3 + 2 * u ^ 2) * X) / mu =
    -(turns * current / (sigma * radius ^ 3) * (3 * E - 2 * u / √π * (3 + 2 * u ^ 2) * X) / mu) := by ring
  rw [e]; linarith

/-- **C76.** ... so it decreases strictly over all positive times ... -/
theorem loopField_strictAntiOn (hs : 0 < sigma) (hm : 0 < mu) (ha : 0 < radius) (hi : 0 < turns * current) :
    StrictAntiOn (fun t => loopField t sigma mu radius current turns) (Set.Ioi 0) := by
  refine strictAntiOn_of_deriv_neg (convex_Ioi 0)
    (fun t ht => (loopField_hasDerivAt ht hs hm ha).continuousAt.continuousWithinAt) fun t ht => ?_
  rw [interior_Ioi] at ht
  rw [(loopField_hasDerivAt ht hs hm ha).deriv]
  exact loopFieldTimeDeriv_neg ht hs hm ha hi

/-- **C76.** ... and lies strictly between zero and the static field at every time. -/
theorem loopField_bounds (ht : 0 < t) (hs : 0 < sigma) (hm : 0 < mu) (ha : 0 < radius) (hi : 0 < turns * current) :
    0 < loopField t sigma mu radius current turns ∧
      loopField t sigma mu radius current turns < turns * current / (2 * radius) := by
  have anti := loopField_strictAntiOn hs hm ha hi
  have ht2 : 0 < t / 2 := by positivity
  constructor
  · have h1 : loopField (t + 1) sigma mu radius current turns < loopField t sigma mu radius current turns :=
      anti (Set.mem_Ioi.2 ht) (Set.mem_Ioi.2 (by linarith)) (by linarith)
    refine lt_of_le_of_lt (le_of_tendsto (loopField_end (current := current) (turns := turns) hs hm ha) ?_) h1
    filter_upwards [eventually_gt_atTop (t + 1)] with v hv
    exact (anti (Set.mem_Ioi.2 (by linarith)) (Set.mem_Ioi.2 (by linarith)) hv).le
  · have h1 : loopField t sigma mu radius current turns < loopField (t / 2) sigma mu radius current turns :=
      anti (Set.mem_Ioi.2 ht2) (Set.mem_Ioi.2 ht) (by linarith)
    refine lt_of_lt_of_le h1 (ge_of_tendsto (loopField_start hs hm ha) ?_)
    filter_upwards [Ioo_mem_nhdsGT ht2] with v hv
    exact (anti (Set.mem_Ioi.2 hv.1) (Set.mem_Ioi.2 ht2) hv.2).le

/-- The hypotheses are met. -/
example : 0 < loopField 1 1 1 1 1 1 ∧ loopField 1 1 1 1 1 1 < 1 * 1 / (2 * 1) :=
  loopField_bounds one_pos one_pos one_pos one_pos (by norm_num)

/-! ## The dipole -/

theorem dipoleField_z (ht : 0 < t) (hs : 0 < sigma) (hm : 0 < mu) (hr : x ≠ 0 ∨ y ≠ 0) :
    (dipoleField t x y sigma mu moment).z = moment / (4 * π) * (1 / √(x ^ 2 + y ^ 2) ^ 3 *
      (9 / (2 * (theta t sigma mu * √(x ^ 2 + y ^ 2)) ^ 2) * erfRest (theta t sigma mu * √(x ^ 2 + y ^ 2)) -
        erf (theta t sigma mu * √(x ^ 2 + y ^ 2)) - 4 / √π * ((theta t sigma mu * √(x ^ 2 + y ^ 2)) ^ 1 *
        exp (-(theta t sigma mu * √(x ^ 2 + y ^ 2)) ^ 2)))) := by
  have hrp : 0 < √(x ^ 2 + y ^ 2) := sqrt_pos.2 (by rcases hr with h | h <;> positivity)
  have hp := theta_pos ht hs hm
  have hu : 0 < theta t sigma mu * √(x ^ 2 + y ^ 2) := by positivity
  have hpi : √π ≠ 0 := (sqrt_pos.2 pi_pos).ne'
  simp only [dipoleField, V3.smul_z, smul_eq_mul, erfRest]
  generalize theta t sigma mu * √(x ^ 2 + y ^ 2) = u at *
  generalize erf u = E
  generalize exp (-u ^ 2) = X
  field_simp
  ring

/-- **C76.** As `t → 0` the dipole's field tends to the field of the dipole in free space, here in the dipole's equatorial plane. -/
theorem dipoleField_start (hs : 0 < sigma) (hm : 0 < mu) (hr : x ≠ 0 ∨ y ≠ 0) :
    Tendsto (fun t => (dipoleField t x y sigma mu moment).x) (𝓝[>] 0) (𝓝 0) ∧
    Tendsto (fun t => (dipoleField t x y sigma mu moment).y) (𝓝[>] 0) (𝓝 0) ∧
    Tendsto (fun t => (dipoleField t x y sigma mu moment).z) (𝓝[>] 0) (𝓝 (-(moment / (4 * π * √(x ^ 2 + y ^ 2) ^ 3)))) := by
  have hrp : 0 < √(x ^ 2 + y ^ 2) := sqrt_pos.2 (by rcases hr with h | h <;> positivity)
  have hu := (tendsto_theta_zero hs hm).atTop_mul_const hrp
  have hw : Tendsto (fun t => (theta t sigma mu * √(x ^ 2 + y ^ 2)) ^ 2 / 2) (𝓝[>] 0) atTop :=
    ((tendsto_pow_atTop (by norm_num)).comp hu).atTop_div_const (by norm_num)
  have hb := tendsto_bessel_atTop.comp hw
  have hrad : ∀ c : ℝ, Tendsto (fun t => moment / (4 * π) * (c * (2 * (theta t sigma mu * √(x ^ 2 + y ^ 2)) ^ 2 / √(x ^ 2 + y ^ 2) ^ 3 *
      (besselIe 1 ((theta t sigma mu * √(x ^ 2 + y ^ 2)) ^ 2 / 2) - besselIe 2 ((theta t sigma mu * √(x ^ 2 + y ^ 2)) ^ 2 / 2)))))
      (𝓝[>] 0) (𝓝 0) := fun c => by
    have h := hb.const_mul (moment / (4 * π) * c * (4 / √(x ^ 2 + y ^ 2) ^ 3))
    rw [mul_zero] at h
    refine h.congr fun t => ?_
    simp only [Function.comp]
    ring
  refine ⟨hrad _, hrad _, ?_⟩
  have h := ((((tendsto_inv_sq 9).mul tendsto_erfRest_atTop).sub tendsto_erf_atTop).sub
    ((tendsto_pow_mul_gauss 1).const_mul (4 / √π))).comp hu
  have h2 := (h.const_mul (1 / √(x ^ 2 + y ^ 2) ^ 3)).const_mul (moment / (4 * π))
  have e : moment / (4 * π) * (1 / √(x ^ 2 + y ^ 2) ^ 3 * (0 * 1 - 1 - 4 / √π * 0)) = -(moment / (4 * π * √(x ^ 2 + y ^ 2) ^ 3)) := by
    field_simp
    ring
  rw [e] at h2
  refine h2.congr' ?_
  filter_upwards [self_mem_nhdsWithin] with t ht
  exact (dipoleField_z ht hs hm hr).symm

/-- **C76.** As `t → ∞` the dipole's field vanishes. -/
theorem dipoleField_end (hs : 0 < sigma) (hm : 0 < mu) (hr : x ≠ 0 ∨ y ≠ 0) :
    Tendsto (fun t => (dipoleField t x y sigma mu moment).x) atTop (𝓝 0) ∧
    Tendsto (fun t => (dipoleField t x y sigma mu moment).y) atTop (𝓝 0) ∧
    Tendsto (fun t => (dipoleField t x y sigma mu moment).z) atTop (𝓝 0) := by
  have hrp : 0 < √(x ^ 2 + y ^ 2) := sqrt_pos.2 (by rcases hr with h | h <;> positivity)
  have hu0 : Tendsto (fun t => theta t sigma mu * √(x ^ 2 + y ^ 2)) atTop (𝓝 0) := by
    simpa using (tendsto_theta_atTop sigma mu).mul_const √(x ^ 2 + y ^ 2)
  have hu : Tendsto (fun t => theta t sigma mu * √(x ^ 2 + y ^ 2)) atTop (𝓝[>] 0) := by
    refine tendsto_nhdsWithin_iff.2 ⟨hu0, ?_⟩
    filter_upwards [eventually_gt_atTop 0] with t ht
    exact mul_pos (theta_pos ht hs hm) hrp
  have hw : Tendsto (fun t => (theta t sigma mu * √(x ^ 2 + y ^ 2)) ^ 2 / 2) atTop (𝓝 0) := by
    simpa using (hu0.pow 2).div_const 2
  have hb : Tendsto (fun w => w * (besselIe 1 w - besselIe 2 w)) (𝓝 0) (𝓝 0) := by
    have : Continuous fun w => w * (besselIe 1 w - besselIe 2 w) :=
      continuous_id.mul ((continuous_besselIe 1).sub (continuous_besselIe 2))
    simpa using this.tendsto 0
  have hrad : ∀ c : ℝ, Tendsto (fun t => moment / (4 * π) * (c * (2 * (theta t sigma mu * √(x ^ 2 + y ^ 2)) ^ 2 / √(x ^ 2 + y ^ 2) ^ 3 *
      (besselIe 1 ((theta t sigma mu * √(x ^ 2 + y ^ 2)) ^ 2 / 2) - besselIe 2 ((theta t sigma mu * √(x ^ 2 + y ^ 2)) ^ 2 / 2)))))
      atTop (𝓝 0) := fun c => by
    have h := (hb.comp hw).const_mul (moment / (4 * π) * c * (4 / √(x ^ 2 + y ^ 2) ^ 3))
    rw [mul_zero] at h
    refine h.congr fun t => ?_
    simp only [Function.comp]
    ring
  refine ⟨hrad _, hrad _, ?_⟩
  have h1 : Tendsto erf (𝓝[>] 0) (𝓝 0) := by
    have := (hasDerivAt_erf 0).continuousAt.tendsto
    rw [erf_zero] at this
    exact this.mono_left nhdsWithin_le_nhds
  have h3 : Tendsto (fun u : ℝ => 4 / √π * (u ^ 1 * exp (-u ^ 2))) (𝓝[>] 0) (𝓝 0) := by
    have hc : Continuous fun u : ℝ => 4 / √π * (u ^ 1 * exp (-u ^ 2)) := by fun_prop
    have := hc.tendsto 0
    simp only [pow_one, zero_mul, mul_zero] at this
    simpa using this.mono_left nhdsWithin_le_nhds
  have hsh : Tendsto (fun u => -3 * (erf u - 3 / (2 * u ^ 2) * erfRest u) + 2 * erf u - 4 / √π * (u ^ 1 * exp (-u ^ 2)))
      (𝓝[>] 0) (𝓝 (-3 * 0 + 2 * 0 - 0)) :=
    ((tendsto_loopShape_zero.const_mul (-3)).add (h1.const_mul 2)).sub h3
  have h := ((hsh.comp hu).const_mul (1 / √(x ^ 2 + y ^ 2) ^ 3)).const_mul (moment / (4 * π))
  have e : moment / (4 * π) * (1 / √(x ^ 2 + y ^ 2) ^ 3 * (-3 * 0 + 2 * 0 - 0)) = 0 := by ring
  rw [e] at h
  refine h.congr' ?_
  filter_upwards [eventually_gt_atTop 0] with t ht
  rw [dipoleField_z ht hs hm hr]
  simp only [Function.comp]
  ring

/-- **C75.** Growing the loop adds a ring of vertical dipoles: the derivative of the central field with respect to the radius is
the ring's circumference times the vertical field which a unit dipole on the ring has at the centre, times the current and turns. -/
theorem loop_is_dipoles (ht : 0 < t) (hs : 0 < sigma) (hm : 0 < mu) (ha : 0 < radius) (hxy : x ^ 2 + y ^ 2 = radius ^ 2) :
    HasDerivAt (fun a => loopField t sigma mu a current turns)
      (2 * π * radius * (turns * current) * (dipoleField t x y sigma mu 1).z) radius := by
  have hp := theta_pos ht hs hm
  have hl : HasDerivAt (fun a : ℝ => theta t sigma mu * a) (theta t sigma mu) radius := by
    simpa using (hasDerivAt_id radius).const_mul (theta t sigma mu)
  have h2 : HasDerivAt (fun a : ℝ => 2 * a) 2 radius := by simpa using (hasDerivAt_id radius).const_mul (2 : ℝ)
  have hsq : √(x ^ 2 + y ^ 2) = radius := by rw [hxy, sqrt_sq ha.le]
  have h := (((hasDerivAt_loopShape (u := theta t sigma mu * radius) (by positivity)).comp radius hl).fun_div h2
    (by positivity)).const_mul (turns * current)
  refine h.congr_deriv ?_
  simp only [Function.comp, dipoleField, hsq, V3.smul_z, smul_eq_mul]
  have hpi : √π ≠ 0 := (sqrt_pos.2 pi_pos).ne'
  have hpi' : π ≠ 0 := pi_ne_zero
  generalize erf (theta t sigma mu * radius) = E
  generalize exp (-(theta t sigma mu * radius) ^ 2) = X
  generalize theta t sigma mu = th at *
  field_simp
  ring

/-! ## The class over the halfspace -/

/-- **C60.** `VerticalMagneticDipoleHalfSpace`: the flux methods are `mu` times the field methods, the plain functions agree, and
the time derivative methods differentiate the field and flux in time. -/
theorem halfspaceDipole_consistent (s : HalfspaceDipole) (ht : 0 < s.time) (hs : 0 < s.sigma) (hm : 0 < s.mu)
    (hr : x ≠ s.location.x ∨ y ≠ s.location.y) :
    s.magneticFluxDensity x y = s.mu • s.magneticField x y ∧
    s.magneticFluxTimeDerivative x y = s.mu • s.magneticFieldTimeDerivative x y ∧
    s.magneticFluxDensity x y = dipoleFlux s.time (x - s.location.x) (y - s.location.y) s.sigma s.mu s.moment ∧
    s.magneticFluxTimeDerivative x y = dipoleFluxTimeDeriv s.time (x - s.location.x) (y - s.location.y) s.sigma s.mu s.moment ∧
    HasDerivAt (fun t => (HalfspaceDipole.magneticFluxDensity { s with time := t } x y).x) (s.magneticFluxTimeDerivative x y).x s.time ∧
    HasDerivAt (fun t => (HalfspaceDipole.magneticFluxDensity { s with time := t } x y).y) (s.magneticFluxTimeDerivative x y).y s.time ∧
    HasDerivAt (fun t => (HalfspaceDipole.magneticFluxDensity { s with time := t } x y).z) (s.magneticFluxTimeDerivative x y).z s.time := by
  have h := dipoleField_hasDerivAt (x := x - s.location.x) (y := y - s.location.y) (moment := s.moment) ht hs hm
    (by simpa [sub_ne_zero] using hr)
  exact ⟨rfl, rfl, rfl, rfl, h.1.const_mul s.mu, h.2.1.const_mul s.mu, h.2.2.const_mul s.mu⟩

/-- **C53.** The horizontal part of the field points along the line from the source, and the field turns with the horizontal geometry:
turning the point about the source by any angle turns the field by the same angle. -/
theorem dipoleField_turns (a : ℝ) (hr : x ≠ 0 ∨ y ≠ 0) :
    let f := dipoleField t x y sigma mu moment
    let g := dipoleField t (cos a * x - sin a * y) (sin a * x + cos a * y) sigma mu moment
    g.x = cos a * f.x - sin a * f.y ∧ g.y = sin a * f.x + cos a * f.y ∧ g.z = f.z := by
  have hrp : 0 < √(x ^ 2 + y ^ 2) := sqrt_pos.2 (by rcases hr with h | h <;> positivity)
  have e : (cos a * x - sin a * y) ^ 2 + (sin a * x + cos a * y) ^ 2 = x ^ 2 + y ^ 2 := by
    linear_combination (x ^ 2 + y ^ 2) * cos_sq_add_sin_sq a
  have c1 := sqrt_mul_cos_arctan2 y x
  have s1 := sqrt_mul_sin_arctan2 y x
  have c2 := sqrt_mul_cos_arctan2 (sin a * x + cos a * y) (cos a * x - sin a * y)
  have s2 := sqrt_mul_sin_arctan2 (sin a * x + cos a * y) (cos a * x - sin a * y)
  rw [e] at c2 s2
  have hc1 : cos (arctan2 y x) = x / √(x ^ 2 + y ^ 2) := by rw [eq_div_iff hrp.ne']; linarith
  have hs1 : sin (arctan2 y x) = y / √(x ^ 2 + y ^ 2) := by rw [eq_div_iff hrp.ne']; linarith
  have hc2 : cos (arctan2 (sin a * x + cos a * y) (cos a * x - sin a * y)) = (cos a * x - sin a * y) / √(x ^ 2 + y ^ 2) := by
    rw [eq_div_iff hrp.ne']; linarith
  have hs2 : sin (arctan2 (sin a * x + cos a * y) (cos a * x - sin a * y)) = (sin a * x + cos a * y) / √(x ^ 2 + y ^ 2) := by
    rw [eq_div_iff hrp.ne']; linarith
  simp only [dipoleField, V3.smul_x, V3.smul_y, V3.smul_z, smul_eq_mul, e, hc1, hs1, hc2, hs2]
  refine ⟨by ring, by ring, trivial⟩

end Verif.Tdem
