import Verif.Props.TransientDecay
import Verif.Props.TdemWholeSpace
import Verif.Lemmas.LateTimes
import Verif.Spec.StaticLimit

/-! # The power laws of transients at late times (C117) -/

namespace Verif.Tdem

open Real Spatial Filter
open scoped Topology

variable {sigma mu : ℝ}

theorem sqrt_mul_theta {t : ℝ} (ht : 0 < t) (hs : 0 < sigma) (hm : 0 < mu) : √t * theta t sigma mu = √(mu * sigma) / 2 := by
  rw [theta, ← sqrt_mul ht.le, show t * (mu * sigma / (4 * t)) = mu * sigma / 4 by field_simp, sqrt_div (by positivity),
    show (4 : ℝ) = 2 ^ 2 by norm_num, sqrt_sq (by norm_num)]

theorem tendsto_theta_right (hs : 0 < sigma) (hm : 0 < mu) {a : ℝ} (ha : 0 < a) :
    Tendsto (fun t => theta t sigma mu * a) atTop (𝓝[>] 0) := by
  refine tendsto_nhdsWithin_iff.2 ⟨?_, ?_⟩
  · simpa using (tendsto_theta_atTop sigma mu).mul_const a
  · filter_upwards [eventually_gt_atTop 0] with t ht
    exact mul_pos (theta_pos ht hs hm) ha

/-- A leading power of a shape function of `theta(t) a` is a power law in time. -/
theorem power_law (hs : 0 < sigma) (hm : 0 < mu) {a : ℝ} (ha : 0 < a) {g : ℝ → ℝ} {c : ℝ} (k : ℕ)
    (h : Tendsto (fun u => g u / u ^ k) (𝓝[>] 0) (𝓝 c)) :
    Tendsto (fun t => √t ^ k * g (theta t sigma mu * a)) atTop (𝓝 ((√(mu * sigma) / 2 * a) ^ k * c)) := by
  refine ((h.comp (tendsto_theta_right hs hm ha)).const_mul ((√(mu * sigma) / 2 * a) ^ k)).congr' ?_
  filter_upwards [eventually_gt_atTop 0] with t ht
  have hp := theta_pos ht hs hm
  simp only [Function.comp]
  rw [← sqrt_mul_theta ht hs hm, mul_assoc, mul_pow]
  field_simp

theorem tendsto_halfSq : Tendsto (fun u : ℝ => u ^ 2 / 2) (𝓝[>] 0) (𝓝[>] 0) := by
  refine tendsto_nhdsWithin_iff.2 ⟨?_, ?_⟩
  · simpa using (tendsto_pow_zero 1).div_const 2
  · filter_upwards [self_mem_nhdsWithin] with u hu
    have h : (0 : ℝ) < u := hu
    show (0 : ℝ) < u ^ 2 / 2
    positivity

variable {radius current turns moment x y : ℝ}

/-- **C117.** The field at the centre of a loop decays like `t^(-3/2)`. -/
theorem loopField_late (hs : 0 < sigma) (hm : 0 < mu) (ha : 0 < radius) :
    Tendsto (fun t => √t ^ 3 * loopField t sigma mu radius current turns) atTop
      (𝓝 (turns * current * radius ^ 2 * √(mu * sigma) ^ 3 / (30 * √π))) := by
  have hpi : √π ≠ 0 := (sqrt_pos.2 pi_pos).ne'
  have hg : Tendsto (fun u => (erf u - 3 / (2 * u ^ 2) * erfRest u) / u ^ 3) (𝓝[>] 0) (𝓝 (8 / (15 * √π))) := by
    refine loopShape_first.congr' ?_
    filter_upwards [self_mem_nhdsWithin] with u hu
    have : (0 : ℝ) < u := hu
    field_simp
  have h := (power_law hs hm ha 3 hg).const_mul (turns * current / (2 * radius))
  have e : turns * current * radius ^ 2 * √(mu * sigma) ^ 3 / (30 * √π) =
      turns * current / (2 * radius) * ((√(mu * sigma) / 2 * radius) ^ 3 * (8 / (15 * √π))) := by
    field_simp
    ring
  rw [e]
  refine h.congr' ?_
  filter_upwards [eventually_gt_atTop 0] with t ht
  rw [loopField_eq ht hs hm ha]
  ring

/-- **C117.** Its time derivative decays like `t^(-5/2)`, with the derivative of the power law. -/
theorem loopFieldTimeDeriv_late (hs : 0 < sigma) (hm : 0 < mu) (ha : 0 < radius) :
    Tendsto (fun t => √t ^ 5 * loopFieldTimeDeriv t sigma mu radius current turns) atTop
      (𝓝 (-(turns * current * radius ^ 2 * √(mu * sigma) ^ 3 / (20 * √π)))) := by
  have hpi : √π ≠ 0 := (sqrt_pos.2 pi_pos).ne'
  have h := (power_law hs hm ha 5 loopRate_first).const_mul (-(turns * current) / (sigma * radius ^ 3 * mu))
  have hq : √(mu * sigma) ^ 2 = mu * sigma := sq_sqrt (by positivity)
  have e : -(turns * current * radius ^ 2 * √(mu * sigma) ^ 3 / (20 * √π)) =
      -(turns * current) / (sigma * radius ^ 3 * mu) * ((√(mu * sigma) / 2 * radius) ^ 5 * (8 / (5 * √π))) := by
    rw [show (√(mu * sigma) / 2 * radius) ^ 5 = √(mu * sigma) ^ 2 * √(mu * sigma) ^ 3 * radius ^ 5 / 32 by ring, hq]
    field_simp
    ring
  rw [e]
  refine h.congr fun t => ?_
  simp only [loopFieldTimeDeriv, loopFluxTimeDeriv]
  generalize erf (theta t sigma mu * radius) = E
  generalize exp (-(theta t sigma mu * radius) ^ 2) = X
  field_simp

/-- **C117.** The flux density and its time derivative, likewise. -/
theorem loopFlux_late (hs : 0 < sigma) (hm : 0 < mu) (ha : 0 < radius) :
    Tendsto (fun t => √t ^ 3 * loopFlux t sigma mu radius current turns) atTop
      (𝓝 (mu * (turns * current * radius ^ 2 * √(mu * sigma) ^ 3 / (30 * √π)))) ∧
    Tendsto (fun t => √t ^ 5 * loopFluxTimeDeriv t sigma mu radius current turns) atTop
      (𝓝 (mu * -(turns * current * radius ^ 2 * √(mu * sigma) ^ 3 / (20 * √π)))) := by
  refine ⟨((loopField_late hs hm ha).const_mul mu).congr fun t => ?_,
    ((loopFieldTimeDeriv_late hs hm ha).const_mul mu).congr fun t => ?_⟩
  · simp only [loopFlux]; ring
  · simp only [loopFieldTimeDeriv]; field_simp

/-- **C117.** The field of a vertical dipole on the ground: the vertical part decays like `t^(-3/2)`, everywhere the same, the radial
part like `t^(-2)` and in proportion to the distance. -/
theorem dipoleField_late (hs : 0 < sigma) (hm : 0 < mu) (hr : x ≠ 0 ∨ y ≠ 0) :
    Tendsto (fun t => √t ^ 3 * (dipoleField t x y sigma mu moment).z) atTop
      (𝓝 (moment * √(mu * sigma) ^ 3 / (30 * (π * √π)))) ∧
    Tendsto (fun t => t ^ 2 * (dipoleField t x y sigma mu moment).x) atTop (𝓝 (moment * (mu * sigma) ^ 2 * x / (128 * π))) ∧
    Tendsto (fun t => t ^ 2 * (dipoleField t x y sigma mu moment).y) atTop (𝓝 (moment * (mu * sigma) ^ 2 * y / (128 * π))) := by
  have hpi : √π ≠ 0 := (sqrt_pos.2 pi_pos).ne'
  have hrp : 0 < √(x ^ 2 + y ^ 2) := sqrt_pos.2 (by rcases hr with h | h <;> positivity)
  have hq : √(mu * sigma) ^ 4 = (mu * sigma) ^ 2 := by
    rw [show √(mu * sigma) ^ 4 = (√(mu * sigma) ^ 2) ^ 2 by ring, sq_sqrt (by positivity)]
  have hg : Tendsto (fun u => (9 / (2 * u ^ 2) * erfRest u - erf u - 4 / √π * (u ^ 1 * exp (-u ^ 2))) / u ^ 3) (𝓝[>] 0)
      (𝓝 (16 / (15 * √π))) := by
    refine dipoleShape_first.congr' ?_
    filter_upwards [self_mem_nhdsWithin] with u hu
    have : (0 : ℝ) < u := hu
    field_simp
  have hb : Tendsto (fun u => (2 * u ^ 2 * (besselIe 1 (u ^ 2 / 2) - besselIe 2 (u ^ 2 / 2))) / u ^ 4) (𝓝[>] 0) (𝓝 (1 / 2)) := by
    refine (radialShape_first.comp tendsto_halfSq).congr' ?_
    filter_upwards [self_mem_nhdsWithin] with u hu
    have : (0 : ℝ) < u := hu
    simp only [Function.comp]
    field_simp
  have hrad : ∀ c : ℝ, Tendsto (fun t => t ^ 2 * (moment / (4 * π) * (c * (2 * (theta t sigma mu * √(x ^ 2 + y ^ 2)) ^ 2 / √(x ^ 2 + y ^ 2) ^ 3 *
      (besselIe 1 ((theta t sigma mu * √(x ^ 2 + y ^ 2)) ^ 2 / 2) - besselIe 2 ((theta t sigma mu * √(x ^ 2 + y ^ 2)) ^ 2 / 2))))))
      atTop (𝓝 (moment * (mu * sigma) ^ 2 * (√(x ^ 2 + y ^ 2) * c) / (128 * π))) := fun c => by
    have h := (power_law hs hm hrp 4 hb).const_mul (moment / (4 * π) * c / √(x ^ 2 + y ^ 2) ^ 3)
    have e : moment * (mu * sigma) ^ 2 * (√(x ^ 2 + y ^ 2) * c) / (128 * π) = moment / (4 * π) * c / √(x ^ 2 + y ^ 2) ^ 3 *
        ((√(mu * sigma) / 2 * √(x ^ 2 + y ^ 2)) ^ 4 * (1 / 2)) := by
      rw [show (√(mu * sigma) / 2 * √(x ^ 2 + y ^ 2)) ^ 4 = √(mu * sigma) ^ 4 / 16 * √(x ^ 2 + y ^ 2) ^ 4 by ring, hq]
      field_simp
      ring
    rw [e]
    refine h.congr' ?_
    filter_upwards [eventually_gt_atTop 0] with t ht
    rw [show √t ^ 4 = (√t ^ 2) ^ 2 by ring, sq_sqrt ht.le]
    ring
  refine ⟨?_, ?_, ?_⟩
  · have h := (power_law hs hm hrp 3 hg).const_mul (moment / (4 * π) / √(x ^ 2 + y ^ 2) ^ 3)
    have e : moment * √(mu * sigma) ^ 3 / (30 * (π * √π)) = moment / (4 * π) / √(x ^ 2 + y ^ 2) ^ 3 *
        ((√(mu * sigma) / 2 * √(x ^ 2 + y ^ 2)) ^ 3 * (16 / (15 * √π))) := by
      field_simp
      ring
    rw [e]
    refine h.congr' ?_
    filter_upwards [eventually_gt_atTop 0] with t ht
    rw [dipoleField_z ht hs hm hr]
    ring
  · have h := hrad (cos (arctan2 y x))
    rw [sqrt_mul_cos_arctan2] at h
    exact h
  · have h := hrad (sin (arctan2 y x))
    rw [sqrt_mul_sin_arctan2] at h
    exact h

/-- **C117.** And the time derivatives: `t^(-5/2)` and `t^(-3)`. -/
theorem dipoleFieldTimeDeriv_late (hs : 0 < sigma) (hm : 0 < mu) (hr : x ≠ 0 ∨ y ≠ 0) :
    Tendsto (fun t => √t ^ 5 * (dipoleFieldTimeDeriv t x y sigma mu moment).z) atTop
      (𝓝 (-(moment * √(mu * sigma) ^ 3 / (20 * (π * √π))))) ∧
    Tendsto (fun t => t ^ 3 * (dipoleFieldTimeDeriv t x y sigma mu moment).x) atTop
      (𝓝 (-(moment * (mu * sigma) ^ 2 * x / (64 * π)))) ∧
    Tendsto (fun t => t ^ 3 * (dipoleFieldTimeDeriv t x y sigma mu moment).y) atTop
      (𝓝 (-(moment * (mu * sigma) ^ 2 * y / (64 * π)))) := by
  have hpi : √π ≠ 0 := (sqrt_pos.2 pi_pos).ne'
  have hrp : 0 < √(x ^ 2 + y ^ 2) := sqrt_pos.2 (by rcases hr with h | h <;> positivity)
  have hq : √(mu * sigma) ^ 4 = (mu * sigma) ^ 2 := by
    rw [show √(mu * sigma) ^ 4 = (√(mu * sigma) ^ 2) ^ 2 by ring, sq_sqrt (by positivity)]
  have hg : Tendsto (fun u => (9 / (2 * u ^ 2) * erf u - (4 * u ^ 3 + 6 * u + 9 / u) / √π * exp (-u ^ 2)) / u ^ 3) (𝓝[>] 0)
      (𝓝 (-8 / (5 * √π))) := by
    refine dipoleRate_first.congr' ?_
    filter_upwards [self_mem_nhdsWithin] with u hu
    have : (0 : ℝ) < u := hu
    simp only [erfRest]
    field_simp
    ring
  have hb : Tendsto (fun u => (-2 * u ^ 2 * ((1 + u ^ 2) * besselIe 0 (u ^ 2 / 2) - (2 + u ^ 2 + 4 / u ^ 2) * besselIe 1 (u ^ 2 / 2))) / u ^ 4)
      (𝓝[>] 0) (𝓝 (-1)) := by
    refine (radialRate_first.comp tendsto_halfSq).neg.congr' ?_
    filter_upwards [self_mem_nhdsWithin] with u hu
    have : (0 : ℝ) < u := hu
    simp only [Function.comp]
    field_simp
    ring
  have hrad : ∀ c : ℝ, Tendsto (fun t => t ^ 3 * (moment / (4 * π) * (c * (-2 * (theta t sigma mu * √(x ^ 2 + y ^ 2)) ^ 2 / (√(x ^ 2 + y ^ 2) ^ 3 * t) *
      ((1 + (theta t sigma mu * √(x ^ 2 + y ^ 2)) ^ 2) * besselIe 0 ((theta t sigma mu * √(x ^ 2 + y ^ 2)) ^ 2 / 2) -
        (2 + (theta t sigma mu * √(x ^ 2 + y ^ 2)) ^ 2 + 4 / (theta t sigma mu * √(x ^ 2 + y ^ 2)) ^ 2) *
          besselIe 1 ((theta t sigma mu * √(x ^ 2 + y ^ 2)) ^ 2 / 2))))))
      atTop (𝓝 (-(moment * (mu * sigma) ^ 2 * (√(x ^ 2 + y ^ 2) * c) / (64 * π)))) := fun c => by
    have h := (power_law hs hm hrp 4 hb).const_mul (moment / (4 * π) * c / √(x ^ 2 + y ^ 2) ^ 3)
    have e : -(moment * (mu * sigma) ^ 2 * (√(x ^ 2 + y ^ 2) * c) / (64 * π)) = moment / (4 * π) * c / √(x ^ 2 + y ^ 2) ^ 3 *
        ((√(mu * sigma) / 2 * √(x ^ 2 + y ^ 2)) ^ 4 * (-1)) := by
      rw [show (√(mu * sigma) / 2 * √(x ^ 2 + y ^ 2)) ^ 4 = √(mu * sigma) ^ 4 / 16 * √(x ^ 2 + y ^ 2) ^ 4 by ring, hq]
      field_simp
      ring
    rw [e]
    refine h.congr' ?_
    filter_upwards [eventually_gt_atTop 0] with t ht
    rw [show √t ^ 4 = (√t ^ 2) ^ 2 by ring, sq_sqrt ht.le]
    field_simp
  refine ⟨?_, ?_, ?_⟩
  · have h := (power_law hs hm hrp 3 hg).const_mul (moment / (4 * π) / √(x ^ 2 + y ^ 2) ^ 3)
    have e : -(moment * √(mu * sigma) ^ 3 / (20 * (π * √π))) = moment / (4 * π) / √(x ^ 2 + y ^ 2) ^ 3 *
        ((√(mu * sigma) / 2 * √(x ^ 2 + y ^ 2)) ^ 3 * (-8 / (5 * √π))) := by
      field_simp
      ring
    rw [e]
    refine h.congr' ?_
    filter_upwards [eventually_gt_atTop 0] with t ht
    have e5 : √t ^ 5 = √t ^ 3 * t := by
      rw [show √t ^ 5 = √t ^ 3 * √t ^ 2 by ring, sq_sqrt ht.le]
    show _ = √t ^ 5 * (moment / (4 * π) * (1 / (√(x ^ 2 + y ^ 2) ^ 3 * t) * (9 / (2 * (theta t sigma mu * √(x ^ 2 + y ^ 2)) ^ 2) *
      erf (theta t sigma mu * √(x ^ 2 + y ^ 2)) - (4 * (theta t sigma mu * √(x ^ 2 + y ^ 2)) ^ 3 + 6 * (theta t sigma mu * √(x ^ 2 + y ^ 2)) +
      9 / (theta t sigma mu * √(x ^ 2 + y ^ 2))) / √π * exp (-(theta t sigma mu * √(x ^ 2 + y ^ 2)) ^ 2))))
    rw [e5]
    generalize (9 / (2 * (theta t sigma mu * √(x ^ 2 + y ^ 2)) ^ 2) * erf (theta t sigma mu * √(x ^ 2 + y ^ 2)) -
      (4 * (theta t sigma mu * √(x ^ 2 + y ^ 2)) ^ 3 + 6 * (theta t sigma mu * √(x ^ 2 + y ^ 2)) +
      9 / (theta t sigma mu * √(x ^ 2 + y ^ 2))) / √π * exp (-(theta t sigma mu * √(x ^ 2 + y ^ 2)) ^ 2)) = B
    field_simp
  · have h := hrad (cos (arctan2 y x))
    rw [sqrt_mul_cos_arctan2] at h
    exact h
  · have h := hrad (sin (arctan2 y x))
    rw [sqrt_mul_sin_arctan2] at h
    exact h

set_option maxHeartbeats 1000000 in
/-- **C117.** The fields of an electric dipole in a whole space. -/
theorem ElectricDipole.late (s : ElectricDipole) (hs : 0 < s.sigma) (hm : 0 < s.mu) {p : V3 ℝ} (hp : p ≠ s.location) :
    V3.Tends (fun t => (√t ^ 3 : ℝ) • ElectricDipole.electricField { s with time := t } p) atTop
      ((s.current * s.length * √(s.mu * s.sigma) ^ 3 / (12 * (π * √π) * s.sigma)) • s.orientation) ∧
    V3.Tends (fun t => (√t ^ 3 : ℝ) • ElectricDipole.magneticField { s with time := t } p) atTop
      ((s.current * s.length * √(s.mu * s.sigma) ^ 3 / (24 * (π * √π))) • s.orientation.cross (p - s.location)) ∧
    V3.Tends (fun t => (√t ^ 5 : ℝ) • ElectricDipole.magneticFieldTimeDeriv { s with time := t } p) atTop
      (-(s.current * s.length * √(s.mu * s.sigma) ^ 3 / (16 * (π * √π))) • s.orientation.cross (p - s.location)) := by
  have hpi : √π ≠ 0 := (sqrt_pos.2 pi_pos).ne'
  have hr : 0 < (p - s.location).len := V3.len_sub_pos hp
  have h1 := (power_law hs hm hr 3 symTerm_first).const_mul (s.current * s.length / (4 * π * s.sigma * (p - s.location).len ^ 3))
  have h2 := (power_law hs hm hr 3 orientTerm_first).const_mul (s.current * s.length / (4 * π * s.sigma * (p - s.location).len ^ 3))
  have h3 := (power_law hs hm hr 3 erfRest_first).const_mul (s.current * s.length / (4 * π * (p - s.location).len ^ 2))
  have h4 := (power_law hs hm hr 3 (g := fun u => u ^ 3 * exp (-u ^ 2)) (c := 1) (by
    refine tendsto_gauss_zero.congr' ?_
    filter_upwards [self_mem_nhdsWithin] with u hu
    have : (0 : ℝ) < u := hu
    field_simp)).const_mul (-2 * (s.current * s.length) / (4 * π * (p - s.location).len ^ 2 * √π))
  have k2 : s.current * s.length / (4 * π * s.sigma * (p - s.location).len ^ 3) *
      ((√(s.mu * s.sigma) / 2 * (p - s.location).len) ^ 3 * (-8 / (3 * √π))) =
      -(s.current * s.length * √(s.mu * s.sigma) ^ 3 / (12 * (π * √π) * s.sigma)) := by
    field_simp
    ring
  have k3 : s.current * s.length / (4 * π * (p - s.location).len ^ 2) *
      ((√(s.mu * s.sigma) / 2 * (p - s.location).len) ^ 3 * (4 / (3 * √π))) =
      s.current * s.length * √(s.mu * s.sigma) ^ 3 / (24 * (π * √π)) * (p - s.location).len := by
    field_simp
    ring
  have k4 : -2 * (s.current * s.length) / (4 * π * (p - s.location).len ^ 2 * √π) *
      ((√(s.mu * s.sigma) / 2 * (p - s.location).len) ^ 3 * 1) =
      -(s.current * s.length * √(s.mu * s.sigma) ^ 3 / (16 * (π * √π))) * (p - s.location).len := by
    field_simp
    ring
  rw [k2] at h2
  rw [k3] at h3
  rw [k4] at h4
  rw [mul_zero, mul_zero] at h1
  have he : ∀ a b : ℝ, Tendsto (fun t => √t ^ 3 * (s.current * s.length / (4 * π * s.sigma * (p - s.location).len ^ 3) *
      ((3 * erf (theta t s.sigma s.mu * (p - s.location).len) - (4 * (theta t s.sigma s.mu * (p - s.location).len) ^ 2 + 6) *
        (theta t s.sigma s.mu * (p - s.location).len / √π * exp (-(theta t s.sigma s.mu * (p - s.location).len) ^ 2))) * a -
      (erf (theta t s.sigma s.mu * (p - s.location).len) - (4 * (theta t s.sigma s.mu * (p - s.location).len) ^ 2 + 2) *
        (theta t s.sigma s.mu * (p - s.location).len / √π * exp (-(theta t s.sigma s.mu * (p - s.location).len) ^ 2))) * b))) atTop
      (𝓝 (s.current * s.length * √(s.mu * s.sigma) ^ 3 / (12 * (π * √π) * s.sigma) * b)) := fun a b => by
    have h := (h1.mul_const a).sub (h2.mul_const b)
    rw [zero_mul, zero_sub, neg_mul, neg_neg] at h
    refine h.congr fun t => ?_
    ring
  have hh : ∀ c : ℝ, Tendsto (fun t => √t ^ 3 * (s.current * s.length / (4 * π * (p - s.location).len ^ 2) *
      (erf (theta t s.sigma s.mu * (p - s.location).len) - 2 / √π * (theta t s.sigma s.mu * (p - s.location).len) *
        exp (-(theta t s.sigma s.mu * (p - s.location).len) ^ 2)) * (c / (p - s.location).len))) atTop
      (𝓝 (s.current * s.length * √(s.mu * s.sigma) ^ 3 / (24 * (π * √π)) * c)) := fun c => by
    have h := h3.mul_const (c / (p - s.location).len)
    have e : s.current * s.length * √(s.mu * s.sigma) ^ 3 / (24 * (π * √π)) * (p - s.location).len * (c / (p - s.location).len) =
        s.current * s.length * √(s.mu * s.sigma) ^ 3 / (24 * (π * √π)) * c := by field_simp
    rw [e] at h
    refine h.congr fun t => ?_
    simp only [erfRest]
    ring
  have hd : ∀ c : ℝ, Tendsto (fun t => √t ^ 5 * (s.current * s.length / (4 * π * (p - s.location).len ^ 2) *
      (-2 * (theta t s.sigma s.mu * (p - s.location).len) ^ 3 / (√π * t) *
        exp (-(theta t s.sigma s.mu * (p - s.location).len) ^ 2)) * (c / (p - s.location).len))) atTop
      (𝓝 (-(s.current * s.length * √(s.mu * s.sigma) ^ 3 / (16 * (π * √π))) * c)) := fun c => by
    have h := h4.mul_const (c / (p - s.location).len)
    have e : -(s.current * s.length * √(s.mu * s.sigma) ^ 3 / (16 * (π * √π))) * (p - s.location).len * (c / (p - s.location).len) =
        -(s.current * s.length * √(s.mu * s.sigma) ^ 3 / (16 * (π * √π))) * c := by field_simp
    rw [e] at h
    refine h.congr' ?_
    filter_upwards [eventually_gt_atTop 0] with t ht
    rw [show √t ^ 5 = √t ^ 3 * √t ^ 2 by ring, sq_sqrt ht.le]
    field_simp
  have cx : ∀ c : ℝ, c / (p - s.location).len = c * (p - s.location).len⁻¹ := fun c => div_eq_mul_inv _ _
  refine ⟨⟨?_, ?_, ?_⟩, ⟨?_, ?_, ?_⟩, ⟨?_, ?_, ?_⟩⟩
  · refine (he ((p - s.location).map (· / (p - s.location).len) |>.map (fun c => ((p - s.location).map (· / (p - s.location).len)).dot s.orientation * c)).x s.orientation.x).congr fun t => ?_
    simp only [ElectricDipole.electricField, V3.map, V3.sub_x, V3.smul_x, smul_eq_mul, Medium.theta]
  · refine (he ((p - s.location).map (· / (p - s.location).len) |>.map (fun c => ((p - s.location).map (· / (p - s.location).len)).dot s.orientation * c)).y s.orientation.y).congr fun t => ?_
    simp only [ElectricDipole.electricField, V3.map, V3.sub_y, V3.smul_y, smul_eq_mul, Medium.theta]
  · refine (he ((p - s.location).map (· / (p - s.location).len) |>.map (fun c => ((p - s.location).map (· / (p - s.location).len)).dot s.orientation * c)).z s.orientation.z).congr fun t => ?_
    simp only [ElectricDipole.electricField, V3.map, V3.sub_z, V3.smul_z, smul_eq_mul, Medium.theta]
  · refine (hh (s.orientation.cross (p - s.location)).x).congr fun t => ?_
    simp only [ElectricDipole.magneticField, V3.cross, V3.map, V3.smul_x, smul_eq_mul, Medium.theta]
    ring
  · refine (hh (s.orientation.cross (p - s.location)).y).congr fun t => ?_
    simp only [ElectricDipole.magneticField, V3.cross, V3.map, V3.smul_y, smul_eq_mul, Medium.theta]
    ring
  · refine (hh (s.orientation.cross (p - s.location)).z).congr fun t => ?_
    simp only [ElectricDipole.magneticField, V3.cross, V3.map, V3.smul_z, smul_eq_mul, Medium.theta]
    ring
  · refine (hd (s.orientation.cross (p - s.location)).x).congr fun t => ?_
    simp only [ElectricDipole.magneticFieldTimeDeriv, V3.cross, V3.map, V3.smul_x, smul_eq_mul, Medium.theta]
    ring
  · refine (hd (s.orientation.cross (p - s.location)).y).congr fun t => ?_
    simp only [ElectricDipole.magneticFieldTimeDeriv, V3.cross, V3.map, V3.smul_y, smul_eq_mul, Medium.theta]
    ring
  · refine (hd (s.orientation.cross (p - s.location)).z).congr fun t => ?_
    simp only [ElectricDipole.magneticFieldTimeDeriv, V3.cross, V3.map, V3.smul_z, smul_eq_mul, Medium.theta]
    ring

/-- **C117.** The fields of a plane wave: at every depth the electric field decays like `t^(-3/2)` and the magnetic field like `t^(-1/2)`. -/
theorem PlaneWave.late (s : PlaneWave) (hs : 0 < s.sigma) (hm : 0 < s.mu) (p : V3 ℝ) :
    V3.Tends (fun t => (√t ^ 3 : ℝ) • PlaneWave.electricField { s with time := t } p) atTop
      (-(s.amplitude * √(s.mu * s.sigma) * p.z / (2 * √π)) • s.orientation) ∧
    V3.Tends (fun t => √t • PlaneWave.magneticFluxDensity { s with time := t } p) atTop
      (-(s.amplitude * √(s.mu * s.sigma) / √π) • s.orientation.cross ⟨0, 0, -1⟩) := by
  have hpi : √π ≠ 0 := (sqrt_pos.2 pi_pos).ne'
  have hx : Tendsto (fun t : ℝ => exp (-(s.mu * s.sigma * p.z ^ 2) / (4 * t))) atTop (𝓝 1) := by
    have h1 : Tendsto (fun t : ℝ => -(s.mu * s.sigma * p.z ^ 2) / (4 * t)) atTop (𝓝 0) :=
      tendsto_const_nhds.div_atTop (tendsto_id.const_mul_atTop (by norm_num))
    have := (continuous_exp.tendsto 0).comp h1
    rwa [exp_zero] at this
  have hE : ∀ c : ℝ, Tendsto (fun t : ℝ => √t ^ 3 * (c * (-s.amplitude * (s.mu * s.sigma) ^ (0.5 : ℝ) * p.z *
      exp (-(s.mu * s.sigma * p.z ^ 2) / (4 * t)) / (2 * π ^ (0.5 : ℝ) * t ^ (1.5 : ℝ))))) atTop
      (𝓝 (-(s.amplitude * √(s.mu * s.sigma) * p.z / (2 * √π)) * c)) := fun c => by
    have h := hx.const_mul (-(s.amplitude * √(s.mu * s.sigma) * p.z / (2 * √π)) * c)
    rw [mul_one] at h
    refine h.congr' ?_
    filter_upwards [eventually_gt_atTop 0] with t ht
    have ht' : 0 < √t := sqrt_pos.2 ht
    rw [PlaneWave.rpow_half, PlaneWave.rpow_half, PlaneWave.rpow_threehalf ht, show √t ^ 3 = √t ^ 2 * √t by ring, sq_sqrt ht.le]
    field_simp
  have hB : ∀ c : ℝ, Tendsto (fun t : ℝ => √t * (c * (-s.amplitude * √(s.sigma * s.mu / (π * t)) *
      exp (-s.mu * s.sigma * p.z ^ 2 / (4 * t))))) atTop (𝓝 (-(s.amplitude * √(s.mu * s.sigma) / √π) * c)) := fun c => by
    have h := hx.const_mul (-(s.amplitude * √(s.mu * s.sigma) / √π) * c)
    rw [mul_one] at h
    refine h.congr' ?_
    filter_upwards [eventually_gt_atTop 0] with t ht
    have ht' : 0 < √t := sqrt_pos.2 ht
    rw [sqrt_div (by positivity), sqrt_mul pi_pos.le, mul_comm s.sigma s.mu,
      show -s.mu * s.sigma * p.z ^ 2 = -(s.mu * s.sigma * p.z ^ 2) by ring]
    field_simp
  exact ⟨⟨hE _, hE _, hE _⟩, ⟨hB _, hB _, hB _⟩⟩

/-- The hypotheses are met, and the limit is not zero: a loop of radius one. -/
example : Tendsto (fun t => √t ^ 3 * loopField t 1 1 1 1 1) atTop (𝓝 (1 * 1 * 1 ^ 2 * √(1 * 1) ^ 3 / (30 * √π))) :=
  loopField_late one_pos one_pos one_pos

end Verif.Tdem
