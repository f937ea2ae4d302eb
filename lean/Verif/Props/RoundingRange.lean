import Verif.Lemmas.RangeSources
import Verif.Props.RoundingBall

/-!
# C145: results in double precision, whose range is limited

The coordinates of the point relative to the source and the strengths may have any sizes from `10⁻³⁰` to `10³⁰` in SI units,
or be zero.  Then no intermediate result leaves the range of normal double precision numbers, and the results are as accurate
as with an unlimited range.  Very much closer to the source the squares underflow.
-/

namespace Verif.Rounded

variable (L : Doubles)

theorem unit_pos : (0 : ℝ) ≤ 1 / 2 ^ 52 := by norm_num

theorem unit_half : (1 / 2 ^ 52 : ℝ) ≤ 1 / 2 := by norm_num

/-- Distances are accurate to 3.5 units in the last place. -/
theorem distance_in_range {location xyz : V3 ℝ} (h : V3.Moderate (xyz - location)) :
    Accurate (1 / 2 ^ 52) (7 / 2) (xyz - location).len (distance L location xyz) := by
  unfold distance
  rw [(dist_agree unit_pos unit_half L h).1]
  exact distance_accurate (L.widen unit_pos) unit_pos (by norm_num) location xyz

/-- The potential and the field of a point mass. -/
theorem PointMass.in_range (s : Gravity.PointMass) (hm : Moderate s.mass) {xyz : V3 ℝ} (hp : xyz ≠ s.location)
    (h : V3.Moderate (xyz - s.location)) :
    Accurate (1 / 2 ^ 52) (13 / 2) (s.gravitationalPotential xyz) (PointMass.gravitationalPotential L s xyz) ∧
    V3.Accurate (1 / 2 ^ 52) (35 / 2) (s.gravitationalField xyz) (PointMass.gravitationalField L s xyz) := by
  rw [PointMass.potential_agree unit_pos unit_half L s (Mag.of_moderate hm) (by norm_num) hp h,
    PointMass.field_agree unit_pos unit_half L s (Mag.of_moderate hm) (by norm_num) hp h]
  exact ⟨PointMass.potential_accurate _ unit_pos s hp (by norm_num), PointMass.field_accurate _ unit_pos s hp (by norm_num)⟩

/-- The field of a ball, inside and outside. -/
theorem Sphere.field_in_range (s : Gravity.Sphere) (hR0 : 0 < s.radius) (hR : Moderate s.radius) (hr : Moderate s.rho)
    {xyz : V3 ℝ} (h : V3.Moderate (xyz - s.location)) :
    V3.Accurate (1 / 2 ^ 52) 34 (s.gravitationalField xyz) (Sphere.gravitationalField L s xyz) := by
  rw [Sphere.field_agree unit_pos unit_half L s hR0 hR hr h]
  exact Sphere.field_accurate _ unit_pos s hR0 xyz (by norm_num)

/-- The field of a magnetic pole. -/
theorem MagDipole.pole_in_range (s : Static.MagDipole) (hm : Moderate s.moment) (hmu : Moderate s.mu) {xyz : V3 ℝ}
    (hp : xyz ≠ s.location) (h : V3.Moderate (xyz - s.location)) :
    V3.Accurate (1 / 2 ^ 52) (39 / 2) (s.poleFluxDensity xyz) (MagDipole.poleFluxDensity L s xyz) := by
  rw [MagDipole.pole_agree unit_pos unit_half L s hm hmu hp h]
  exact MagDipole.pole_accurate _ unit_pos s hp (by norm_num)

/-- The potential and the electric field of a point electrode in a whole-space. -/
theorem pointCurrent_in_range (mu0 : ℝ) {current rho : ℝ} (hr : rho ≠ 0) (hm : Moderate rho) (hc : Moderate current)
    {location xyz : V3 ℝ} (hp : xyz ≠ location) (h : V3.Moderate (xyz - location)) :
    (∃ v, Static.pointPotential (Static.pointCurrent mu0 rho current location) xyz = .ok v ∧
      Accurate (1 / 2 ^ 52) (19 / 2) v (pointPotential L current rho location xyz)) ∧
    (∃ e, Static.pointElectricField (Static.pointCurrent mu0 rho current location) xyz = .ok e ∧
      V3.Accurate (1 / 2 ^ 52) (39 / 2) e (pointElectricField L current rho location xyz)) := by
  rw [(pointPotential_agree unit_pos unit_half L hr hm hc hp h).1, pointElectricField_agree unit_pos unit_half L hr hm hc hp h]
  exact pointCurrent_accurate _ unit_pos mu0 current hr hp (by norm_num)

/-- The potential of a point electrode in a half-space. -/
theorem halfPotential_in_range (mu0 : ℝ) {current rho : ℝ} (hr : 0 < rho) (hm : Moderate rho) (hc : Moderate current)
    {location xyz : V3 ℝ} (hl : location.z ≤ 0) (hz : xyz.z ≤ 0) (hp : xyz ≠ location) (hp' : xyz ≠ Static.mirror location)
    (h : V3.Moderate (xyz - location)) (h' : V3.Moderate (xyz - Static.mirror location)) :
    ∃ s v, Static.PointHalf.new mu0 rho current location = .ok s ∧ s.potential xyz = .ok v ∧
      Accurate (1 / 2 ^ 52) (21 / 2) v (halfPotential L current rho location xyz) := by
  rw [halfPotential_agree unit_pos unit_half L hr hm hc hp hp' h h']
  exact halfPotential_accurate _ unit_pos mu0 current hr hl hz hp hp' (by norm_num)

/-- Some limit is necessary: at `2⁻⁶⁰⁰` from the source (about `10⁻¹⁸⁰` metres) an arithmetic that replaces numbers below
the normal ones by zero, and is exact otherwise, finds the distance zero. -/
theorem distance_underflows :
    distance flushing ⟨0, 0, 0⟩ ⟨1 / 2 ^ 600, 0, 0⟩ = 0 ∧ ((⟨1 / 2 ^ 600, 0, 0⟩ : V3 ℝ) - ⟨0, 0, 0⟩).len = 1 / 2 ^ 600 := by
  constructor
  · have h1 : flushing.sub (1 / 2 ^ 600) 0 = 1 / 2 ^ 600 := by
      show (if |(1 / 2 ^ 600 : ℝ) - 0| < 1 / 2 ^ 1022 then 0 else (1 / 2 ^ 600 : ℝ) - 0) = _
      rw [sub_zero, abs_of_pos (by positivity), if_neg]
      exact not_lt.2 (one_div_le_one_div_of_le (by positivity) (pow_le_pow_right₀ (by norm_num) (by norm_num)))
    have h2 : flushing.mul (1 / 2 ^ 600) (1 / 2 ^ 600) = 0 := by
      show (if |(1 / 2 ^ 600 : ℝ) * (1 / 2 ^ 600)| < 1 / 2 ^ 1022 then 0 else (1 / 2 ^ 600 : ℝ) * (1 / 2 ^ 600)) = _
      rw [if_pos]
      rw [abs_of_pos (by positivity), div_mul_div_comm, one_mul, ← pow_add]
      exact one_div_lt_one_div_of_lt (by positivity) (pow_lt_pow_right₀ (by norm_num) (by norm_num))
    have h3 : flushing.sub 0 0 = 0 := by
      show (if |(0 : ℝ) - 0| < 1 / 2 ^ 1022 then 0 else (0 : ℝ) - 0) = _
      simp
    have h4 : flushing.mul 0 0 = 0 := by
      show (if |(0 : ℝ) * 0| < 1 / 2 ^ 1022 then 0 else (0 : ℝ) * 0) = _
      simp
    have h5 : flushing.add 0 0 = 0 := by
      show (if |(0 : ℝ) + 0| < 1 / 2 ^ 1022 then 0 else (0 : ℝ) + 0) = _
      simp
    unfold distance norm diff sum3
    dsimp only
    rw [h1, h2, h3, h4, h5]
    show Real.sqrt (if (0 : Fin 3) = 0 then flushing.add 0 0 else _) = 0
    rw [if_pos rfl, h5, Real.sqrt_zero]
  · show Real.sqrt _ = _
    simp only [V3.sub_x, V3.sub_y, V3.sub_z, sub_zero, ne_eq, OfNat.ofNat_ne_zero, not_false_eq_true, zero_pow, add_zero]
    exact Real.sqrt_sq (by positivity)

/-- A mass of 5 · 10⁹ kg at a depth of 100 m and a point of the survey. -/
example : V3.Moderate ((⟨30, 0, 0⟩ : V3 ℝ) - ⟨0, 0, -100⟩) ∧ Moderate 5e9 := by
  refine ⟨⟨Or.inr ?_, Or.inl ?_, Or.inr ?_⟩, Or.inr ?_⟩ <;> norm_num

end Verif.Rounded
