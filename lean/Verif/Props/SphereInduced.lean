import Verif.Props.NewtonBall
import Verif.Props.StaticSphere
import Verif.Lemmas.SmallSource
import Mathlib.MeasureTheory.Group.Integral
import Mathlib.MeasureTheory.Measure.Haar.Unique

/-!
# C129: what a sphere adds to the field is due to the currents or the magnetisation induced in it
-/

namespace Verif.Sphere

open MeasureTheory Prism Ball

/-- The potential of a uniform density of dipoles in a ball. -/
theorem dipoles_in_ball (c : V3 ℝ) {a : ℝ} (ha : 0 < a) (e p : V3 ℝ) :
    IntegrableOn (fun q => e.dot (p - vec q) / (p - vec q).len ^ 3) (points c a) ∧
    ∫ q in points c a, e.dot (p - vec q) / (p - vec q).len ^ 3 =
      (if (p - c).len ≤ a then 4 / 3 * Real.pi else 4 / 3 * Real.pi * a ^ 3 / (p - c).len ^ 3) * e.dot (p - c) := by
  obtain ⟨-, ix, iy, iz⟩ := integrable c ha p
  have h := (newton_ball c ha p).2
  have hx := congrArg V3.x h
  have hy := congrArg V3.y h
  have hz := congrArg V3.z h
  simp only [V3.smul_x, V3.smul_y, V3.smul_z, smul_eq_mul] at hx hy hz
  have eq : ∀ q : ℝ × ℝ × ℝ, e.dot (p - vec q) / (p - vec q).len ^ 3 =
      -e.x * ((vec q - p).x / (vec q - p).len ^ 3) + -e.y * ((vec q - p).y / (vec q - p).len ^ 3) +
        -e.z * ((vec q - p).z / (vec q - p).len ^ 3) := fun q => by
    rw [show (p - vec q).len = (vec q - p).len by rw [← V3.len_neg, neg_sub]]
    simp only [V3.dot, V3.sub_x, V3.sub_y, V3.sub_z]
    ring
  simp only [eq]
  have i12 : IntegrableOn (fun q : ℝ × ℝ × ℝ => -e.x * ((vec q - p).x / (vec q - p).len ^ 3) +
      -e.y * ((vec q - p).y / (vec q - p).len ^ 3)) (points c a) := (ix.const_mul _).add (iy.const_mul _)
  refine ⟨i12.add (iz.const_mul _), ?_⟩
  rw [integral_add i12 (iz.const_mul _), integral_add (ix.const_mul _) (iy.const_mul _)]
  simp only [integral_const_mul, hx, hy, hz, V3.dot]
  split_ifs <;> ring

/-- The current in excess of what the field drives in the background, at a point. -/
theorem Electro.excess (s : Electro) (q : V3 ℝ) :
    s.currentTotal q - s.sigmaBackground • s.fieldTotal q =
      if (q - s.location).len ≤ s.radius then
        ((s.sigmaSphere - s.sigmaBackground) * (3 * s.sigmaBackground / (s.sigmaSphere + 2 * s.sigmaBackground))) • s.primaryField
      else 0 := by
  split_ifs with h
  · have h' : ¬ (q - s.location).len > s.radius := not_lt.2 h
    simp only [Electro.currentTotal, Electro.fieldTotal, if_pos h, if_neg h']
    ext <;> simp <;> ring
  · simp only [Electro.currentTotal, if_neg h]
    ext <;> simp

/-- **C129.** The secondary potential of a sphere in a uniform field is, at every point, the integral over all space of the potentials of the
current dipoles made of the current in excess of what the total field would drive through the background. -/
theorem Electro.secondary_is_induced (s : Electro) (hr : 0 < s.radius) (h1 : 0 < s.sigmaSphere) (h0 : 0 < s.sigmaBackground) (p : V3 ℝ) :
    Integrable (fun q => (s.currentTotal (vec q) - s.sigmaBackground • s.fieldTotal (vec q)).dot (p - vec q) /
      (4 * Real.pi * s.sigmaBackground * (p - vec q).len ^ 3)) ∧
    s.potentialTotal p - s.potentialPrimary p =
      ∫ q, (s.currentTotal (vec q) - s.sigmaBackground • s.fieldTotal (vec q)).dot (p - vec q) /
        (4 * Real.pi * s.sigmaBackground * (p - vec q).len ^ 3) := by
  set k := (s.sigmaSphere - s.sigmaBackground) * (3 * s.sigmaBackground / (s.sigmaSphere + 2 * s.sigmaBackground)) with hk
  have e : (fun q => (s.currentTotal (vec q) - s.sigmaBackground • s.fieldTotal (vec q)).dot (p - vec q) /
      (4 * Real.pi * s.sigmaBackground * (p - vec q).len ^ 3)) =
      (points s.location s.radius).indicator fun q =>
        k / (4 * Real.pi * s.sigmaBackground) * (s.primaryField.dot (p - vec q) / (p - vec q).len ^ 3) := by
    funext q
    rw [s.excess, Set.indicator]
    by_cases h : q ∈ points s.location s.radius
    · have h' : (vec q - s.location).len ≤ s.radius := h
      rw [if_pos h, if_pos h']
      simp only [V3.dot, V3.smul_x, V3.smul_y, V3.smul_z, smul_eq_mul]
      rw [div_mul_div_comm]
      ring
    · have h' : ¬ (vec q - s.location).len ≤ s.radius := h
      rw [if_neg h, if_neg h']
      simp [V3.dot]
  have hm := measurableSet_points s.location s.radius
  obtain ⟨hi, hv⟩ := dipoles_in_ball s.location hr s.primaryField p
  rw [e]
  refine ⟨(integrable_indicator_iff hm).2 (hi.const_mul _), ?_⟩
  rw [integral_indicator hm, integral_const_mul, hv]
  have hd : s.sigmaSphere + 2 * s.sigmaBackground ≠ 0 := by positivity
  have hpi := Real.pi_ne_zero
  have hneg : (p - s.location).dot (-s.primaryField) = -s.primaryField.dot (p - s.location) := by simp only [V3.dot, V3.neg_x, V3.neg_y, V3.neg_z]; ring
  simp only [Electro.potentialTotal, Electro.potentialPrimary, hneg, hk]
  generalize s.primaryField.dot (p - s.location) = t
  by_cases h : (p - s.location).len ≤ s.radius
  · rw [if_neg (not_lt.2 h), if_pos h]
    field_simp
    ring
  · rw [if_pos (not_le.1 h), if_neg h]
    have : (p - s.location).len ≠ 0 := by linarith [not_le.1 h]
    field_simp
    ring

/-- **C129.** The secondary magnetic potential of a sphere is, at every point, that of the magnetisation induced in it: of the flux density in
excess of what the total field would produce in the background. -/
theorem Magneto.secondary_is_induced (s : Magneto) (hr : 0 < s.radius) (h1 : 0 < s.muSphere) (h0 : 0 < s.muBackground) (p : V3 ℝ) :
    Integrable (fun q => (s.fluxTotal (vec q) - s.muBackground • s.fieldTotal (vec q)).dot (p - vec q) /
      (4 * Real.pi * s.muBackground * (p - vec q).len ^ 3)) ∧
    s.potentialTotal p - s.potentialPrimary p =
      ∫ q, (s.fluxTotal (vec q) - s.muBackground • s.fieldTotal (vec q)).dot (p - vec q) /
        (4 * Real.pi * s.muBackground * (p - vec q).len ^ 3) :=
  s.toElectro.secondary_is_induced hr h1 h0 p

/-- A constant vector times a function, component by component, integrated over a ball. -/
theorem Electro.excess_integral (s : Electro) (hr : 0 < s.radius) (f : V3 ℝ → ℝ) (hf : f 0 = 0) :
    ∫ q, f (s.currentTotal (vec q) - s.sigmaBackground • s.fieldTotal (vec q)) =
      4 / 3 * Real.pi * s.radius ^ 3 *
        f (((s.sigmaSphere - s.sigmaBackground) * (3 * s.sigmaBackground / (s.sigmaSphere + 2 * s.sigmaBackground))) • s.primaryField) := by
  set v := f (((s.sigmaSphere - s.sigmaBackground) * (3 * s.sigmaBackground / (s.sigmaSphere + 2 * s.sigmaBackground))) • s.primaryField) with hv
  have e : (fun q => f (s.currentTotal (vec q) - s.sigmaBackground • s.fieldTotal (vec q))) =
      (points s.location s.radius).indicator fun _ => 1 * v := by
    funext q
    rw [s.excess, Set.indicator]
    by_cases h : q ∈ points s.location s.radius
    · have h' : (vec q - s.location).len ≤ s.radius := h
      rw [if_pos h, if_pos h', one_mul]
    · have h' : ¬ (vec q - s.location).len ≤ s.radius := h
      rw [if_neg h, if_neg h', hf]
  rw [e, integral_indicator (measurableSet_points _ _), integral_mul_const, Ball.integral_one s.location hr]

/-- **C129.** The induced currents add up to the moment of the dipole that the sphere is from outside: the secondary potential outside is that of
a current dipole of this moment at the centre. -/
theorem Electro.moment_of_induced (s : Electro) (hr : 0 < s.radius) (h1 : 0 < s.sigmaSphere) (h0 : 0 < s.sigmaBackground) (p : V3 ℝ)
    (hp : s.radius < (p - s.location).len) :
    s.potentialTotal p - s.potentialPrimary p =
      (⟨∫ q, (s.currentTotal (vec q) - s.sigmaBackground • s.fieldTotal (vec q)).x,
        ∫ q, (s.currentTotal (vec q) - s.sigmaBackground • s.fieldTotal (vec q)).y,
        ∫ q, (s.currentTotal (vec q) - s.sigmaBackground • s.fieldTotal (vec q)).z⟩ : V3 ℝ).dot (p - s.location) /
        (4 * Real.pi * s.sigmaBackground * (p - s.location).len ^ 3) := by
  rw [s.excess_integral hr (fun v => v.x) rfl, s.excess_integral hr (fun v => v.y) rfl, s.excess_integral hr (fun v => v.z) rfl]
  have hd : s.sigmaSphere + 2 * s.sigmaBackground ≠ 0 := by positivity
  have hpi := Real.pi_ne_zero
  have hl : (p - s.location).len ≠ 0 := by linarith
  simp only [Electro.potentialTotal, Electro.potentialPrimary, if_pos hp]
  generalize hL : (p - s.location).len = L at hl
  generalize p - s.location = w
  simp only [V3.dot, V3.smul_x, V3.smul_y, V3.smul_z, smul_eq_mul, V3.neg_x, V3.neg_y, V3.neg_z]
  field_simp
  ring

/-- **C129.** The same for the magnetisation. -/
theorem Magneto.moment_of_induced (s : Magneto) (hr : 0 < s.radius) (h1 : 0 < s.muSphere) (h0 : 0 < s.muBackground) (p : V3 ℝ)
    (hp : s.radius < (p - s.location).len) :
    s.potentialTotal p - s.potentialPrimary p =
      (⟨∫ q, (s.fluxTotal (vec q) - s.muBackground • s.fieldTotal (vec q)).x,
        ∫ q, (s.fluxTotal (vec q) - s.muBackground • s.fieldTotal (vec q)).y,
        ∫ q, (s.fluxTotal (vec q) - s.muBackground • s.fieldTotal (vec q)).z⟩ : V3 ℝ).dot (p - s.location) /
        (4 * Real.pi * s.muBackground * (p - s.location).len ^ 3) :=
  s.toElectro.moment_of_induced hr h1 h0 p hp

theorem Electro.charge_integrable (eps0 : ℝ) (s : Electro) (dr : Option ℝ) : Integrable fun q => s.chargeDensity eps0 (vec q) dr := by
  set k := (s.sigmaSphere - s.sigmaBackground) / (s.sigmaSphere + 2 * s.sigmaBackground) with hk
  set d := dr.getD (0.05 * s.radius) with hd
  set S : Set (ℝ × ℝ × ℝ) := {q | (vec q - s.location).len < s.radius + 0.5 * d ∧ (vec q - s.location).len > s.radius - 0.5 * d} with hS
  have cd := continuous_dist s.location
  have hm : MeasurableSet S :=
    ((isOpen_lt cd continuous_const).inter (isOpen_lt continuous_const cd)).measurableSet
  have e : (fun q => s.chargeDensity eps0 (vec q) dr) =
      S.indicator fun q => eps0 * 3 * (vec q - s.location).dot s.primaryField * k / (vec q - s.location).len := by
    funext q
    rw [Set.indicator]
    by_cases h : q ∈ S
    · rw [if_pos h]
      exact if_pos h
    · rw [if_neg h]
      exact if_neg h
  have hfin : volume S ≠ ⊤ := by
    have sub : S ⊆ points s.location (|s.radius + 0.5 * d| + 1) := fun q hq => by
      show (vec q - s.location).len ≤ _
      have := hq.1
      have := le_abs_self (s.radius + 0.5 * d)
      linarith
    have hpos : 0 < |s.radius + 0.5 * d| + 1 := by positivity
    refine ne_top_of_le_ne_top ?_ (measure_mono sub)
    refine ne_top_of_le_ne_top ?_ (measure_mono (points_subset s.location hpos))
    rw [Box.points, Measure.volume_eq_prod, Measure.prod_prod, Measure.volume_eq_prod, Measure.prod_prod]
    simp only [Real.volume_Ioc]
    finiteness
  rw [e, integrable_indicator_iff hm]
  refine Measure.integrableOn_of_bounded (M := |eps0| * 3 * |k| * s.primaryField.len) hfin ?_ ?_
  · have c1 : Continuous fun q : ℝ × ℝ × ℝ => eps0 * 3 * (vec q - s.location).dot s.primaryField * k := by
      simp only [vec, V3.dot, V3.sub_x, V3.sub_y, V3.sub_z]
      fun_prop
    exact (c1.measurable.div cd.measurable).aestronglyMeasurable
  · refine Filter.Eventually.of_forall fun q => ?_
    have hb := FarField.abs_dot_le (vec q - s.location) s.primaryField
    have h0 := V3.len_nonneg (vec q - s.location)
    rw [Real.norm_eq_abs, abs_div, abs_mul, abs_mul, abs_mul, abs_of_nonneg h0, abs_of_pos (show (0 : ℝ) < 3 by norm_num)]
    refine div_le_of_le_mul₀ h0 (by have := V3.len_nonneg s.primaryField; positivity) ?_
    calc |eps0| * 3 * |(vec q - s.location).dot s.primaryField| * |k|
        ≤ |eps0| * 3 * ((vec q - s.location).len * s.primaryField.len) * |k| := by gcongr
      _ = _ := by ring

/-- **C129.** The charges on the sphere add up to nothing, whatever the width of the shell they are drawn in. -/
theorem Electro.no_net_charge (eps0 : ℝ) (s : Electro) (dr : Option ℝ) :
    Integrable (fun q => s.chargeDensity eps0 (vec q) dr) ∧ ∫ q, s.chargeDensity eps0 (vec q) dr = 0 := by
  refine ⟨s.charge_integrable eps0 dr, ?_⟩
  set c : ℝ × ℝ × ℝ := (2 * s.location.x, 2 * s.location.y, 2 * s.location.z) with hc
  have odd : ∀ q : ℝ × ℝ × ℝ, s.chargeDensity eps0 (vec (c - q)) dr = -s.chargeDensity eps0 (vec q) dr := fun q => by
    have e : vec (c - q) - s.location = -(vec q - s.location) := by
      ext <;> simp [hc, vec] <;> ring
    have hd : (-(vec q - s.location)).dot s.primaryField = -(vec q - s.location).dot s.primaryField := by
      simp only [V3.dot, V3.neg_x, V3.neg_y, V3.neg_z]; ring
    simp only [Electro.chargeDensity, e, V3.len_neg, hd]
    split_ifs <;> ring
  have h2 : (volume : Measure (ℝ × ℝ)).IsAddHaarMeasure := by rw [Measure.volume_eq_prod]; infer_instance
  have h3 : (volume : Measure (ℝ × ℝ × ℝ)).IsAddHaarMeasure := by rw [Measure.volume_eq_prod]; infer_instance
  have h := integral_sub_left_eq_self (fun q : ℝ × ℝ × ℝ => s.chargeDensity eps0 (vec q) dr) volume c
  simp only [odd, integral_neg] at h
  linarith

/-- Non-vacuity: the excess of current is not zero. -/
example : (⟨1, 2, 1, ⟨1, 0, 0⟩, 0⟩ : Electro).currentTotal 0 - (1 : ℝ) • (⟨1, 2, 1, ⟨1, 0, 0⟩, 0⟩ : Electro).fieldTotal 0 ≠ 0 := by
  have h := (⟨1, 2, 1, ⟨1, 0, 0⟩, 0⟩ : Electro).excess 0
  rw [if_pos (by rw [sub_self]; rw [V3.len_eq_zero.2 rfl]; norm_num)] at h
  intro hc
  have := congrArg V3.x (h.symm.trans hc)
  norm_num at this

end Verif.Sphere
