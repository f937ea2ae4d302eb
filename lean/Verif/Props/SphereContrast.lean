import Verif.Props.StaticSphere
import Verif.Spec.StaticLimit

/-!
# C122: spheres without contrast, very good and very poor conductors

A sphere of the material of its surroundings leaves the primary field alone; inside any sphere field and current are parallel to the primary
ones and bounded by three halves and three times these; with growing conductivity the field inside and the potential on the surface vanish and
the current becomes three times the primary one; with vanishing conductivity the current inside vanishes.
-/

namespace Verif.Sphere

open V3 Filter Topology

variable (s : Electro)

/-- **C122.** Without contrast there are no secondary potential, field, current or charge, anywhere. -/
theorem electro_no_contrast (h : s.sigmaSphere = s.sigmaBackground) (hb : 0 < s.sigmaBackground) (p : V3 ℝ) :
    s.potential p "secondary" = .one 0 ∧ s.electricField p "secondary" = .one 0 ∧ s.currentDensity p "secondary" = .one 0 ∧
    ∀ eps0 dr, s.chargeDensity eps0 p dr = 0 := by
  have e1 : s.sigmaBackground + 2 * s.sigmaBackground = 3 * s.sigmaBackground := by ring
  have hV : s.potentialTotal p = s.potentialPrimary p := by
    simp only [Electro.potentialTotal, Electro.potentialPrimary, h, e1]
    split_ifs
    · simp
    · field_simp
  have hE : s.fieldTotal p = s.fieldPrimary p := by
    simp only [Electro.fieldTotal, Electro.fieldPrimary, h, e1, sub_self, zero_div, zero_mul, sub_zero, mul_one, mul_zero]
    split_ifs
    · ext <;> simp
    · ext <;> simp <;> field_simp
  have hJ : s.currentTotal p = s.currentPrimary p := by
    simp only [Electro.currentTotal, Electro.currentPrimary, hE, h, ite_self]
  refine ⟨?_, ?_, ?_, fun eps0 dr => ?_⟩
  · simp [Electro.potential, select, hV]
  · simp [Electro.electricField, select, hE]
  · simp [Electro.currentDensity, select, hJ]
  · simp only [Electro.chargeDensity, h, sub_self, zero_div, mul_zero, ite_self]

/-- **C122.** Inside, field and current are parallel to the primary ones; the field is less than three halves and the current less than three
times as strong.  A better conductor than its surroundings weakens the field and strengthens the current, a poorer one the other way round. -/
theorem electro_inside (hs : 0 < s.sigmaSphere) (hb : 0 < s.sigmaBackground) {p : V3 ℝ} (hp : (p - s.location).len ≤ s.radius) :
    ∃ k j : ℝ, s.fieldTotal p = k • s.primaryField ∧ s.currentTotal p = j • s.currentPrimary p ∧ 0 < k ∧ k < 3 / 2 ∧ 0 < j ∧ j < 3 ∧
      (s.sigmaBackground < s.sigmaSphere ↔ k < 1) ∧ (s.sigmaBackground < s.sigmaSphere ↔ 1 < j) := by
  have hd : 0 < s.sigmaSphere + 2 * s.sigmaBackground := by positivity
  have hn : ¬ (p - s.location).len > s.radius := not_lt.2 hp
  refine ⟨3 * s.sigmaBackground / (s.sigmaSphere + 2 * s.sigmaBackground), 3 * s.sigmaSphere / (s.sigmaSphere + 2 * s.sigmaBackground),
    ?_, ?_, by positivity, ?_, by positivity, ?_, ?_, ?_⟩
  · simp only [Electro.fieldTotal, if_neg hn]
    ext <;> simp
  · simp only [Electro.currentTotal, Electro.fieldTotal, Electro.currentPrimary, Electro.fieldPrimary, if_neg hn, if_pos hp]
    ext <;> simp <;> ring
  · rw [div_lt_div_iff₀ hd two_pos]; linarith
  · rw [div_lt_iff₀ hd]; linarith
  · rw [div_lt_one hd]; constructor <;> intro h <;> linarith
  · rw [one_lt_div hd]; constructor <;> intro h <;> linarith

theorem tendsto_weak (c d : ℝ) : Tendsto (fun x : ℝ => c / (x + d)) atTop (𝓝 0) :=
  tendsto_const_nhds.div_atTop (tendsto_atTop_add_const_right _ _ tendsto_id)

/-- **C122.** With growing conductivity of the sphere the field inside and the potential inside and on the surface vanish, the current density
inside tends to three times the primary one. -/
theorem electro_good_conductor (hb : 0 < s.sigmaBackground) {p : V3 ℝ} (hp : (p - s.location).len ≤ s.radius) :
    Tendsto (fun x => ({ s with sigmaSphere := x } : Electro).potentialTotal p) atTop (𝓝 0) ∧
    V3.Tends (fun x => ({ s with sigmaSphere := x } : Electro).fieldTotal p) atTop 0 ∧
    V3.Tends (fun x => ({ s with sigmaSphere := x } : Electro).currentTotal p) atTop ((3 : ℝ) • s.currentPrimary p) := by
  have hn : ¬ (p - s.location).len > s.radius := not_lt.2 hp
  have h3 : Tendsto (fun x : ℝ => x * (3 * s.sigmaBackground / (x + 2 * s.sigmaBackground))) atTop (𝓝 (3 * s.sigmaBackground)) := by
    have h := (tendsto_weak (6 * s.sigmaBackground ^ 2) (2 * s.sigmaBackground)).const_sub (3 * s.sigmaBackground)
    rw [sub_zero] at h
    refine h.congr' ?_
    filter_upwards [eventually_gt_atTop 0] with x hx
    have : x + 2 * s.sigmaBackground ≠ 0 := by positivity
    field_simp
    ring
  refine ⟨?_, ⟨?_, ?_, ?_⟩, ?_, ?_, ?_⟩
  · simp only [Electro.potentialTotal, if_neg hn]
    exact tendsto_weak _ _
  · simp only [Electro.fieldTotal, if_neg hn, V3.map_x]
    simpa using (tendsto_weak (3 * s.sigmaBackground) (2 * s.sigmaBackground)).mul_const s.primaryField.x
  · simp only [Electro.fieldTotal, if_neg hn, V3.map_y]
    simpa using (tendsto_weak (3 * s.sigmaBackground) (2 * s.sigmaBackground)).mul_const s.primaryField.y
  · simp only [Electro.fieldTotal, if_neg hn, V3.map_z]
    simpa using (tendsto_weak (3 * s.sigmaBackground) (2 * s.sigmaBackground)).mul_const s.primaryField.z
  · simp only [Electro.currentTotal, Electro.fieldTotal, if_neg hn, if_pos hp, V3.map_x, Electro.currentPrimary, Electro.fieldPrimary, zero_add,
      V3.smul_x, smul_eq_mul]
    convert h3.mul_const s.primaryField.x using 2 <;> ring
  · simp only [Electro.currentTotal, Electro.fieldTotal, if_neg hn, if_pos hp, V3.map_y, Electro.currentPrimary, Electro.fieldPrimary, zero_add,
      V3.smul_y, smul_eq_mul]
    convert h3.mul_const s.primaryField.y using 2 <;> ring
  · simp only [Electro.currentTotal, Electro.fieldTotal, if_neg hn, if_pos hp, V3.map_z, Electro.currentPrimary, Electro.fieldPrimary, zero_add,
      V3.smul_z, smul_eq_mul]
    convert h3.mul_const s.primaryField.z using 2 <;> ring

/-- **C122.** With vanishing conductivity of the sphere the current inside vanishes, the field inside becomes three halves of the primary one. -/
theorem electro_poor_conductor (hb : 0 < s.sigmaBackground) {p : V3 ℝ} (hp : (p - s.location).len ≤ s.radius) :
    V3.Tends (fun x => ({ s with sigmaSphere := x } : Electro).fieldTotal p) (𝓝[>] 0) ((3 / 2 : ℝ) • s.primaryField) ∧
    V3.Tends (fun x => ({ s with sigmaSphere := x } : Electro).currentTotal p) (𝓝[>] 0) 0 := by
  have hn : ¬ (p - s.location).len > s.radius := not_lt.2 hp
  have h1 : Tendsto (fun x : ℝ => 3 * s.sigmaBackground / (x + 2 * s.sigmaBackground)) (𝓝[>] 0) (𝓝 (3 / 2)) := by
    have hc : ContinuousAt (fun x : ℝ => 3 * s.sigmaBackground / (x + 2 * s.sigmaBackground)) 0 :=
      ContinuousAt.div (by fun_prop) (by fun_prop) (by simp [hb.ne'])
    have := hc.tendsto.mono_left (nhdsWithin_le_nhds (s := Set.Ioi 0))
    convert this using 2
    rw [zero_add]
    field_simp
  have h0 : Tendsto (fun x : ℝ => x) (𝓝[>] 0) (𝓝 0) := tendsto_id.mono_left nhdsWithin_le_nhds
  have h2 : Tendsto (fun x : ℝ => x * (3 * s.sigmaBackground / (x + 2 * s.sigmaBackground))) (𝓝[>] 0) (𝓝 0) := by
    simpa using h0.mul h1
  refine ⟨⟨?_, ?_, ?_⟩, ?_, ?_, ?_⟩
  · simp only [Electro.fieldTotal, if_neg hn, V3.map_x, V3.smul_x, smul_eq_mul]
    exact h1.mul_const _
  · simp only [Electro.fieldTotal, if_neg hn, V3.map_y, V3.smul_y, smul_eq_mul]
    exact h1.mul_const _
  · simp only [Electro.fieldTotal, if_neg hn, V3.map_z, V3.smul_z, smul_eq_mul]
    exact h1.mul_const _
  · simp only [Electro.currentTotal, Electro.fieldTotal, if_neg hn, if_pos hp, V3.map_x]
    simpa [mul_assoc] using h2.mul_const s.primaryField.x
  · simp only [Electro.currentTotal, Electro.fieldTotal, if_neg hn, if_pos hp, V3.map_y]
    simpa [mul_assoc] using h2.mul_const s.primaryField.y
  · simp only [Electro.currentTotal, Electro.fieldTotal, if_neg hn, if_pos hp, V3.map_z]
    simpa [mul_assoc] using h2.mul_const s.primaryField.z

/-- **C122.** The same for a magnetisable sphere. -/
theorem magneto_no_contrast (s : Magneto) (h : s.muSphere = s.muBackground) (hb : 0 < s.muBackground) (p : V3 ℝ) :
    s.potential p "secondary" = .one 0 ∧ s.magneticField p "secondary" = .one 0 ∧ s.magneticFluxDensity p "secondary" = .one 0 := by
  obtain ⟨h1, h2, h3, -⟩ := electro_no_contrast s.toElectro h hb p
  exact ⟨h1, h2, h3⟩

theorem magneto_inside (s : Magneto) (hs : 0 < s.muSphere) (hb : 0 < s.muBackground) {p : V3 ℝ} (hp : (p - s.location).len ≤ s.radius) :
    ∃ k j : ℝ, s.fieldTotal p = k • s.primaryField ∧ s.fluxTotal p = j • s.fluxPrimary p ∧ 0 < k ∧ k < 3 / 2 ∧ 0 < j ∧ j < 3 ∧
      (s.muBackground < s.muSphere ↔ k < 1) ∧ (s.muBackground < s.muSphere ↔ 1 < j) :=
  electro_inside s.toElectro hs hb hp

theorem magneto_soft (s : Magneto) (hb : 0 < s.muBackground) {p : V3 ℝ} (hp : (p - s.location).len ≤ s.radius) :
    Tendsto (fun x => ({ s with muSphere := x } : Magneto).potentialTotal p) atTop (𝓝 0) ∧
    V3.Tends (fun x => ({ s with muSphere := x } : Magneto).fieldTotal p) atTop 0 ∧
    V3.Tends (fun x => ({ s with muSphere := x } : Magneto).fluxTotal p) atTop ((3 : ℝ) • s.fluxPrimary p) :=
  electro_good_conductor s.toElectro hb hp

/-- The hypotheses are met. -/
example : ∃ k j : ℝ, (⟨1, 10, 1, ⟨1, 0, 0⟩, 0⟩ : Electro).fieldTotal 0 = k • (⟨1, 0, 0⟩ : V3 ℝ) ∧ 0 < k ∧ k < 1 ∧ 1 < j := by
  obtain ⟨k, j, h1, -, h2, -, -, -, h3, h4⟩ := electro_inside ⟨1, 10, 1, ⟨1, 0, 0⟩, 0⟩ (by norm_num) (by norm_num) (p := 0) (by simp [V3.len])
  exact ⟨k, j, h1, h2, h3.1 (by norm_num), h4.1 (by norm_num)⟩

end Verif.Sphere
