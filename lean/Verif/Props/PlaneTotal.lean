import Verif.Lemmas.PlaneTotal
import Verif.Props.PrismTotals
import Verif.Model.StaticHalfspace

/-!
# C128: what a whole plane of measurements adds up to

Gauss's law for horizontal planes: the total of the vertical gravity is `2πG` times the mass on the other side, whatever its shape; magnetic
fields and gravity gradients add up to nothing; all the current that is injected into the ground passes every plane below. -/

namespace Verif.Plane

open Real MeasureTheory Prism

/-- An inverse-square field of a point. -/
theorem point_total (l : V3 ℝ) (c : ℝ) {z : ℝ} (hz : z ≠ l.z) : PlaneTotal (fun p => c * ((p - l).z / (p - l).len ^ 3)) z (c * (2 * π * ((z - l.z) / |z - l.z|))) := by
  have hh : z - l.z ≠ 0 := sub_ne_zero.2 hz
  obtain ⟨h1, h2⟩ := total_cube hh
  obtain ⟨s1, s2⟩ := shift (fun w => (z - l.z) / √(w.1 ^ 2 + w.2 ^ 2 + (z - l.z) ^ 2) ^ 3) l.x l.y
  simp only [PlaneTotal, V3.len, V3.sub_x, V3.sub_y, V3.sub_z]
  refine ⟨(s1.2 h1).const_mul c, ?_⟩
  rw [integral_const_mul, s2, h2]

theorem _root_.Verif.PlaneTotal.congr {f g : V3 ℝ → ℝ} {z T : ℝ} (h : PlaneTotal f z T) (e : ∀ w : ℝ × ℝ, g ⟨w.1, w.2, z⟩ = f ⟨w.1, w.2, z⟩) :
    PlaneTotal g z T := by
  simp only [PlaneTotal, e]
  exact h

theorem _root_.Verif.PlaneTotal.add {f g : V3 ℝ → ℝ} {z S T : ℝ} (h : PlaneTotal f z S) (h' : PlaneTotal g z T) :
    PlaneTotal (fun p => f p + g p) z (S + T) :=
  ⟨h.1.add h'.1, by rw [integral_add h.1 h'.1, h.2, h'.2]⟩

theorem _root_.Verif.PlaneTotal.mul {f : V3 ℝ → ℝ} {z S : ℝ} (h : PlaneTotal f z S) (c : ℝ) : PlaneTotal (fun p => c * f p) z (c * S) :=
  ⟨h.1.const_mul c, by rw [integral_const_mul, h.2]⟩

/-- The tidal tensor of a point. -/
theorem point_tidal (l : V3 ℝ) {z : ℝ} (hz : z ≠ l.z) :
    PlaneNull (fun p => (tidal (p - l)).x) z ∧ PlaneNull (fun p => (tidal (p - l)).y) z ∧ PlaneNull (fun p => (tidal (p - l)).z) z := by
  have hh : z - l.z ≠ 0 := sub_ne_zero.2 hz
  obtain ⟨⟨i1, i2, i3⟩, ⟨i4, i5, i6⟩, i7, i8, i9⟩ := tidal_integrable hh
  obtain ⟨⟨t1, t2, t3⟩, ⟨t4, t5, t6⟩, t7, t8, t9⟩ := tidal_total hh
  have key : ∀ {f : ℝ × ℝ → ℝ}, Integrable f → ∫ w, f w = 0 → Integrable (fun w : ℝ × ℝ => f (w.1 - l.x, w.2 - l.y)) ∧
      ∫ w : ℝ × ℝ, f (w.1 - l.x, w.2 - l.y) = 0 := fun {f} hf f0 => by
    have s1 := shift f l.x l.y
    exact ⟨s1.1.2 hf, s1.2.trans f0⟩
  exact ⟨⟨key i1 t1, key i2 t2, key i3 t3⟩, ⟨key i4 t4, key i5 t5, key i6 t6⟩, key i7 t7, key i8 t8, key i9 t9⟩

/-- Combinations of the columns of tensors that add up to nothing. -/
theorem combine {A B C : V3 ℝ → ℝ} {z : ℝ} (ha : PlaneTotal A z 0) (hb : PlaneTotal B z 0) (hc : PlaneTotal C z 0) (k a b c : ℝ) :
    PlaneTotal (fun p => k * (a * A p + b * B p + c * C p)) z 0 := by
  simpa using (((ha.mul a).add (hb.mul b)).add (hc.mul c)).mul k

/-- The field of a dipole. -/
theorem dipole_total (l m : V3 ℝ) (c : ℝ) {z : ℝ} (hz : z ≠ l.z) : PlaneNull (fun p => c • dipoleH m (p - l)) z := by
  obtain ⟨⟨x1, x2, x3⟩, ⟨y1, y2, y3⟩, z1, z2, z3⟩ := point_tidal l hz
  simp only [PlaneNull, V3.smul_x, V3.smul_y, V3.smul_z, smul_eq_mul, dipoleH_eq]
  refine ⟨?_, ?_, ?_⟩
  · exact (combine x1 x2 x3 (c * (1 / (4 * π))) m.x m.y m.z).congr fun w => by ring
  · exact (combine y1 y2 y3 (c * (1 / (4 * π))) m.x m.y m.z).congr fun w => by ring
  · exact (combine z1 z2 z3 (c * (1 / (4 * π))) m.x m.y m.z).congr fun w => by ring

end Verif.Plane

namespace Verif.Gravity

open Real MeasureTheory Prism

/-- **C128.** The excess-mass formula for a point mass: above the mass the vertical gravity adds up to `−2πGM`, below it to `2πGM`. -/
theorem PointMass.plane_total (m : PointMass) (z : ℝ) :
    (m.location.z < z → PlaneTotal (fun p => (m.gravitationalField p).z) z (-(2 * π * G * m.mass))) ∧
    (z < m.location.z → PlaneTotal (fun p => (m.gravitationalField p).z) z (2 * π * G * m.mass)) := by
  have e : (fun p => (m.gravitationalField p).z) = fun p => (-G * m.mass) * ((p - m.location).z / (p - m.location).len ^ 3) := by
    funext p
    simp only [PointMass.gravitationalField, V3.map_z]
    by_cases h : (p - m.location).len = 0
    · simp [h]
    · field_simp
  rw [e]
  refine ⟨fun h => ?_, fun h => ?_⟩
  · have := Plane.point_total m.location (-G * m.mass) h.ne'
    rw [abs_of_pos (by linarith), div_self (by linarith)] at this
    convert this using 1
    ring
  · have := Plane.point_total m.location (-G * m.mass) h.ne
    rw [abs_of_neg (by linarith), div_neg, div_self (by linarith)] at this
    convert this using 1
    ring

/-- **C128.** Every entry of the gradient tensor of a point mass adds up to nothing over a plane. -/
theorem PointMass.gradient_plane_total (m : PointMass) {z : ℝ} (hz : z ≠ m.location.z) :
    PlaneNull (fun p => (m.gravitationalGradient p).x) z ∧ PlaneNull (fun p => (m.gravitationalGradient p).y) z ∧
      PlaneNull (fun p => (m.gravitationalGradient p).z) z := by
  have hl : ∀ w : ℝ × ℝ, ((⟨w.1, w.2, z⟩ : V3 ℝ) - m.location).len ≠ 0 := fun w => by
    refine V3.len_sub_ne_zero ?_
    intro h
    exact hz (congrArg V3.z h)
  have e : ∀ w : ℝ × ℝ, m.gravitationalGradient ⟨w.1, w.2, z⟩ = (tidal ((⟨w.1, w.2, z⟩ : V3 ℝ) - m.location)).map fun r => r.map (G * m.mass * ·) := fun w => by
    have := hl w
    simp only [PointMass.gravitationalGradient, tidal, V3.map]
    generalize ((⟨w.1, w.2, z⟩ : V3 ℝ) - m.location).len = r at *
    ext <;> simp only <;> field_simp <;> ring
  obtain ⟨⟨x1, x2, x3⟩, ⟨y1, y2, y3⟩, z1, z2, z3⟩ := Plane.point_tidal m.location hz
  have key : ∀ {f g : V3 ℝ → ℝ}, PlaneTotal f z 0 → (∀ w : ℝ × ℝ, g ⟨w.1, w.2, z⟩ = G * m.mass * f ⟨w.1, w.2, z⟩) → PlaneTotal g z 0 := fun hf hg => by
    have := (hf.mul (G * m.mass)).congr hg
    rwa [mul_zero] at this
  refine ⟨⟨key x1 fun w => ?_, key x2 fun w => ?_, key x3 fun w => ?_⟩, ⟨key y1 fun w => ?_, key y2 fun w => ?_, key y3 fun w => ?_⟩,
    key z1 fun w => ?_, key z2 fun w => ?_, key z3 fun w => ?_⟩ <;> simp only [e, V3.map_x, V3.map_y, V3.map_z]

theorem level_null (z : ℝ) : volume {q : ℝ × ℝ × ℝ | q.2.2 = z} = 0 := by
  have e : {q : ℝ × ℝ × ℝ | q.2.2 = z} = Set.univ ×ˢ Set.univ ×ˢ {z} := by ext q; simp
  rw [e, Measure.volume_eq_prod, Measure.prod_prod, Measure.volume_eq_prod, Measure.prod_prod]
  simp

/-- A body below the plane, and one above it. -/
theorem body_off {S : Set (ℝ × ℝ × ℝ)} {z : ℝ} :
    ((∀ q ∈ S, q.2.2 ≤ z) → volume.real (S ∩ {q | z < q.2.2}) = 0 ∧ volume.real (S ∩ {q | q.2.2 < z}) = volume.real S) ∧
    ((∀ q ∈ S, z ≤ q.2.2) → volume.real (S ∩ {q | q.2.2 < z}) = 0 ∧ volume.real (S ∩ {q | z < q.2.2}) = volume.real S) := by
  have hae : ∀ᵐ q : ℝ × ℝ × ℝ, q.2.2 ≠ z := by
    rw [ae_iff]
    simpa using level_null z
  refine ⟨fun h => ⟨?_, ?_⟩, fun h => ⟨?_, ?_⟩⟩
  · rw [show S ∩ {q : ℝ × ℝ × ℝ | z < q.2.2} = ∅ by ext q; simp only [Set.mem_inter_iff, Set.mem_ofPred_eq, Set.mem_empty_iff_false, iff_false, not_and, not_lt]; exact h q]
    simp
  · refine measureReal_congr ?_
    filter_upwards [hae] with q hq
    refine propext ⟨fun hm => hm.1, fun hm => ⟨hm, lt_of_le_of_ne (h q hm) hq⟩⟩
  · rw [show S ∩ {q : ℝ × ℝ × ℝ | q.2.2 < z} = ∅ by ext q; simp only [Set.mem_inter_iff, Set.mem_ofPred_eq, Set.mem_empty_iff_false, iff_false, not_and, not_lt]; exact h q]
    simp
  · refine measureReal_congr ?_
    filter_upwards [hae] with q hq
    refine propext ⟨fun hm => hm.1, fun hm => ⟨hm, lt_of_le_of_ne (h q hm) hq.symm⟩⟩

theorem ball_finite (c : V3 ℝ) {a : ℝ} (ha : 0 < a) : volume (Ball.points c a) ≠ ⊤ := by
  intro h
  have := Ball.integral_one c ha
  rw [setIntegral_const, Measure.real, h] at this
  have hp : 0 < 4 / 3 * π * a ^ 3 := by positivity
  simp only [ENNReal.toReal_top, zero_smul] at this
  linarith

/-- **C128.** The excess-mass formula for a ball and any plane, also one through the ball: the total of the vertical gravity is `2πG` times the
mass above the plane less the mass below it. -/
theorem Sphere.plane_total (s : Sphere) (hr : 0 < s.radius) (z : ℝ) :
    PlaneTotal (fun p => (s.gravitationalField p).z) z (2 * π * G *
      (s.rho * volume.real (Ball.points s.location s.radius ∩ {q | z < q.2.2}) - s.rho * volume.real (Ball.points s.location s.radius ∩ {q | q.2.2 < z}))) := by
  have h := (Plane.body_cube (Ball.measurableSet_points s.location s.radius) (ball_finite s.location hr) z).mul (G * s.rho)
  have e : (fun p => (s.gravitationalField p).z) = fun p => G * s.rho * ∫ q in Ball.points s.location s.radius, (q.2.2 - p.z) / (vec q - p).len ^ 3 := by
    funext p
    rw [s.field_is_integral hr p, ← integral_const_mul]
    refine integral_congr_ae (Filter.Eventually.of_forall fun q => ?_)
    simp only [PointMass.gravitationalField, V3.map_z]
    rw [show (p - vec q).len = (vec q - p).len by rw [← V3.len_neg, neg_sub]]
    have e2 : (p - vec q).z = -(q.2.2 - p.z) := by simp [vec]
    rw [e2]
    by_cases hl : (vec q - p).len = 0
    · simp [hl]
    · field_simp
  rw [e]
  convert h using 1
  ring

/-- **C128.** Above a ball the total is `−2πGM`, below it `2πGM`, with the mass that the object has. -/
theorem Sphere.plane_total_off (s : Sphere) (hr : 0 < s.radius) (z : ℝ) :
    (s.location.z + s.radius ≤ z → PlaneTotal (fun p => (s.gravitationalField p).z) z (-(2 * π * G * s.mass))) ∧
    (z ≤ s.location.z - s.radius → PlaneTotal (fun p => (s.gravitationalField p).z) z (2 * π * G * s.mass)) := by
  have h := s.plane_total hr z
  have hm : s.mass = s.rho * volume.real (Ball.points s.location s.radius) := by
    rw [s.mass_is_integral hr, setIntegral_const, smul_eq_mul, mul_comm]
  have hb : ∀ q ∈ Ball.points s.location s.radius, s.location.z - s.radius ≤ q.2.2 ∧ q.2.2 ≤ s.location.z + s.radius := by
    intro q hq
    have h1 : (vec q - s.location).len ≤ s.radius := hq
    have h2 := FarField.abs_z_le (vec q - s.location)
    have h3 : (vec q - s.location).z = q.2.2 - s.location.z := rfl
    rw [h3] at h2
    have := abs_le.1 (h2.trans h1)
    constructor <;> linarith
  refine ⟨fun hz => ?_, fun hz => ?_⟩
  · obtain ⟨h1, h2⟩ := (body_off (S := Ball.points s.location s.radius) (z := z)).1 fun q hq => (hb q hq).2.trans hz
    rw [h1, h2, ← hm] at h
    convert h using 1
    ring
  · obtain ⟨h1, h2⟩ := (body_off (S := Ball.points s.location s.radius) (z := z)).2 fun q hq => hz.trans (hb q hq).1
    rw [h1, h2, ← hm] at h
    convert h using 1
    ring

end Verif.Gravity

namespace Verif.Prism

open Real MeasureTheory Set Gravity

theorem Box.measurable_points (b : Box) : MeasurableSet b.points :=
  measurableSet_Ioc.prod (measurableSet_Ioc.prod measurableSet_Ioc)

theorem Box.finite_points (b : Box) (h : b.Proper) : MeasureTheory.volume b.points ≠ ⊤ := by
  intro e
  have := volume_is_measure b h
  rw [e, ENNReal.toReal_top] at this
  linarith

/-- **C128.** The excess-mass formula for a prism and any plane, also one through the prism: the total of the vertical gravity is `2πG` times the
mass above the plane less the mass below it. -/
theorem GravPrism.plane_total (s : GravPrism) (h : s.box.Proper) (z : ℝ) :
    PlaneTotal (fun p => (s.gravitationalField p).z) z (2 * π * G *
      (s.rho * volume.real (s.box.points ∩ {q | z < q.2.2}) - s.rho * volume.real (s.box.points ∩ {q | q.2.2 < z}))) := by
  have hb := (Plane.body_cube s.box.measurable_points (s.box.finite_points h) z).mul (G * s.rho)
  have e : (fun p => (s.gravitationalField p).z) = fun p => G * s.rho * ∫ q in s.box.points, (q.2.2 - p.z) / (vec q - p).len ^ 3 := by
    funext p
    rw [(gravPrism_field_is_integral s h p).2.2, ← integral_const_mul]
    refine integral_congr_ae (Filter.Eventually.of_forall fun q => ?_)
    simp only [vec, V3.sub_z]
    ring
  rw [e]
  convert hb using 1
  ring

/-- **C128.** Above a prism the total is `−2πGM`, below it `2πGM`, with the mass that the object has. -/
theorem GravPrism.plane_total_off (s : GravPrism) (h : s.box.Proper) (z : ℝ) :
    (s.box.max.z ≤ z → PlaneTotal (fun p => (s.gravitationalField p).z) z (-(2 * π * G * s.mass))) ∧
    (z ≤ s.box.min.z → PlaneTotal (fun p => (s.gravitationalField p).z) z (2 * π * G * s.mass)) := by
  have hp := s.plane_total h z
  have hm : s.mass = s.rho * volume.real s.box.points := by
    rw [mass_is_integral s h, setIntegral_const, smul_eq_mul, mul_comm]
  have hb : ∀ q ∈ s.box.points, s.box.min.z ≤ q.2.2 ∧ q.2.2 ≤ s.box.max.z := fun q hq => ⟨hq.2.2.1.le, hq.2.2.2⟩
  refine ⟨fun hz => ?_, fun hz => ?_⟩
  · obtain ⟨h1, h2⟩ := (body_off (S := s.box.points) (z := z)).1 fun q hq => (hb q hq).2.trans hz
    rw [h1, h2, ← hm] at hp
    convert hp using 1
    ring
  · obtain ⟨h1, h2⟩ := (body_off (S := s.box.points) (z := z)).2 fun q hq => hz.trans (hb q hq).1
    rw [h1, h2, ← hm] at hp
    convert hp using 1
    ring

theorem Box.off_plane (b : Box) {z : ℝ} (hz : z < b.min.z ∨ b.max.z < z) :
    ∃ δ > 0, (∀ q ∈ b.points, δ ≤ |q.2.2 - z|) ∧ ∀ x y, (x, y, z) ∉ b.closed := by
  rcases hz with hz | hz
  · refine ⟨b.min.z - z, by linarith, fun q hq => ?_, fun x y hq => ?_⟩
    · have := hq.2.2.1
      rw [abs_of_pos (by linarith)]
      linarith
    · have := hq.2.2.1
      simp only at this
      linarith
  · refine ⟨z - b.max.z, by linarith, fun q hq => ?_, fun x y hq => ?_⟩
    · have := hq.2.2.2
      rw [abs_of_neg (by linarith)]
      linarith
    · have := hq.2.2.2
      simp only at this
      linarith

/-- **C128.** Every entry of the gradient tensor of a prism adds up to nothing over a plane above or below the prism. -/
theorem GravPrism.gradient_plane_total (s : GravPrism) (h : s.box.Proper) {z : ℝ} (hz : z < s.box.min.z ∨ s.box.max.z < z) :
    PlaneNull (fun p => (s.gravitationalGradient p).x) z ∧ PlaneNull (fun p => (s.gravitationalGradient p).y) z ∧
      PlaneNull (fun p => (s.gravitationalGradient p).z) z := by
  obtain ⟨δ, hδ, hd, hc⟩ := s.box.off_plane hz
  obtain ⟨⟨x1, x2, x3⟩, ⟨y1, y2, y3⟩, z1, z2, z3⟩ := Plane.body_tidal s.box.measurable_points (s.box.finite_points h) hδ hd
  have e := fun w : ℝ × ℝ => gravPrism_gradient_is_integral s h ⟨w.1, w.2, z⟩ (hc w.1 w.2)
  have key : ∀ {f g : V3 ℝ → ℝ}, PlaneTotal f z 0 → (∀ w : ℝ × ℝ, g ⟨w.1, w.2, z⟩ = G * s.rho * f ⟨w.1, w.2, z⟩) → PlaneTotal g z 0 := fun hf hg => by
    have := (hf.mul (G * s.rho)).congr hg
    rwa [mul_zero] at this
  refine ⟨⟨key x1 fun w => ?_, key x2 fun w => ?_, key x3 fun w => ?_⟩, ⟨key y1 fun w => ?_, key y2 fun w => ?_, key y3 fun w => ?_⟩,
    key z1 fun w => ?_, key z2 fun w => ?_, key z3 fun w => ?_⟩ <;> simp only [e, Box.integralM, V3.map_x, V3.map_y, V3.map_z, integral_const_mul]

/-- **C128.** The magnetic field and the flux density of a magnetised prism add up to nothing over a plane above or below the prism. -/
theorem MagPrism.plane_total (s : MagPrism) (h : s.box.Proper) {z : ℝ} (hz : z < s.box.min.z ∨ s.box.max.z < z) :
    PlaneNull s.magneticField z ∧ PlaneNull s.magneticFluxDensity z := by
  obtain ⟨δ, hδ, hd, hc⟩ := s.box.off_plane hz
  obtain ⟨⟨x1, x2, x3⟩, ⟨y1, y2, y3⟩, z1, z2, z3⟩ := Plane.body_tidal s.box.measurable_points (s.box.finite_points h) hδ hd
  have lin : ∀ {f g k : ℝ × ℝ × ℝ → ℝ}, IntegrableOn f s.box.points → IntegrableOn g s.box.points → IntegrableOn k s.box.points →
      ∫ q in s.box.points, 1 / (4 * π) * (s.magnetization.x * f q + s.magnetization.y * g q + s.magnetization.z * k q) =
        1 / (4 * π) * (s.magnetization.x * (∫ q in s.box.points, f q) + s.magnetization.y * (∫ q in s.box.points, g q) +
          s.magnetization.z * ∫ q in s.box.points, k q) := by
    intro f g k hf hg hk
    have h12 : IntegrableOn (fun q => s.magnetization.x * f q + s.magnetization.y * g q) s.box.points :=
      Integrable.add (hf.const_mul s.magnetization.x) (hg.const_mul s.magnetization.y)
    rw [integral_const_mul, integral_add h12 (hk.const_mul _),
      integral_add (hf.const_mul _) (hg.const_mul _), integral_const_mul, integral_const_mul, integral_const_mul]
  have hH : PlaneNull s.magneticField z := by
    have e := fun w : ℝ × ℝ => magPrism_field_is_integral s h ⟨w.1, w.2, z⟩ (hc w.1 w.2)
    have i := fun w : ℝ × ℝ => Prism.tidal_integrable s.box ⟨w.1, w.2, z⟩ (hc w.1 w.2)
    refine ⟨(Plane.combine x1 x2 x3 (1 / (4 * π)) s.magnetization.x s.magnetization.y s.magnetization.z).congr fun w => ?_,
      (Plane.combine y1 y2 y3 (1 / (4 * π)) s.magnetization.x s.magnetization.y s.magnetization.z).congr fun w => ?_,
      (Plane.combine z1 z2 z3 (1 / (4 * π)) s.magnetization.x s.magnetization.y s.magnetization.z).congr fun w => ?_⟩
    · simp only [e, Box.integralV, dipoleH_eq]
      exact lin (i w).1.1 (i w).1.2.1 (i w).1.2.2
    · simp only [e, Box.integralV, dipoleH_eq]
      exact lin (i w).2.1.1 (i w).2.1.2.1 (i w).2.1.2.2
    · simp only [e, Box.integralV, dipoleH_eq]
      exact lin (i w).2.2.1 (i w).2.2.2.1 (i w).2.2.2.2
  refine ⟨hH, ?_⟩
  have e := fun w : ℝ × ℝ => magPrism_flux_is_integral s h ⟨w.1, w.2, z⟩ (hc w.1 w.2)
  have e2 := fun w : ℝ × ℝ => magPrism_field_is_integral s h ⟨w.1, w.2, z⟩ (hc w.1 w.2)
  have key : ∀ {f g : V3 ℝ → ℝ}, PlaneTotal f z 0 → (∀ w : ℝ × ℝ, g ⟨w.1, w.2, z⟩ = mu0 * f ⟨w.1, w.2, z⟩) → PlaneTotal g z 0 := fun hf hg => by
    have := (hf.mul mu0).congr hg
    rwa [mul_zero] at this
  obtain ⟨h1, h2, h3⟩ := hH
  refine ⟨key h1 fun w => ?_, key h2 fun w => ?_, key h3 fun w => ?_⟩ <;> simp only [e, ← e2, V3.map_x, V3.map_y, V3.map_z]

/-- A prism of mass `6ρ`, and a plane above it. -/
example : (⟨⟨0, 0, 0⟩, ⟨1, 2, 3⟩⟩ : Box).Proper ∧ ((4 : ℝ) < (⟨⟨0, 0, 0⟩, ⟨1, 2, 3⟩⟩ : Box).min.z ∨ (⟨⟨0, 0, 0⟩, ⟨1, 2, 3⟩⟩ : Box).max.z < 4) := by
  norm_num [Box.Proper]

end Verif.Prism

namespace Verif.Static

open Real MeasureTheory Prism

/-- **C128.** The flux density and the field of a static magnetic dipole add up to nothing over every plane that does not go through it. -/
theorem MagDipole.plane_total (s : MagDipole) {z : ℝ} (hz : z ≠ s.location.z) : PlaneNull s.magneticFluxDensity z ∧ PlaneNull s.magneticField z := by
  have hl : ∀ w : ℝ × ℝ, ((⟨w.1, w.2, z⟩ : V3 ℝ) - s.location).len ≠ 0 := fun w => by
    refine V3.len_sub_ne_zero ?_
    intro h
    exact hz (congrArg V3.z h)
  have e : ∀ w : ℝ × ℝ, s.magneticFluxDensity ⟨w.1, w.2, z⟩ = (s.moment * s.mu) • dipoleH s.orientation ((⟨w.1, w.2, z⟩ : V3 ℝ) - s.location) := fun w => by
    have := hl w
    have hp := pi_pos.ne'
    simp only [MagDipole.magneticFluxDensity, dipoleH, V3.dot, V3.map_x, V3.map_y, V3.map_z]
    generalize ((⟨w.1, w.2, z⟩ : V3 ℝ) - s.location).len = r at *
    ext <;> simp only [V3.smul_x, V3.smul_y, V3.smul_z, smul_eq_mul] <;> field_simp
  obtain ⟨h1, h2, h3⟩ := Plane.dipole_total s.location s.orientation (s.moment * s.mu) hz
  have hB : PlaneNull s.magneticFluxDensity z := ⟨h1.congr fun w => by rw [e], h2.congr fun w => by rw [e], h3.congr fun w => by rw [e]⟩
  refine ⟨hB, ?_⟩
  have key : ∀ {f g : V3 ℝ → ℝ}, PlaneTotal f z 0 → (∀ w : ℝ × ℝ, g ⟨w.1, w.2, z⟩ = 1 / s.mu * f ⟨w.1, w.2, z⟩) → PlaneTotal g z 0 := fun hf hg => by
    have := (hf.mul (1 / s.mu)).congr hg
    rwa [mul_zero] at this
  exact ⟨key hB.1 fun w => by simp only [MagDipole.magneticField, V3.map_x]; ring, key hB.2.1 fun w => by simp only [MagDipole.magneticField, V3.map_y]; ring,
    key hB.2.2 fun w => by simp only [MagDipole.magneticField, V3.map_z]; ring⟩

/-- **C128.** Half the flux of a magnetic pole goes up and half goes down. -/
theorem MagDipole.pole_plane_total (s : MagDipole) (z : ℝ) :
    (s.location.z < z → PlaneTotal (fun p => (s.poleFluxDensity p).z) z (s.moment * s.mu / 2)) ∧
    (z < s.location.z → PlaneTotal (fun p => (s.poleFluxDensity p).z) z (-(s.moment * s.mu / 2))) := by
  have e : (fun p => (s.poleFluxDensity p).z) = fun p => (s.moment * s.mu / (4 * π)) * ((p - s.location).z / (p - s.location).len ^ 3) := by
    funext p
    simp only [MagDipole.poleFluxDensity, V3.map_z]
    by_cases h : (p - s.location).len = 0
    · simp [h]
    · field_simp
  rw [e]
  have hp := pi_pos.ne'
  refine ⟨fun h => ?_, fun h => ?_⟩
  · have := Plane.point_total s.location (s.moment * s.mu / (4 * π)) h.ne'
    rw [abs_of_pos (by linarith), div_self (by linarith)] at this
    convert this using 1
    field_simp
    ring
  · have := Plane.point_total s.location (s.moment * s.mu / (4 * π)) h.ne
    rw [abs_of_neg (by linarith), div_neg, div_self (by linarith)] at this
    convert this using 1
    field_simp
    ring

/-- **C128.** Half the current of a point source in a whole space goes up and half goes down. -/
theorem pointCurrent_plane_total (mu0 rho current : ℝ) (hr : rho ≠ 0) (location : V3 ℝ) : ∃ J : V3 ℝ → V3 ℝ,
    (∀ p, pointCurrentDensity (pointCurrent mu0 rho current location) p = .ok (J p)) ∧
    ∀ z, (location.z < z → PlaneTotal (fun p => (J p).z) z (current / 2)) ∧ (z < location.z → PlaneTotal (fun p => (J p).z) z (-(current / 2))) := by
  refine ⟨fun p => (current / (4 * π)) • ((1 / (p - location).len ^ 3) • (p - location)), fun p => ?_, fun z => ?_⟩
  · have hp := pi_pos.ne'
    simp only [pointCurrentDensity, pointCurrent, LineCurrent.currentDensity, LineCurrent.electricField, V3.map, bind, Except.bind, pure, Except.pure]
    congr 1
    ext <;> simp only [V3.smul_x, V3.smul_y, V3.smul_z, smul_eq_mul] <;> field_simp
  · have e : (fun p : V3 ℝ => ((current / (4 * π)) • ((1 / (p - location).len ^ 3) • (p - location))).z) =
        fun p => (current / (4 * π)) * ((p - location).z / (p - location).len ^ 3) := by
      funext p
      simp only [V3.smul_z, smul_eq_mul]
      ring
    rw [e]
    have hp := pi_pos.ne'
    refine ⟨fun h => ?_, fun h => ?_⟩
    · have := Plane.point_total location (current / (4 * π)) h.ne'
      rw [abs_of_pos (by linarith), div_self (by linarith)] at this
      convert this using 1
      field_simp
      ring
    · have := Plane.point_total location (current / (4 * π)) h.ne
      rw [abs_of_neg (by linarith), div_neg, div_self (by linarith)] at this
      convert this using 1
      field_simp
      ring

/-- **C128.** All the current that is injected at a point of a half-space passes every horizontal plane below the point, and none passes a
plane between the point and the surface. -/
theorem PointHalf.plane_total {mu0 rho current : ℝ} {location : V3 ℝ} {s : PointHalf} (hs : PointHalf.new mu0 rho current location = .ok s) :
    ∃ J : V3 ℝ → V3 ℝ, (∀ p, p.z ≤ 0 → s.currentDensity p = .ok (J p)) ∧
    ∀ z, (z < location.z → PlaneTotal (fun p => (J p).z) z (-current)) ∧ (location.z < z → z ≤ 0 → PlaneTotal (fun p => (J p).z) z 0) := by
  have hr : rho ≠ 0 := by
    intro h
    simp [PointHalf.new, h] at hs
  have hl : ¬ location.z > 0 := by
    intro h
    unfold PointHalf.new at hs
    split_ifs at hs
  have hs' : s = ⟨rho, current, location, pointCurrent mu0 rho current location, pointCurrent mu0 rho current (mirror location)⟩ := by
    unfold PointHalf.new at hs
    split_ifs at hs
    exact (Except.ok.inj hs).symm
  obtain ⟨J, hJ, tJ⟩ := pointCurrent_plane_total mu0 rho current hr location
  obtain ⟨K, hK, tK⟩ := pointCurrent_plane_total mu0 rho current hr (mirror location)
  have field : ∀ l p, ∃ E, pointElectricField (pointCurrent mu0 rho current l) p = .ok E ∧
      pointCurrentDensity (pointCurrent mu0 rho current l) p = .ok (E.map (1 / rho * ·)) := fun l p =>
    ⟨_, rfl, rfl⟩
  refine ⟨fun p => J p + K p, fun p hp => ?_, fun z => ⟨fun h => ?_, fun h h0 => ?_⟩⟩
  · obtain ⟨E, e1, e2⟩ := field location p
    obtain ⟨F, f1, f2⟩ := field (mirror location) p
    have eJ := Except.ok.inj ((hJ p).symm.trans e2)
    have eK := Except.ok.inj ((hK p).symm.trans f2)
    rw [hs']
    simp only [PointHalf.currentDensity, PointHalf.electricField, if_neg (not_lt.2 hp), e1, f1, bind, Except.bind, pure, Except.pure, eJ, eK]
    congr 1
    ext <;> simp only [V3.map_x, V3.map_y, V3.map_z, V3.add_x, V3.add_y, V3.add_z] <;> ring
  · have h2 : z < (mirror location).z := by
      have : (mirror location).z = -location.z := rfl
      rw [this]
      linarith
    have := ((tJ z).2 h).add ((tK z).2 h2)
    rw [show -current = -(current / 2) + -(current / 2) by ring]
    exact this
  · have h2 : z < (mirror location).z := by
      have : (mirror location).z = -location.z := rfl
      rw [this]
      linarith
    have := ((tJ z).1 h).add ((tK z).2 h2)
    rw [add_neg_cancel] at this
    exact this

/-- A source at the surface of a half-space can be built. -/
example : ∃ s, PointHalf.new 1 100 2 ⟨0, 0, 0⟩ = .ok s := by
  norm_num [PointHalf.new]

end Verif.Static
