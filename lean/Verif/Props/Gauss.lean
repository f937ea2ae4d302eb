import Verif.Lemmas.Gauss
import Verif.Spec.Outflow
import Verif.Props.PlaneTotal

/-!
# C134: Gauss's law for boxes

What flows out of a box through its six faces is settled by what the box contains: `−4πG` times the mass for gravity, the injected current for
point electrodes. The box need not avoid the bodies: a prism or a ball that the faces cut through counts with the part of it inside. A point on
a face counts half, on an edge a quarter, at a corner an eighth (`Prism.cover`). -/

namespace Verif

open Real MeasureTheory Prism Set

theorem Outflow.congr {F H : V3 ℝ → V3 ℝ} {lo hi : V3 ℝ} {T : ℝ} (h : Outflow F lo hi T) (hle : lo.x ≤ hi.x ∧ lo.y ≤ hi.y ∧ lo.z ≤ hi.z)
    (e : ∀ p : V3 ℝ, p.x ∈ Icc lo.x hi.x → p.y ∈ Icc lo.y hi.y → p.z ∈ Icc lo.z hi.z → H p = F p) : Outflow H lo hi T := by
  obtain ⟨hx, hy, hz⟩ := hle
  have ex : ∀ x, x = lo.x ∨ x = hi.x → EqOn (fun w : ℝ × ℝ => (H ⟨x, w.1, w.2⟩).x) (fun w : ℝ × ℝ => (F ⟨x, w.1, w.2⟩).x) (Icc lo.y hi.y ×ˢ Icc lo.z hi.z) := by
    rintro x h w ⟨h1, h2⟩
    exact congrArg V3.x (e _ (by rcases h with h | h <;> simp [h, hx]) h1 h2)
  have ey : ∀ y, y = lo.y ∨ y = hi.y → EqOn (fun w : ℝ × ℝ => (H ⟨w.1, y, w.2⟩).y) (fun w : ℝ × ℝ => (F ⟨w.1, y, w.2⟩).y) (Icc lo.x hi.x ×ˢ Icc lo.z hi.z) := by
    rintro x h w ⟨h1, h2⟩
    exact congrArg V3.y (e _ h1 (by rcases h with h | h <;> simp [h, hy]) h2)
  have ez : ∀ z, z = lo.z ∨ z = hi.z → EqOn (fun w : ℝ × ℝ => (H ⟨w.1, w.2, z⟩).z) (fun w : ℝ × ℝ => (F ⟨w.1, w.2, z⟩).z) (Icc lo.x hi.x ×ˢ Icc lo.y hi.y) := by
    rintro x h w ⟨h1, h2⟩
    exact congrArg V3.z (e _ h1 h2 (by rcases h with h | h <;> simp [h, hz]))
  have m : ∀ a b c d : ℝ, MeasurableSet (Icc a b ×ˢ Icc c d) := fun a b c d => measurableSet_Icc.prod measurableSet_Icc
  obtain ⟨h1, h2, h3, h4⟩ := h
  refine ⟨fun x hx => (integrableOn_congr_fun (ex x hx) (m _ _ _ _)).2 (h1 x hx), fun x hx => (integrableOn_congr_fun (ey x hx) (m _ _ _ _)).2 (h2 x hx),
    fun x hx => (integrableOn_congr_fun (ez x hx) (m _ _ _ _)).2 (h3 x hx), ?_⟩
  rw [setIntegral_congr_fun (m _ _ _ _) (ex _ (Or.inl rfl)), setIntegral_congr_fun (m _ _ _ _) (ex _ (Or.inr rfl)),
    setIntegral_congr_fun (m _ _ _ _) (ey _ (Or.inl rfl)), setIntegral_congr_fun (m _ _ _ _) (ey _ (Or.inr rfl)),
    setIntegral_congr_fun (m _ _ _ _) (ez _ (Or.inl rfl)), setIntegral_congr_fun (m _ _ _ _) (ez _ (Or.inr rfl))]
  exact h4

theorem Outflow.add {F H : V3 ℝ → V3 ℝ} {lo hi : V3 ℝ} {S T : ℝ} (h : Outflow F lo hi S) (h' : Outflow H lo hi T) :
    Outflow (fun p => F p + H p) lo hi (S + T) := by
  obtain ⟨f1, f2, f3, f4⟩ := h
  obtain ⟨g1, g2, g3, g4⟩ := h'
  refine ⟨fun x hx => (f1 x hx).add (g1 x hx), fun x hx => (f2 x hx).add (g2 x hx), fun x hx => (f3 x hx).add (g3 x hx), ?_⟩
  simp only [V3.add_x, V3.add_y, V3.add_z]
  rw [integral_add (f1 _ (Or.inl rfl)) (g1 _ (Or.inl rfl)), integral_add (f1 _ (Or.inr rfl)) (g1 _ (Or.inr rfl)),
    integral_add (f2 _ (Or.inl rfl)) (g2 _ (Or.inl rfl)), integral_add (f2 _ (Or.inr rfl)) (g2 _ (Or.inr rfl)),
    integral_add (f3 _ (Or.inl rfl)) (g3 _ (Or.inl rfl)), integral_add (f3 _ (Or.inr rfl)) (g3 _ (Or.inr rfl))]
  linear_combination f4 + g4

namespace Gravity

/-- **C134.** Gauss's law for a point mass: `−4πGM` flows out of a box around the mass, nothing out of a box elsewhere. -/
theorem PointMass.outflow (m : PointMass) {lo hi : V3 ℝ} (hb : (⟨lo, hi⟩ : Box).Proper) :
    Outflow m.gravitationalField lo hi
      (-(4 * π * G * m.mass) * (cover lo.x hi.x m.location.x * cover lo.y hi.y m.location.y * cover lo.z hi.z m.location.z)) := by
  have := Gauss.point_outflow hb m.location (-G * m.mass) (F := m.gravitationalField) fun p => by
    simp only [PointMass.gravitationalField, V3.map]
    by_cases h : (p - m.location).len = 0
    · ext <;> simp [h]
    · ext <;> simp only [V3.smul_x, V3.smul_y, V3.smul_z, smul_eq_mul] <;> field_simp
  convert this using 1
  ring

/-- **C134.** Gauss's law for a ball and any box, also one whose faces cut through the ball: `−4πG` times the mass inside flows out. -/
theorem Sphere.outflow (s : Sphere) (hr : 0 < s.radius) {lo hi : V3 ℝ} (hb : (⟨lo, hi⟩ : Box).Proper) :
    Outflow s.gravitationalField lo hi (-(4 * π * G) * (s.rho * volume.real (Ball.points s.location s.radius ∩ (⟨lo, hi⟩ : Box).points))) := by
  have := Gauss.body_outflow (ball_finite s.location hr) hb (-G * s.rho) (F := s.gravitationalField) fun p => by
    rw [s.field_is_integral hr p]
    simp only [← integral_const_mul]
    congr 1 <;> refine integral_congr_ae (Filter.Eventually.of_forall fun q => ?_) <;>
      simp only [PointMass.gravitationalField, V3.map_x, V3.map_y, V3.map_z] <;>
      (by_cases hl : (p - vec q).len = 0
       · simp [hl]
       · simp only [vec, V3.sub_x, V3.sub_y, V3.sub_z] at hl ⊢
         field_simp)
  convert this using 1
  ring

/-- **C134.** A box around a ball: `−4πGM` with the mass that the object has, `0` if the box and the ball are apart. -/
theorem Sphere.outflow_around (s : Sphere) (hr : 0 < s.radius) {lo hi : V3 ℝ} (hb : (⟨lo, hi⟩ : Box).Proper) :
    (Ball.points s.location s.radius ⊆ (⟨lo, hi⟩ : Box).points → Outflow s.gravitationalField lo hi (-(4 * π * G * s.mass))) ∧
    (Disjoint (Ball.points s.location s.radius) (⟨lo, hi⟩ : Box).points → Outflow s.gravitationalField lo hi 0) := by
  have h := s.outflow hr hb
  have hm : s.mass = s.rho * volume.real (Ball.points s.location s.radius) := by
    rw [s.mass_is_integral hr, setIntegral_const, smul_eq_mul, mul_comm]
  refine ⟨fun hs => ?_, fun hs => ?_⟩
  · rw [inter_eq_left.2 hs, ← hm] at h
    convert h using 1
    ring
  · rw [hs.inter_eq] at h
    simpa using h

/-- A ball of radius one inside a box. -/
example : Ball.points ⟨0, 0, 0⟩ 1 ⊆ (⟨⟨-2, -2, -2⟩, ⟨2, 2, 2⟩⟩ : Box).points := by
  intro q hq
  have h1 : (vec q - (⟨0, 0, 0⟩ : V3 ℝ)).len ≤ 1 := hq
  have hx := abs_le.1 ((FarField.abs_x_le _).trans h1)
  have hy := abs_le.1 ((FarField.abs_y_le _).trans h1)
  have hz := abs_le.1 ((FarField.abs_z_le _).trans h1)
  simp only [vec, V3.sub_x, V3.sub_y, V3.sub_z, sub_zero] at hx hy hz
  refine ⟨⟨?_, ?_⟩, ⟨?_, ?_⟩, ?_, ?_⟩ <;> simp only <;> linarith [hx.1, hx.2, hy.1, hy.2, hz.1, hz.2]

end Gravity

namespace Prism

open Gravity

/-- **C134.** Gauss's law for a prism and any box, also one whose faces cut through the prism or touch it: `−4πG` times the mass inside flows out. -/
theorem GravPrism.outflow (s : GravPrism) (h : s.box.Proper) {lo hi : V3 ℝ} (hb : (⟨lo, hi⟩ : Box).Proper) :
    Outflow s.gravitationalField lo hi (-(4 * π * G) * (s.rho * MeasureTheory.volume.real (s.box.points ∩ (⟨lo, hi⟩ : Box).points))) := by
  have := Gauss.body_outflow (s.box.finite_points h) hb (-G * s.rho) (F := s.gravitationalField) fun p => by
    obtain ⟨e1, e2, e3⟩ := gravPrism_field_is_integral s h p
    ext
    all_goals simp only [e1, e2, e3, ← integral_const_mul]
    all_goals
      refine integral_congr_ae (Filter.Eventually.of_forall fun q => ?_)
      simp only
      rw [show (p - vec q).len = (vec q - p).len by rw [← V3.len_neg, neg_sub]]
      simp only [vec, V3.sub_x, V3.sub_y, V3.sub_z]
      ring
  convert this using 1
  ring

/-- **C134.** A box around a prism: `−4πGM` with the mass that the object has; the box may be the prism itself. `0` if the box and the prism are
apart or only touch. -/
theorem GravPrism.outflow_around (s : GravPrism) (h : s.box.Proper) {lo hi : V3 ℝ} (hb : (⟨lo, hi⟩ : Box).Proper) :
    (s.box.points ⊆ (⟨lo, hi⟩ : Box).points → Outflow s.gravitationalField lo hi (-(4 * π * G * s.mass))) ∧
    (Disjoint s.box.points (⟨lo, hi⟩ : Box).points → Outflow s.gravitationalField lo hi 0) := by
  have hp := s.outflow h hb
  have hm : s.mass = s.rho * MeasureTheory.volume.real s.box.points := by
    rw [mass_is_integral s h, setIntegral_const, smul_eq_mul, mul_comm]
  refine ⟨fun hs => ?_, fun hs => ?_⟩
  · rw [inter_eq_left.2 hs, ← hm] at hp
    convert hp using 1
    ring
  · rw [hs.inter_eq] at hp
    simpa using hp

/-- The faces of the prism itself. -/
example (s : GravPrism) (h : s.box.Proper) : Outflow s.gravitationalField s.box.min s.box.max (-(4 * π * G * s.mass)) :=
  (s.outflow_around h (lo := s.box.min) (hi := s.box.max) h).1 subset_rfl

end Prism

namespace Static

/-- **C134.** The flux out of a box around a magnetic pole. -/
theorem MagDipole.pole_outflow (s : MagDipole) {lo hi : V3 ℝ} (hb : (⟨lo, hi⟩ : Box).Proper) :
    Outflow s.poleFluxDensity lo hi
      (s.moment * s.mu * (cover lo.x hi.x s.location.x * cover lo.y hi.y s.location.y * cover lo.z hi.z s.location.z)) := by
  have hp := pi_pos.ne'
  have := Gauss.point_outflow hb s.location (s.moment * s.mu / (4 * π)) (F := s.poleFluxDensity) fun p => by
    simp only [MagDipole.poleFluxDensity, V3.map]
    by_cases h : (p - s.location).len = 0
    · ext <;> simp [h]
    · ext <;> simp only [V3.smul_x, V3.smul_y, V3.smul_z, smul_eq_mul] <;> field_simp
  convert this using 1
  field_simp

/-- **C134.** The current of a point source in a whole space: all of it leaves every box around the source, none a box elsewhere. -/
theorem pointCurrent_outflow (mu0 rho current : ℝ) (hr : rho ≠ 0) (location : V3 ℝ) : ∃ J : V3 ℝ → V3 ℝ,
    (∀ p, pointCurrentDensity (pointCurrent mu0 rho current location) p = .ok (J p)) ∧
    ∀ lo hi : V3 ℝ, (⟨lo, hi⟩ : Box).Proper →
      Outflow J lo hi (current * (cover lo.x hi.x location.x * cover lo.y hi.y location.y * cover lo.z hi.z location.z)) := by
  have hp := pi_pos.ne'
  refine ⟨fun p => (current / (4 * π) / (p - location).len ^ 3) • (p - location), fun p => ?_, fun lo hi hb => ?_⟩
  · simp only [pointCurrentDensity, pointCurrent, LineCurrent.currentDensity, LineCurrent.electricField, V3.map, bind, Except.bind, pure, Except.pure]
    congr 1
    ext <;> simp only [V3.smul_x, V3.smul_y, V3.smul_z, smul_eq_mul] <;> field_simp
  · have := Gauss.point_outflow hb location (current / (4 * π)) (F := fun p => (current / (4 * π) / (p - location).len ^ 3) • (p - location)) fun p => rfl
    convert this using 1
    field_simp

/-- **C134.** The current of an electrode in or on a half-space: all of it leaves every box in the ground around the electrode, also one whose
top face lies in the surface and, for an electrode at the surface, contains the electrode. -/
theorem PointHalf.outflow {mu0 rho current : ℝ} {location : V3 ℝ} {s : PointHalf} (hs : PointHalf.new mu0 rho current location = .ok s) :
    ∃ J : V3 ℝ → V3 ℝ, (∀ p, p.z ≤ 0 → s.currentDensity p = .ok (J p)) ∧ ∀ lo hi : V3 ℝ, (⟨lo, hi⟩ : Box).Proper → hi.z ≤ 0 →
      (lo.x < location.x ∧ location.x < hi.x → lo.y < location.y ∧ location.y < hi.y → lo.z < location.z →
        location.z < hi.z ∨ location.z = 0 ∧ hi.z = 0 → Outflow J lo hi current) ∧
      (location.x < lo.x ∨ hi.x < location.x ∨ location.y < lo.y ∨ hi.y < location.y ∨ location.z < lo.z ∨ hi.z < location.z →
        Outflow J lo hi 0) := by
  have hr : rho ≠ 0 := by
    intro h
    simp [PointHalf.new, h] at hs
  have hl : location.z ≤ 0 := by
    by_contra h
    have h : location.z > 0 := not_le.1 h
    unfold PointHalf.new at hs
    split_ifs at hs
  have hs' : s = ⟨rho, current, location, pointCurrent mu0 rho current location, pointCurrent mu0 rho current (mirror location)⟩ := by
    unfold PointHalf.new at hs
    split_ifs at hs
    exact (Except.ok.inj hs).symm
  obtain ⟨J, hJ, tJ⟩ := pointCurrent_outflow mu0 rho current hr location
  obtain ⟨K, hK, tK⟩ := pointCurrent_outflow mu0 rho current hr (mirror location)
  have field : ∀ l p, ∃ E, pointElectricField (pointCurrent mu0 rho current l) p = .ok E ∧
      pointCurrentDensity (pointCurrent mu0 rho current l) p = .ok (E.map (1 / rho * ·)) := fun l p =>
    ⟨_, rfl, rfl⟩
  have hm : (mirror location).x = location.x ∧ (mirror location).y = location.y ∧ (mirror location).z = -location.z := ⟨rfl, rfl, rfl⟩
  refine ⟨fun p => J p + K p, fun p hp => ?_, fun lo hi hb h0 => ⟨fun hx hy hz hs => ?_, fun hout => ?_⟩⟩
  · obtain ⟨E, e1, e2⟩ := field location p
    obtain ⟨F, f1, f2⟩ := field (mirror location) p
    have eJ := Except.ok.inj ((hJ p).symm.trans e2)
    have eK := Except.ok.inj ((hK p).symm.trans f2)
    rw [hs']
    simp only [PointHalf.currentDensity, PointHalf.electricField, if_neg (not_lt.2 hp), e1, f1, bind, Except.bind, pure, Except.pure, eJ, eK]
    congr 1
    ext <;> simp only [V3.map_x, V3.map_y, V3.map_z, V3.add_x, V3.add_y, V3.add_z] <;> ring
  · have := (tJ lo hi hb).add (tK lo hi hb)
    rw [hm.1, hm.2.1, hm.2.2] at this
    have cx : cover lo.x hi.x location.x = 1 := by rw [cover, if_pos hx]
    have cy : cover lo.y hi.y location.y = 1 := by rw [cover, if_pos hy]
    have cz : cover lo.z hi.z location.z + cover lo.z hi.z (-location.z) = 1 := by
      rcases hs with hs | ⟨hs, hh⟩
      · rw [cover, if_pos ⟨hz, hs⟩, cover, if_neg (by intro h; linarith [h.2]), if_neg (by rintro (h | h) <;> linarith), add_zero]
      · rw [hs, hh, neg_zero, cover, if_neg (by simp), if_pos (Or.inr rfl)]
        norm_num
    convert this using 1
    rw [cx, cy]
    linear_combination (-current) * cz
  · have := (tJ lo hi hb).add (tK lo hi hb)
    rw [hm.1, hm.2.1, hm.2.2] at this
    have zero : ∀ {a b t : ℝ}, a < b → t < a ∨ b < t → cover a b t = 0 := by
      intro a b t hab h
      rw [cover, if_neg (by rintro ⟨h1, h2⟩; rcases h with h | h <;> linarith), if_neg (by rintro (h1 | h1) <;> rcases h with h | h <;> linarith)]
    obtain ⟨bx, by', bz⟩ := hb
    simp only at bx by' bz
    convert this using 1
    rcases hout with h | h | h | h | h | h
    · rw [zero bx (Or.inl h)]; ring
    · rw [zero bx (Or.inr h)]; ring
    · rw [zero by' (Or.inl h)]; ring
    · rw [zero by' (Or.inr h)]; ring
    · rw [zero bz (Or.inl h), zero bz (t := -location.z) (Or.inr (by linarith))]; ring
    · rw [zero bz (Or.inr h), zero bz (t := -location.z) (Or.inr (by linarith))]; ring

/-- An electrode at the surface and a box below it that touches the surface. -/
example : (∃ s, PointHalf.new 1 100 2 ⟨0, 0, 0⟩ = .ok s) ∧ (⟨⟨-1, -1, -1⟩, ⟨1, 1, 0⟩⟩ : Box).Proper := by
  norm_num [PointHalf.new, Box.Proper]

end Static

end Verif
