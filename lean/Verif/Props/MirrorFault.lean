import Verif.Props.OkadaAdditive

/-!
# C119: mirror images — displacement of a rectangular fault

The slip is a polar vector, and so is the displacement.  Reflected across the strike the two ends of the fault are exchanged and the
slip along the strike is reversed.  A vertical fault is its own image in its plane; as the two sides are exchanged, the relative
movement of the sides is reversed.
-/

namespace Verif.Okada

open Real

namespace Corner

variable (x e q s c m : ℝ)

theorem r_negX : (⟨-x, e, q⟩ : Corner).r = (⟨x, e, q⟩ : Corner).r := by simp [r]
theorem rd_negX : (⟨-x, e, q⟩ : Corner).rd s c = (⟨x, e, q⟩ : Corner).rd s c := by simp only [rd, r_negX, d]
theorem tt_negX : (⟨-x, e, q⟩ : Corner).tt = -(⟨x, e, q⟩ : Corner).tt := by
  simp only [tt, r_negX, neg_mul, neg_div, arctan_neg]
  split_ifs <;> simp
theorem ale_negX : (⟨-x, e, q⟩ : Corner).ale = (⟨x, e, q⟩ : Corner).ale := by simp only [ale, ret, r_negX, neg_eq_zero]
theorem y11_negX : (⟨-x, e, q⟩ : Corner).y11 = (⟨x, e, q⟩ : Corner).y11 := by simp only [y11, ret, r_negX, neg_eq_zero]
theorem ai4_negX : (⟨-x, e, q⟩ : Corner).ai4 s c = -(⟨x, e, q⟩ : Corner).ai4 s c := by
  simp only [ai4, r_negX, rd_negX, neg_mul, mul_neg, neg_neg, neg_div, div_neg, arctan_neg, neg_eq_zero, y]
  split_ifs <;> ring
theorem ai3_negX : (⟨-x, e, q⟩ : Corner).ai3 s c = (⟨x, e, q⟩ : Corner).ai3 s c := by simp only [ai3, rd_negX, ale_negX, y]
theorem ai1_negX : (⟨-x, e, q⟩ : Corner).ai1 s c = -(⟨x, e, q⟩ : Corner).ai1 s c := by
  simp only [ai1, rd_negX, ai4_negX]
  ring
theorem ai2_negX : (⟨-x, e, q⟩ : Corner).ai2 s c = (⟨x, e, q⟩ : Corner).ai2 s c := by simp only [ai2, rd_negX, ai3_negX]

theorem qx_negX : q * (⟨-x, e, q⟩ : Corner).x11 = -(q * (⟨x, e, q⟩ : Corner).x11) + 2 * q / (e ^ 2 + q ^ 2) := by
  by_cases hq : q = 0
  · simp [hq]
  have h1 := rxi_pos (k := ⟨x, e, q⟩) hq
  have h2 := rxi_pos (k := ⟨-x, e, q⟩) hq
  have h3 := r_pos (k := ⟨x, e, q⟩) hq
  have h4 := r_sq (⟨x, e, q⟩ : Corner)
  simp only [r_negX] at h2
  simp only [x11, hq, false_and, and_false, if_false, r_negX]
  simp only at h1 h2 h4
  generalize (⟨x, e, q⟩ : Corner).r = R at *
  have h5 : e ^ 2 + q ^ 2 ≠ 0 := by positivity
  have h6 := h1.ne'
  have h7 := h2.ne'
  have h8 := h3.ne'
  field_simp
  linear_combination -2 * R * h4

/-- The part of a corner term that does not depend on the distance along the strike. -/
noncomputable def level (b2 : ℝ) : V3 ℝ :=
  turned ((b2 / (2 * π)) • ⟨0, -e * (2 * q / (e ^ 2 + q ^ 2)), q * (2 * q / (e ^ 2 + q ^ 2))⟩) s c

theorem field_negX (b1 b2 : ℝ) : (⟨-x, e, q⟩ : Corner).field s c m (-b1) b2 =
    ⟨((⟨x, e, q⟩ : Corner).field s c m b1 b2).x, -((⟨x, e, q⟩ : Corner).field s c m b1 b2).y, -((⟨x, e, q⟩ : Corner).field s c m b1 b2).z⟩ +
      level e q s c b2 := by
  ext
  all_goals
    simp only [field, turned, level, strikeSlip, dipSlip, qx_negX, y11_negX, tt_negX, ai1_negX, ai2_negX, ai3_negX, ai4_negX, r_negX, rd_negX,
      V3.smul_x, V3.smul_y, V3.smul_z, V3.add_x, V3.add_y, V3.add_z, smul_eq_mul, y]
    ring

end Corner

/-- The fault reflected across the strike. -/
noncomputable def Fault.reflected (f : Fault) : Fault := { f with al1 := -f.al2, al2 := -f.al1, disl1 := -f.disl1 }

theorem resolved_reflected {f : Fault} {st : List Station} (h : Resolved f st) :
    Resolved f.reflected (st.map fun p => ⟨-p.X, p.Y⟩) := by
  obtain ⟨M, hM, h⟩ := h
  refine ⟨M, hM, fun p' hp' => ?_⟩
  obtain ⟨p, hp, rfl⟩ := List.mem_map.1 hp'
  obtain ⟨h1, h2, h3⟩ := h p hp
  refine ⟨h1.imp id fun ⟨a, b, c, d⟩ => ⟨a, b, c, d.imp id fun ⟨u, v⟩ => ⟨fun hc => v (neg_inj.1 hc), fun hc => u (neg_inj.1 hc)⟩⟩, h2, ?_⟩
  · simp only [List.mem_cons, List.not_mem_nil, or_false, forall_eq_or_imp, forall_eq, Fault.reflected] at h3 ⊢
    obtain ⟨a, b, c⟩ := h3
    have e : ∀ u v : ℝ, |-u - -v| = |u - v| := fun u v => by rw [show -u - -v = -(u - v) by ring, abs_neg]
    have z : ∀ u v : ℝ, -u - -v = 0 ↔ u - v = 0 := fun u v => by rw [show -u - -v = -(u - v) by ring, neg_eq_zero]
    refine ⟨?_, ?_, c⟩
    · rw [e, z]; exact b
    · rw [e, z]; exact a

theorem wide_map (st : List Station) (g : Station → Station) : wide (st.map g) = (wide st).map g := by
  match st with
  | [] => rfl
  | [a] => rfl
  | a :: b :: l => rfl

/-- **C119.** The displacement of the fault reflected across the strike is the reflected displacement. -/
theorem fault_mirrored {f : Fault} {st : List Station} (hst : st.length = 1 ∨ st.length = 3) (hslip : f.disl1 ≠ 0 ∨ f.disl2 ≠ 0)
    (hres : Resolved f st) (hb : Buried f) :
    ∃ vs : List (V3 ℝ), dc3d3 f st = .ok (asColumns vs) ∧
      dc3d3 f.reflected (st.map fun p => ⟨-p.X, p.Y⟩) = .ok (asColumns (vs.map fun v => ⟨-v.x, v.y, v.z⟩)) := by
  have h1 := dc3d3_resolved (f := f) hst hslip (s := (dipConstants f.dip).1) (c := (dipConstants f.dip).2) rfl hres hb.1 hb.2
  have h2 := dc3d3_resolved (f := f.reflected) (by simpa using hst) (by simpa [Fault.reflected] using hslip)
    (s := (dipConstants f.dip).1) (c := (dipConstants f.dip).2) rfl (resolved_reflected hres) hb.1 hb.2
  rw [mat_asColumns] at h1 h2
  refine ⟨_, h1, ?_⟩
  rw [h2, wide_map, List.map_map, List.map_map]
  congr 2
  refine List.map_congr_left fun p _ => ?_
  simp only [Function.comp, Fault.reflected]
  have e : ∀ v : ℝ, -p.X - -v = -(p.X - v) := fun v => by ring
  simp only [e, Corner.field_negX]
  ext <;> simp <;> ring

/-! ## A vertical fault in its own plane -/

namespace Corner

variable (x e q s m : ℝ)

theorem r_negQ : (⟨x, e, -q⟩ : Corner).r = (⟨x, e, q⟩ : Corner).r := by simp [r]
theorem rd_negQ : (⟨x, e, -q⟩ : Corner).rd s 0 = (⟨x, e, q⟩ : Corner).rd s 0 := by simp only [rd, r_negQ, d, mul_zero]
theorem tt_negQ : (⟨x, e, -q⟩ : Corner).tt = -(⟨x, e, q⟩ : Corner).tt := by
  simp only [tt, r_negQ, neg_mul, div_neg, arctan_neg, neg_eq_zero]
  split_ifs <;> simp
theorem ale_negQ : (⟨x, e, -q⟩ : Corner).ale = (⟨x, e, q⟩ : Corner).ale := by simp only [ale, ret, r_negQ, neg_eq_zero]
theorem y11_negQ : (⟨x, e, -q⟩ : Corner).y11 = (⟨x, e, q⟩ : Corner).y11 := by simp only [y11, ret, r_negQ, neg_eq_zero]
theorem x11_negQ : (⟨x, e, -q⟩ : Corner).x11 = (⟨x, e, q⟩ : Corner).x11 := by simp only [x11, r_negQ, neg_eq_zero]
theorem y_negQ : (⟨x, e, -q⟩ : Corner).y s 0 = -(⟨x, e, q⟩ : Corner).y s 0 := by simp only [y]; ring
theorem ai4_negQ : (⟨x, e, -q⟩ : Corner).ai4 s 0 = -(⟨x, e, q⟩ : Corner).ai4 s 0 := by
  simp only [ai4, ne_eq, not_true_eq_false, if_false, rd_negQ, y_negQ]
  ring
theorem ai3_negQ : (⟨x, e, -q⟩ : Corner).ai3 s 0 = (⟨x, e, q⟩ : Corner).ai3 s 0 := by
  simp only [ai3, ne_eq, not_true_eq_false, if_false, rd_negQ, y_negQ, ale_negQ]
  ring

theorem field_negQ (b1 b2 : ℝ) : (⟨x, e, -q⟩ : Corner).field s 0 m (-b1) (-b2) =
    ⟨((⟨x, e, q⟩ : Corner).field s 0 m b1 b2).x, -((⟨x, e, q⟩ : Corner).field s 0 m b1 b2).y, ((⟨x, e, q⟩ : Corner).field s 0 m b1 b2).z⟩ := by
  ext
  all_goals
    simp only [field, turned, strikeSlip, dipSlip, ai1, ai2, x11_negQ, y11_negQ, tt_negQ, ai3_negQ, ai4_negQ, r_negQ, rd_negQ, y_negQ,
      V3.smul_x, V3.smul_y, V3.smul_z, V3.add_x, V3.add_y, V3.add_z, smul_eq_mul]
    ring

end Corner

theorem resolved_across {f : Fault} {st : List Station} (hv : (dipConstants f.dip).2 = 0) (h : Resolved f st) (b1 b2 : ℝ) :
    Resolved { f with disl1 := b1, disl2 := b2 } (st.map fun p => ⟨p.X, -p.Y⟩) := by
  obtain ⟨M, hM, h⟩ := h
  refine ⟨M, hM, fun p' hp' => ?_⟩
  obtain ⟨p, hp, rfl⟩ := List.mem_map.1 hp'
  obtain ⟨h1, h2, h3⟩ := h p hp
  simp only [neg_mul, abs_neg]
  refine ⟨h1.imp id fun ⟨a, b, c, d⟩ => ⟨by simp [a], b, c, d⟩, h2, ?_⟩
  simpa only [hv, mul_zero, neg_zero] using h3

/-- **C119.** A vertical fault reflected in its own plane. -/
theorem vertical_mirrored {f : Fault} {st : List Station} (hv : (dipConstants f.dip).2 = 0) (hst : st.length = 1 ∨ st.length = 3)
    (hslip : f.disl1 ≠ 0 ∨ f.disl2 ≠ 0) (hres : Resolved f st) (hb : Buried f) :
    ∃ vs : List (V3 ℝ), dc3d3 f st = .ok (asColumns vs) ∧
      dc3d3 { f with disl1 := -f.disl1, disl2 := -f.disl2 } (st.map fun p => ⟨p.X, -p.Y⟩) =
        .ok (asColumns (vs.map fun v => ⟨v.x, -v.y, v.z⟩)) := by
  have h1 := dc3d3_resolved (f := f) hst hslip (s := (dipConstants f.dip).1) (c := (dipConstants f.dip).2) rfl hres hb.1 hb.2
  have h2 := dc3d3_resolved (f := { f with disl1 := -f.disl1, disl2 := -f.disl2 }) (st := st.map fun p => ⟨p.X, -p.Y⟩) (by simpa using hst)
    (by simpa using hslip) (s := (dipConstants f.dip).1) (c := (dipConstants f.dip).2) rfl (resolved_across hv hres _ _) hb.1 hb.2
  rw [mat_asColumns] at h1 h2
  refine ⟨_, h1, ?_⟩
  rw [h2, wide_map, List.map_map, List.map_map]
  congr 2
  refine List.map_congr_left fun p _ => ?_
  simp only [Function.comp, hv, mul_zero, neg_mul, Corner.field_negQ]
  ext <;> simp <;> ring

/-- So at points opposite each other on the two sides of a vertical fault the movements along the strike and the uplifts are opposite, and
the movements across the strike are the same. -/
theorem vertical_sides {f : Fault} {p : Station} (hv : (dipConstants f.dip).2 = 0) (hslip : f.disl1 ≠ 0 ∨ f.disl2 ≠ 0)
    (hres : Resolved f [p]) (hb : Buried f) :
    ∃ v : V3 ℝ, dc3d3 f [p] = .ok (asColumns [v, v, v]) ∧
      dc3d3 f [⟨p.X, -p.Y⟩] = .ok (asColumns [⟨-v.x, v.y, -v.z⟩, ⟨-v.x, v.y, -v.z⟩, ⟨-v.x, v.y, -v.z⟩]) := by
  have h1 := dc3d3_resolved (f := f) (.inl rfl) hslip (s := (dipConstants f.dip).1) (c := (dipConstants f.dip).2) rfl hres hb.1 hb.2
  have h2 := dc3d3_resolved (f := f) (st := [⟨p.X, -p.Y⟩]) (.inl rfl) hslip (s := (dipConstants f.dip).1) (c := (dipConstants f.dip).2) rfl
    (resolved_across hv hres _ _) hb.1 hb.2
  rw [mat_asColumns] at h1 h2
  refine ⟨_, h1, ?_⟩
  rw [h2]
  simp only [wide, List.map, hv, mul_zero, neg_mul]
  have key : ∀ x e q s m b1 b2 : ℝ, (⟨x, e, -q⟩ : Corner).field s 0 m b1 b2 =
      ⟨-((⟨x, e, q⟩ : Corner).field s 0 m b1 b2).x, ((⟨x, e, q⟩ : Corner).field s 0 m b1 b2).y,
        -((⟨x, e, q⟩ : Corner).field s 0 m b1 b2).z⟩ := by
    intro x e q s m b1 b2
    have h := Corner.field_negQ x e q s m (-b1) (-b2)
    rw [neg_neg, neg_neg] at h
    rw [h]
    ext <;> simp [Corner.field, Corner.turned] <;> ring
  simp only [key]
  exact congrArg (fun v : V3 ℝ => (Except.ok (asColumns [v, v, v]) : Py Arr)) (by ext <;> simp <;> ring)

/-- The vertical fault between depths one and three of C93 meets the hypotheses. -/
example : (∃ vs : List (V3 ℝ), dc3d3 sampleFault [⟨2, 1⟩, ⟨1 / 2, 0⟩, ⟨2, -2⟩] = .ok (asColumns vs) ∧
      dc3d3 ⟨2 / 3, -90, -1, -0, 1, 3, -2, 1⟩ [⟨-2, 1⟩, ⟨-(1 / 2), 0⟩, ⟨-2, -2⟩] = .ok (asColumns (vs.map fun v => ⟨-v.x, v.y, v.z⟩))) ∧
    (dipConstants sampleFault.dip).2 = 0 :=
  ⟨fault_mirrored (.inr rfl) (.inr (by simp [sampleFault])) sample_resolved sample_buried, congrArg Prod.snd dipConstants_vertical⟩

end Verif.Okada
