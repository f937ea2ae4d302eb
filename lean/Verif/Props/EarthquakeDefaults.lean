import Verif.Props.EarthquakeAttributes

/-!
# C61: what is left out of the constructors
-/

namespace Verif.Earthquake

open Classical

variable {D : Type} [FloatGrammar] [Conversions D]

/-- **C61.** The defaults of an interferogram (oksar.py:58-61): no scaling, half the wavelength of the C band in metres, the radius of the earth.  The
rigidity is stored, although it cannot be read back (`local_rigidity_never_reads`). -/
theorem interferogram_defaults (given : IAttr → Option (Arg D)) (s : Slots D) (h : newInterferogram given = .ok s) :
    (given .scaling = none → IAttr.scaling.get s = .ok (.float (.fin 1))) ∧
    (given .satellite_fringe_interval = none → IAttr.satellite_fringe_interval.get s = .ok (.float (.fin 0.028333))) ∧
    (given .local_earth_radius = none → IAttr.local_earth_radius.get s = .ok (.float (.fin 6371000))) ∧
    (given .local_rigidity = none → (IAttr.local_rigidity, .obj (.num (.fin 3e10))) ∈ initAssignments given) := by
  have key : ∀ (a : IAttr) (x : ℝ), a ≠ .local_rigidity → a ≠ .event_date → a.default = some (.obj (.num (.fin x)) : Arg D) →
      (∀ v : Arg D, a.convert v = toFloatAttr v) → given a = none → a.get s = .ok (.float (.fin x)) := by
    intro a x h1 h2 h3 h4 h5
    have := interferogram_new_reads_partial given s h a h1 h2
    rw [h5, h3] at this
    obtain ⟨w, hw, hg⟩ := this
    rw [h4] at hw
    simp only [toFloatAttr, toFloatVal, Obj.toFloat, Except.ok.injEq] at hw
    rw [hg, ← hw]
  refine ⟨key _ _ (by simp) (by simp) (by simp [IAttr.default]; norm_num) (fun _ => rfl), key _ _ (by simp) (by simp) rfl (fun _ => rfl),
    key _ _ (by simp) (by simp) rfl (fun _ => rfl), fun hg => ?_⟩
  exact List.mem_filterMap.2 ⟨.local_rigidity, by decide, by simp [hg, IAttr.default]⟩

theorem assignAllO_slot {ops : List (OAttr × Arg D)} {s t : Slots D} (h : assignAllO ops s = (t, none)) (hnd : (ops.map Prod.fst).Nodup)
    {a : OAttr} {x : Arg D} (hm : (a, x) ∈ ops) : ∃ r v, a.convert r x = .ok v ∧ t a.setSlot = some v := by
  induction ops generalizing s with
  | nil => simp at hm
  | cons o l ih =>
    simp only [assignAllO] at h
    simp only [List.map_cons, List.nodup_cons] at hnd
    rcases hs : OAttr.set s o with ⟨s', _ | e⟩
    · rw [hs] at h
      simp only [SetResult.andThen] at h
      rcases List.mem_cons.1 hm with rfl | hm
      · obtain ⟨v, hv, rfl⟩ := setO_ok hs
        refine ⟨s, v, hv, ?_⟩
        have keep : ∀ (l : List (OAttr × Arg D)) (r t : Slots D), assignAllO l r = (t, none) → a ∉ l.map Prod.fst → t a.setSlot = r a.setSlot := by
          intro l
          induction l with
          | nil => intro r t h _; simp [assignAllO] at h; rw [h]
          | cons o l ih =>
            intro r t h hn
            simp only [List.map_cons, List.mem_cons, not_or] at hn
            simp only [assignAllO] at h
            rcases hs : OAttr.set r o with ⟨r', _ | e⟩
            · rw [hs] at h
              rw [ih r' t h hn.2]
              have := setO_other r o a.setSlot (fun h' => hn.1 (setSlotO_injective h').symm)
              rwa [hs] at this
            · rw [hs] at h
              simp [SetResult.andThen] at h
        rw [keep l _ t h hnd.1]
        simp [Slots.write]
      · exact ih h hnd.2 hm
    · rw [hs] at h
      simp [SetResult.andThen] at h

/-- **C61.** The defaults of a fault (oksar.py:920-928): from the given depth to ten kilometres, striking north, dipping by 45 degrees, a pure thrust
of half a metre, ten kilometres long, and 300 by 300 pixels. -/
theorem oksar_defaults (given : OAttr → Option (Arg D)) (s : Slots D) (h : newOksar given = .ok s) :
    (given .depth_bottom = none → OAttr.depth_bottom.get s = .ok (.float (.fin 10000))) ∧
    (given .strike = none → OAttr.strike.get s = .ok (.float (.fin 0))) ∧
    (given .dip = none → OAttr.dip.get s = .ok (.float (.fin 45))) ∧
    (given .rake = none → OAttr.rake.get s = .ok (.float (.fin 90))) ∧
    (given .slip = none → OAttr.slip.get s = .ok (.float (.fin (1 / 2)))) ∧
    (given .length = none → OAttr.length.get s = .ok (.float (.fin 10000))) ∧
    (given .beta = none → OAttr.beta.get s = .ok (.float (.fin 3e10))) ∧
    (given .mu = none → OAttr.mu.get s = .ok (.float (.fin 3e10))) ∧
    (given .shape = none → ∃ a, OAttr.shape.get s = .ok (.intArray a) ∧ a.shape = [2] ∧ a.get [0] = 300 ∧ a.get [1] = 300) := by
  unfold newOksar at h
  split at h
  · simp at h
  simp only at h
  split at h
  swap
  · simp at h
  rename_i t ht
  simp only [Except.ok.injEq] at h
  subst h
  have slot : ∀ a : OAttr, a ∈ [OAttr.depth_bottom, .strike, .dip, .rake, .slip, .length, .beta, .mu, .shape] → given a = none →
      ∃ r v, a.convert r (OAttr.default a) = .ok v ∧ a.get t = .ok v := by
    intro a ha hg
    have hm : (a, OAttr.default a) ∈ [OAttr.O, .U, .V, .center, .depth_top, .depth_bottom, .strike, .dip, .rake, .slip, .length, .beta, .mu,
        .shape].map (fun a => (a, (given a).getD (OAttr.default a))) := by
      refine List.mem_map.2 ⟨a, ?_, by simp [hg]⟩
      simp only [List.mem_cons, List.not_mem_nil, or_false] at ha ⊢
      tauto
    obtain ⟨r, v, hv, hs⟩ := assignAllO_slot ht (by rw [List.map_map]; exact (by decide : ([OAttr.O, .U, .V, .center, .depth_top, .depth_bottom, .strike,
      .dip, .rake, .slip, .length, .beta, .mu, .shape].map fun a => a).Nodup)) hm
    refine ⟨r, v, hv, ?_⟩
    have hslot : a.getSlot = a.setSlot := by
      simp only [List.mem_cons, List.not_mem_nil, or_false] at ha
      rcases ha with rfl | rfl | rfl | rfl | rfl | rfl | rfl | rfl | rfl <;> rfl
    unfold OAttr.get Slots.read
    rw [hslot, hs]
  have fl : ∀ (bad : PyFloat → Prop) (x : ℝ) (v : Val D), floatUnless bad (.obj (.num (.fin x)) : Arg D) = .ok v → v = .float (.fin x) := by
    intro bad x v hv
    simp only [floatUnless, toFloatVal, Obj.toFloat] at hv
    split at hv
    · simp at hv
    · exact (Except.ok.inj hv).symm
  have fa : ∀ (x : ℝ) (v : Val D), toFloatAttr (.obj (.num (.fin x)) : Arg D) = .ok v → v = .float (.fin x) := by
    intro x v hv
    simp only [toFloatAttr, toFloatVal, Obj.toFloat] at hv
    exact (Except.ok.inj hv).symm
  refine ⟨fun hg => ?_, fun hg => ?_, fun hg => ?_, fun hg => ?_, fun hg => ?_, fun hg => ?_, fun hg => ?_, fun hg => ?_, fun hg => ?_⟩
  · obtain ⟨r, v, hv, hs⟩ := slot _ (by simp) hg
    rw [hs]
    simp only [OAttr.convert, OAttr.default, toFloatVal, Obj.toFloat] at hv
    split at hv
    · split at hv
      · simp at hv
      · rw [← Except.ok.inj hv]; norm_num
    · simp at hv
    · simp at hv
  · obtain ⟨r, v, hv, hs⟩ := slot _ (by simp) hg
    simp only [OAttr.convert, OAttr.default] at hv
    rw [hs, fl _ _ v hv]
  · obtain ⟨r, v, hv, hs⟩ := slot _ (by simp) hg
    simp only [OAttr.convert, OAttr.default] at hv
    rw [hs, fl _ _ v hv]
  · obtain ⟨r, v, hv, hs⟩ := slot _ (by simp) hg
    simp only [OAttr.convert, OAttr.default] at hv
    rw [hs, fl _ _ v hv]
  · obtain ⟨r, v, hv, hs⟩ := slot _ (by simp) hg
    simp only [OAttr.convert, OAttr.default] at hv
    rw [hs, fl _ _ v hv]; norm_num
  · obtain ⟨r, v, hv, hs⟩ := slot _ (by simp) hg
    simp only [OAttr.convert, OAttr.default] at hv
    rw [hs, fl _ _ v hv]; norm_num
  · obtain ⟨r, v, hv, hs⟩ := slot _ (by simp) hg
    rw [hs, fa _ v hv]
  · obtain ⟨r, v, hv, hs⟩ := slot _ (by simp) hg
    rw [hs, fa _ v hv]
  · obtain ⟨r, v, hv, hs⟩ := slot _ (by simp) hg
    simp only [OAttr.convert, OAttr.default, toShapeArray] at hv
    split at hv
    · refine ⟨_, by rw [hs, ← Except.ok.inj hv], by simp [NArr.ofList], ?_, ?_⟩
      · simp [NArr.ofList, castInt, truncInt]
      · simp [NArr.ofList, castInt, truncInt]
    · simp at hv

/-- The constructors do succeed with the defaults. -/
example : ∃ s : Slots D, newOksar exampleFault = .ok s ∧ (exampleFault (D := D)) .strike = none := by
  obtain ⟨s, hs⟩ := oksar_example (D := D)
  exact ⟨s, hs, rfl⟩

end Verif.Earthquake
