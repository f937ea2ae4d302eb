import Verif.Model.Earthquake

/-!
# C61, C63, C64: attributes of `EarthquakeInterferogram` and `Oksar`, and the simulation grid
-/

namespace Verif.Earthquake

open Classical

variable {D : Type} [FloatGrammar] [Conversions D]

/-! ## C61: reading back -/

/-- Specification: the converted value of the last accepted assignment to `a` in a history (newest last). -/
noncomputable def lastAccepted (a : IAttr) (ops : List (IAttr × Arg D)) : Option (Val D) :=
  ops.foldl (fun acc o =>
    if o.1 = a then
      match a.convert o.2 with
      | .ok v => some v
      | .error _ => acc
    else acc) none

/-- Reading an optional value: missing ones raise `AttributeError`. -/
def orAttributeError : Option (Val D) → Py (Val D)
  | some v => .ok v
  | none => .error .attributeError

omit [FloatGrammar] [Conversions D] in
theorem setSlot_injective {a b : IAttr} (h : a.setSlot = b.setSlot) : a = b := by
  cases a <;> cases b <;> simp [IAttr.setSlot] at h ⊢

theorem set_other (s : Slots D) (o : IAttr × Arg D) (slot : String) (h : o.1.setSlot ≠ slot) :
    (IAttr.set s o).1 slot = s slot := by
  unfold IAttr.set
  split
  · rfl
  · simp [Slots.write, h.symm]

theorem set_same (s : Slots D) (o : IAttr × Arg D) :
    (IAttr.set s o).1 o.1.setSlot = match o.1.convert o.2 with
      | .ok v => some v
      | .error _ => s o.1.setSlot := by
  unfold IAttr.set
  split
  · rename_i h; simp [h]
  · rename_i h; simp [h, Slots.write]

theorem slot_history (a : IAttr) (ops : List (IAttr × Arg D)) (s : Slots D) :
    runOps IAttr.set s ops a.setSlot = ops.foldl (fun acc o =>
      if o.1 = a then
        match a.convert o.2 with
        | .ok v => some v
        | .error _ => acc
      else acc) (s a.setSlot) := by
  induction ops generalizing s with
  | nil => rfl
  | cons o ops ih =>
    change runOps IAttr.set (IAttr.set s o).1 ops a.setSlot = _
    rw [ih, List.foldl_cons]
    congr 1
    by_cases h : o.1 = a
    · subst h
      rw [if_pos rfl, set_same]
    · rw [if_neg h, set_other]
      exact fun h' => h (setSlot_injective h')

/-- Every attribute except `local_rigidity` and `event_date` reads, after any history of accepted and rejected assignments,
the converted value of the last accepted assignment to it, and raises `AttributeError` if there was none.  Missing: the two
exceptions, which do not (`local_rigidity_never_reads`, `event_date_reads_processed_date`). -/
theorem interferogram_reads_back_partial (a : IAttr) (h1 : a ≠ .local_rigidity) (h2 : a ≠ .event_date)
    (ops : List (IAttr × Arg D)) :
    a.get (runOps IAttr.set (fun _ => none) ops) = orAttributeError (lastAccepted a ops) := by
  have hslot : a.getSlot = a.setSlot := by cases a <;> simp [IAttr.getSlot, IAttr.setSlot] at h1 h2 ⊢
  have := slot_history a ops (fun _ => none)
  unfold IAttr.get Slots.read
  rw [hslot, this]
  unfold lastAccepted
  generalize List.foldl _ _ _ = r
  cases r <;> rfl

/-- **C61 fails for `local_rigidity`**: it raises `AttributeError` after every history, whatever was assigned. -/
theorem local_rigidity_never_reads (ops : List (IAttr × Arg D)) :
    IAttr.get .local_rigidity (runOps IAttr.set (fun _ => none) ops) = .error .attributeError := by
  have : ∀ s : Slots D, s "_local_rigidity" = none → runOps IAttr.set s ops "_local_rigidity" = none := by
    induction ops with
    | nil => exact fun _ h => h
    | cons o ops ih =>
      intro s h
      refine ih _ ?_
      change (IAttr.set s o).1 _ = _
      rw [set_other _ _ _ ?_]
      · exact h
      · cases o.1 <;> simp [IAttr.setSlot]
  simp [IAttr.get, IAttr.getSlot, Slots.read, this (fun _ => none) rfl]

omit [FloatGrammar] [Conversions D] in
/-- **C61 fails for `event_date`**: it always reads what `processed_date` reads. -/
theorem event_date_reads_processed_date (s : Slots D) : IAttr.get .event_date s = IAttr.get .processed_date s := rfl

/-- A history on which that is wrong: both dates assigned, different. -/
theorem event_date_wrong (d e : D) (h : d ≠ e) :
    let ops : List (IAttr × Arg D) := [(.event_date, .date d), (.processed_date, .date e)]
    lastAccepted .event_date ops = some (.date d) ∧
      IAttr.get .event_date (runOps IAttr.set (fun _ => none) ops) = .ok (.date e) ∧
      (Val.date d : Val D) ≠ .date e := by
  refine ⟨?_, ?_, fun hh => h (Val.date.inj hh)⟩
  · simp [lastAccepted, IAttr.convert, toDateVal]
  · rw [event_date_reads_processed_date, interferogram_reads_back_partial _ (by simp) (by simp)]
    simp [lastAccepted, IAttr.convert, toDateVal, orAttributeError]

/-- A rejected assignment changes nothing. -/
theorem interferogram_rejected_unchanged (s : Slots D) (o : IAttr × Arg D) (e : PyErr)
    (h : (IAttr.set s o).2 = some e) : (IAttr.set s o).1 = s := by
  unfold IAttr.set at *
  split <;> simp_all

/-- What each kind of attribute accepts, with the value it then stores.  Numbers: whatever `float` converts.  Strings:
whatever `str` converts.  Pairs: arrays that squeeze to two entries.  Zone: whatever `int` converts.  Dates: datetimes,
and strings in one of the two formats. -/
theorem interferogram_accepts (v : Val D) :
    (∀ a ∈ [IAttr.ref_incidence, .scaling, .satellite_fringe_interval, .satellite_azimuth, .satellite_altitude,
        .local_earth_radius, .local_rigidity], ∀ x : Arg D,
      a.convert x = .ok v ↔ ∃ o y, x = .obj o ∧ o.toFloat = .ok y ∧ v = .float y) ∧
    (∀ a ∈ [IAttr.title, .processed_by, .description, .satellite_name, .copyright, .data_source, .event_gcmt_id,
        .event_name, .event_country], ∀ x : Arg D, a.convert x = .ok v ↔ ∃ s, Conversions.str x = some s ∧ v = .text s) ∧
    (∀ a ∈ [IAttr.location, .ref, .pixel_size], ∀ x : Arg D,
      a.convert x = .ok v ↔ ∃ o b, x = .obj o ∧ o.asFloatArray = .ok b ∧ b.squeeze.shape = [2] ∧ v = .array b.squeeze) ∧
    (∀ x : Arg D, IAttr.convert .data x = .ok v ↔ ∃ o b, x = .obj o ∧ o.asFloatArray = .ok b ∧ v = .array b) ∧
    (∀ x : Arg D, IAttr.convert .location_UTM_zone x = .ok v ↔ ∃ o n, x = .obj o ∧ intOf D o = some n ∧ v = .int n) ∧
    (∀ x : Arg D, IAttr.convert .shape x = .ok v ↔
      ∃ o l, x = .obj o ∧ intTuple D o = some l ∧ l.length = 2 ∧ v = .ints l) ∧
    (∀ a ∈ [IAttr.date1, .date2, .processed_date, .event_date], ∀ x : Arg D,
      a.convert x = .ok v ↔ ∃ d, v = .date d ∧
        (x = .date d ∨ ∃ s, x = .obj (.str s) ∧
          ((s.length = 10 ∧ Conversions.parseDay (s.replace "-" "/") = some d) ∨
            (s.length ≠ 10 ∧ Conversions.parseStamp s = some d)))) := by
  have hF : ∀ x : Arg D, toFloatAttr x = .ok v ↔ ∃ o y, x = .obj o ∧ o.toFloat = .ok y ∧ v = .float y := by
    intro x
    cases x with
    | date d => simp [toFloatAttr, toFloatVal]
    | obj o =>
      cases h : o.toFloat with
      | error e => simp [toFloatAttr, toFloatVal, h]
      | ok y => simp [toFloatAttr, toFloatVal, h, eq_comm]
  have hS : ∀ x : Arg D, toStrVal x = .ok v ↔ ∃ s, Conversions.str x = some s ∧ v = .text s := by
    intro x
    cases h : Conversions.str x <;> simp [toStrVal, h, eq_comm]
  have hP : ∀ (e : PyErr) (x : Arg D), toPair e x = .ok v ↔
      ∃ o b, x = .obj o ∧ o.asFloatArray = .ok b ∧ b.squeeze.shape = [2] ∧ v = .array b.squeeze := by
    intro e x
    cases x with
    | date d => simp [toPair, toArray]
    | obj o =>
      cases h : o.asFloatArray with
      | error e => simp [toPair, toArray, h]
      | ok b =>
        by_cases h2 : b.squeeze.shape = [2]
        · simp [toPair, toArray, h, h2, eq_comm]
        · simp [toPair, toArray, h, h2]
  have hDt : ∀ x : Arg D, toDateVal x = .ok v ↔ ∃ d, v = .date d ∧
        (x = .date d ∨ ∃ s, x = .obj (.str s) ∧
          ((s.length = 10 ∧ Conversions.parseDay (s.replace "-" "/") = some d) ∨
            (s.length ≠ 10 ∧ Conversions.parseStamp s = some d))) := by
    intro x
    match x with
    | .date d => simp [toDateVal, eq_comm]
    | .obj (.num _) | .obj (.ndarray _) | .obj (.seq _) | .obj .none | .obj .other => simp [toDateVal]
    | .obj (.str s) =>
      by_cases hl : s.length = 10
      · cases h : Conversions.parseDay (D := D) (s.replace "-" "/") <;>
          simp [toDateVal, dateOfString, hl, h, eq_comm]
      · have hl' : ¬ 10 = s.length := fun h => hl h.symm
        cases h : Conversions.parseStamp (D := D) s <;> simp [toDateVal, dateOfString, hl, hl', h, eq_comm]
  refine ⟨?_, ?_, ?_, ?_, ?_, ?_, ?_⟩
  · intro a ha x
    rw [← hF]
    simp only [List.mem_cons, List.not_mem_nil, or_false] at ha
    rcases ha with rfl | rfl | rfl | rfl | rfl | rfl | rfl <;> rfl
  · intro a ha x
    rw [← hS]
    simp only [List.mem_cons, List.not_mem_nil, or_false] at ha
    rcases ha with rfl | rfl | rfl | rfl | rfl | rfl | rfl | rfl | rfl <;> rfl
  · intro a ha x
    simp only [List.mem_cons, List.not_mem_nil, or_false] at ha
    rcases ha with rfl | rfl | rfl
    · exact hP _ x
    · exact hP _ x
    · exact hP _ x
  · intro x
    cases x with
    | date d => simp [IAttr.convert, toArray]
    | obj o => cases h : o.asFloatArray <;> simp [IAttr.convert, toArray, h, eq_comm]
  · intro x
    cases x with
    | date d => simp [IAttr.convert, toIntVal]
    | obj o => cases h : intOf D o <;> simp [IAttr.convert, toIntVal, h, eq_comm]
  · intro x
    cases x with
    | date d => simp [IAttr.convert, toShapeVal]
    | obj o =>
      cases h : intTuple D o with
      | none => simp [IAttr.convert, toShapeVal, h]
      | some l =>
        by_cases h2 : l.length = 2
        · simp [IAttr.convert, toShapeVal, h, h2, eq_comm]
        · simp [IAttr.convert, toShapeVal, h, h2]
  · intro a ha x
    rw [← hDt]
    simp only [List.mem_cons, List.not_mem_nil, or_false] at ha
    rcases ha with rfl | rfl | rfl | rfl <;> rfl

theorem assignAll_ok {ops : List (IAttr × Arg D)} {s t : Slots D} (h : assignAll ops s = (t, none)) :
    t = runOps IAttr.set s ops ∧ ∀ o ∈ ops, ∃ v, o.1.convert o.2 = .ok v := by
  induction ops generalizing s with
  | nil => simp [assignAll] at h; exact ⟨h.symm, by simp⟩
  | cons o ops ih =>
    simp only [assignAll] at h
    cases hc : o.1.convert o.2 with
    | error e => simp [IAttr.set, hc, SetResult.andThen] at h
    | ok v =>
      have hs : IAttr.set s o = (s.write o.1.setSlot v, none) := by simp [IAttr.set, hc]
      rw [hs] at h
      simp only [SetResult.andThen] at h
      obtain ⟨h1, h2⟩ := ih h
      refine ⟨?_, ?_⟩
      · change t = runOps IAttr.set (IAttr.set s o).1 ops
        rw [hs]; exact h1
      · intro o' ho'
        rcases List.mem_cons.1 ho' with rfl | ho'
        · exact ⟨v, hc⟩
        · exact h2 o' ho'

theorem lastAccepted_filterMap (a : IAttr) (f : IAttr → Option (Arg D)) (l : List IAttr) (hnd : l.Nodup)
    (acc : Option (Val D)) :
    (l.filterMap fun b => (f b).map fun v => (b, v)).foldl (fun acc o =>
      if o.1 = a then
        match a.convert o.2 with
        | .ok v => some v
        | .error _ => acc
      else acc) acc =
    if a ∈ l then
      match f a with
      | some v => (match a.convert v with
        | .ok v => some v
        | .error _ => acc)
      | none => acc
    else acc := by
  induction l generalizing acc with
  | nil => simp
  | cons b l ih =>
    have hnd' := (List.nodup_cons.1 hnd).2
    have hb := (List.nodup_cons.1 hnd).1
    cases hf : f b with
    | none =>
      simp only [List.filterMap_cons, hf, Option.map_none]
      rw [ih hnd']
      by_cases hab : a = b
      · subst hab; simp [hb, hf]
      · simp [hab]
    | some v =>
      simp only [List.filterMap_cons, hf, Option.map_some, List.foldl_cons]
      rw [ih hnd']
      by_cases hab : b = a
      · subst hab
        simp [hb, hf]
      · simp [hab, Ne.symm hab]

/-- After construction every attribute but the two exceptions reads the converted argument, the default if there is one and no
argument was given, and raises `AttributeError` otherwise. -/
theorem interferogram_new_reads_partial (given : IAttr → Option (Arg D)) (s : Slots D)
    (h : newInterferogram given = .ok s) (a : IAttr) (h1 : a ≠ .local_rigidity) (h2 : a ≠ .event_date) :
    match (given a).or a.default with
    | some v => ∃ w, a.convert v = .ok w ∧ a.get s = .ok w
    | none => a.get s = .error .attributeError := by
  unfold newInterferogram at h
  split at h
  · simp at h
  · split at h
    · rename_i t ht
      simp only [Except.ok.injEq] at h
      subst h
      obtain ⟨hrun, hconv⟩ := assignAll_ok ht
      have hnd : IAttr.initOrder.Nodup := by decide
      have hmem : a ∈ IAttr.initOrder := by cases a <;> decide
      have hread := interferogram_reads_back_partial a h1 h2 (initAssignments given)
      have hlast := lastAccepted_filterMap a (fun a => (given a).or a.default) IAttr.initOrder hnd none
      rw [hrun, hread]
      unfold lastAccepted
      have heq : initAssignments given = IAttr.initOrder.filterMap fun b =>
        ((fun a => (given a).or a.default) b).map fun v => (b, v) := rfl
      rw [heq, hlast, if_pos hmem]
      cases hg : (given a).or a.default with
      | none => simp [orAttributeError]
      | some v =>
        have : (a, v) ∈ initAssignments given := by
          rw [heq]
          exact List.mem_filterMap.2 ⟨a, hmem, by simp [hg]⟩
        obtain ⟨w, hw⟩ := hconv _ this
        exact ⟨w, hw, by simp only at hw; simp [hw, orAttributeError]⟩
    · simp at h

/-! ## Oksar -/

/-- Specification: the converted value of the last accepted assignment to `a`, for setters that may consult the object. -/
noncomputable def lastAcceptedO (a : OAttr) : Slots D → List (OAttr × Arg D) → Option (Val D) → Option (Val D)
  | _, [], acc => acc
  | s, o :: ops, acc => lastAcceptedO a (OAttr.set s o).1 ops
      (if o.1 = a then
        match a.convert s o.2 with
        | .ok v => some v
        | .error _ => acc
      else acc)

omit [FloatGrammar] [Conversions D] in
theorem setSlotO_injective {a b : OAttr} (h : a.setSlot = b.setSlot) : a = b := by
  cases a <;> cases b <;> simp [OAttr.setSlot] at h ⊢

theorem setO_other (s : Slots D) (o : OAttr × Arg D) (slot : String) (h : o.1.setSlot ≠ slot) :
    (OAttr.set s o).1 slot = s slot := by
  unfold OAttr.set
  split
  · rfl
  · simp [Slots.write, h.symm]

theorem setO_same (s : Slots D) (o : OAttr × Arg D) :
    (OAttr.set s o).1 o.1.setSlot = match o.1.convert s o.2 with
      | .ok v => some v
      | .error _ => s o.1.setSlot := by
  unfold OAttr.set
  split
  · rename_i h; simp [h]
  · rename_i h; simp [h, Slots.write]

theorem slotO_history (a : OAttr) (ops : List (OAttr × Arg D)) (s : Slots D) :
    runOps OAttr.set s ops a.setSlot = lastAcceptedO a s ops (s a.setSlot) := by
  induction ops generalizing s with
  | nil => rfl
  | cons o ops ih =>
    change runOps OAttr.set (OAttr.set s o).1 ops a.setSlot = _
    rw [ih, lastAcceptedO]
    congr 1
    by_cases h : o.1 = a
    · subst h
      rw [if_pos rfl, setO_same]
    · rw [if_neg h, setO_other]
      exact fun h' => h (setSlotO_injective h')

/-- Every `Oksar` attribute except `V` reads the converted value of the last accepted assignment to it.  Missing: `V`, which
never reads (`V_never_reads`). -/
theorem oksar_reads_back_partial (a : OAttr) (h : a ≠ .V) (ops : List (OAttr × Arg D)) :
    a.get (runOps OAttr.set (fun _ => none) ops) = orAttributeError (lastAcceptedO a (fun _ => none) ops none) := by
  have hslot : a.getSlot = a.setSlot := by cases a <;> simp [OAttr.getSlot, OAttr.setSlot] at h ⊢
  have := slotO_history a ops (fun _ => none)
  unfold OAttr.get Slots.read
  rw [hslot, this]
  generalize lastAcceptedO a _ ops _ = r
  cases r <;> rfl

/-- **C61 fails for `V`**: it raises `AttributeError` after every history. -/
theorem V_never_reads (ops : List (OAttr × Arg D)) :
    OAttr.get .V (runOps OAttr.set (fun _ => none) ops) = .error .attributeError := by
  have : ∀ s : Slots D, s "_location" = none → runOps OAttr.set s ops "_location" = none := by
    induction ops with
    | nil => exact fun _ h => h
    | cons o ops ih =>
      intro s h
      refine ih _ ?_
      change (OAttr.set s o).1 _ = _
      rw [setO_other _ _ _ ?_]
      · exact h
      · cases o.1 <;> simp [OAttr.setSlot]
  simp [OAttr.get, OAttr.getSlot, Slots.read, this (fun _ => none) rfl]

theorem oksar_rejected_unchanged (s : Slots D) (o : OAttr × Arg D) (e : PyErr)
    (h : (OAttr.set s o).2 = some e) : (OAttr.set s o).1 = s := by
  unfold OAttr.set at *
  split <;> simp_all

/-! ## C63: fault parameters -/

/-- The documented range of each numeric attribute (`depth_bottom` is treated separately). -/
def OAttr.Bound : OAttr → PyFloat → Prop
  | .depth_top, x => .fin 0 ≤ x
  | .strike, x => .fin 0 ≤ x ∧ x ≤ .fin 360
  | .dip, x => .fin 0 ≤ x ∧ x ≤ .fin 90
  | .rake, x => .fin (-180) ≤ x ∧ x ≤ .fin 180
  | .slip, x => .fin 0 ≤ x
  | .length, x => .fin 0 ≤ x
  | _, _ => True

/-- No assigned value converts to NaN. -/
def NoNaN (ops : List (OAttr × Arg D)) : Prop := ∀ o ∈ ops, ∀ x, toFloatVal o.2 = .ok x → x ≠ .nan

/-- Exactly which numbers each setter accepts: those in range, and NaN. -/
theorem oksar_accepts (s : Slots D) (a : OAttr) (ha : a ∈ [OAttr.depth_top, .strike, .dip, .rake, .slip, .length])
    (v : Arg D) (w : Val D) :
    a.convert s v = .ok w ↔ ∃ x, toFloatVal v = .ok x ∧ w = .float x ∧ (x = .nan ∨ a.Bound x) := by
  have key : ∀ (bad : PyFloat → Prop), floatUnless bad v = .ok w ↔
      ∃ x, toFloatVal v = .ok x ∧ w = .float x ∧ ¬ bad x := by
    intro bad
    unfold floatUnless
    cases h : toFloatVal v with
    | error e => simp
    | ok x =>
      by_cases hb : bad x
      · simp [hb]
      · simp [hb, eq_comm]
  simp only [List.mem_cons, List.not_mem_nil, or_false] at ha
  rcases ha with rfl | rfl | rfl | rfl | rfl | rfl <;> simp only [OAttr.convert, key, OAttr.Bound] <;>
    refine exists_congr fun x => and_congr_right fun _ => and_congr_right fun _ => ?_ <;>
    cases x <;> simp [not_or]

/-- After any history without NaN every numeric attribute that can be read is in its documented range.  Missing: NaN
(`oksar_nan_accepted`) and the order of the two depths (`oksar_depth_order_breaks`). -/
theorem oksar_bounds_history_partial (ops : List (OAttr × Arg D)) (h : NoNaN ops) (a : OAttr) (x : PyFloat)
    (hx : a.get (runOps OAttr.set (fun _ => none) ops) = .ok (.float x)) : a.Bound x := by
  have hinv : ∀ (ops : List (OAttr × Arg D)) (s : Slots D), NoNaN ops →
      (∀ a x, s a.setSlot = some (.float x) → OAttr.Bound a x) →
      ∀ a x, runOps OAttr.set s ops a.setSlot = some (.float x) → OAttr.Bound a x := by
    intro ops
    induction ops with
    | nil => exact fun s _ h => h
    | cons o ops ih =>
      intro s hn hs
      refine ih _ (fun o' ho' => hn o' (List.mem_cons_of_mem _ ho')) ?_
      intro a x hax
      change (OAttr.set s o).1 _ = _ at hax
      by_cases hoa : o.1 = a
      · subst hoa
        rw [setO_same] at hax
        cases hc : o.1.convert s o.2 with
        | error e => rw [hc] at hax; exact hs _ _ hax
        | ok v =>
          rw [hc] at hax
          simp only [Option.some.injEq] at hax
          subst hax
          by_cases hmem : o.1 ∈ [OAttr.depth_top, .strike, .dip, .rake, .slip, .length]
          · obtain ⟨y, hy, hw, hb⟩ := (oksar_accepts s o.1 hmem o.2 _).1 hc
            have : x = y := Val.float.inj hw
            subst this
            exact hb.resolve_left (hn o List.mem_cons_self x hy)
          · simp only [List.mem_cons, List.not_mem_nil, or_false, not_or] at hmem
            revert hmem
            cases o.1 <;> simp [OAttr.Bound]
      · rw [setO_other _ _ _ fun h' => hoa (setSlotO_injective h')] at hax
        exact hs _ _ hax
  by_cases hV : a = .V
  · subst hV; trivial
  have hslot : a.getSlot = a.setSlot := by cases a <;> simp [OAttr.getSlot, OAttr.setSlot] at hV ⊢
  refine hinv ops (fun _ => none) h (fun _ _ h => by simp at h) a x ?_
  unfold OAttr.get Slots.read at hx
  rw [hslot] at hx
  split at hx
  · rename_i v hv
    simp only [Except.ok.injEq] at hx
    rw [hv, hx]
  · simp at hx

/-- **C63 fails for NaN**: it is accepted by every check. -/
theorem oksar_nan_accepted (s : Slots D) (a : OAttr)
    (ha : a ∈ [OAttr.depth_top, .strike, .dip, .rake, .slip, .length]) :
    (OAttr.set s (a, .obj (.num .nan))).2 = none ∧
      a.get (OAttr.set s (a, .obj (.num .nan))).1 = .ok (.float .nan) ∧ ¬ a.Bound .nan := by
  have h := (oksar_accepts s a ha (.obj (.num .nan)) (.float .nan)).2 ⟨.nan, rfl, rfl, .inl rfl⟩
  have hs : OAttr.set s (a, .obj (.num .nan)) = (s.write a.setSlot (.float .nan), none) := by simp [OAttr.set, h]
  rw [hs]
  refine ⟨rfl, ?_, ?_⟩
  · simp only [List.mem_cons, List.not_mem_nil, or_false] at ha
    rcases ha with rfl | rfl | rfl | rfl | rfl | rfl <;> simp [OAttr.get, OAttr.getSlot, OAttr.setSlot, Slots.read, Slots.write]
  · simp only [List.mem_cons, List.not_mem_nil, or_false] at ha
    rcases ha with rfl | rfl | rfl | rfl | rfl | rfl <;> simp [OAttr.Bound]

/-- The two depths are readable numbers in the right order. -/
def DepthOrder (s : Slots D) : Prop :=
  ∃ t b : PyFloat, OAttr.get .depth_top s = .ok (.float t) ∧ OAttr.get .depth_bottom s = .ok (.float b) ∧ t ≤ b

/-- **C63 fails for the order of the depths**: raising `depth_top` above `depth_bottom` is accepted. -/
theorem oksar_depth_order_breaks (s : Slots D) (b : ℝ) (hb : 0 ≤ b)
    (h : OAttr.get .depth_bottom s = .ok (.float (.fin b))) :
    (OAttr.set s (.depth_top, .obj (.num (.fin (b + 1))))).2 = none ∧
      ¬ DepthOrder (OAttr.set s (.depth_top, .obj (.num (.fin (b + 1))))).1 := by
  have hacc := (oksar_accepts s .depth_top (by simp) (.obj (.num (.fin (b + 1)))) (.float (.fin (b + 1)))).2
    ⟨.fin (b + 1), rfl, rfl, .inr (by simp only [OAttr.Bound, PyFloat.fin_le_fin]; linarith)⟩
  have hs : OAttr.set s (.depth_top, .obj (.num (.fin (b + 1)))) =
      (s.write "_depth_top" (.float (.fin (b + 1))), none) := by
    simp [OAttr.set, hacc, OAttr.setSlot]
  rw [hs]
  refine ⟨rfl, ?_⟩
  rintro ⟨t, b', ht, hb', hle⟩
  have h1 : t = .fin (b + 1) := by
    simp [OAttr.get, OAttr.getSlot, Slots.read, Slots.write] at ht
    exact ht.symm
  have h2 : b' = .fin b := by
    have : OAttr.get .depth_bottom (s.write "_depth_top" (.float (.fin (b + 1)))) = OAttr.get .depth_bottom s := by
      simp [OAttr.get, OAttr.getSlot, Slots.read, Slots.write]
    rw [this, h] at hb'
    simpa using hb'.symm
  rw [h1, h2, PyFloat.fin_le_fin] at hle
  linarith

/-- The order of the depths survives every history that leaves `depth_top` alone and assigns no NaN to `depth_bottom`. -/
theorem oksar_depth_order_partial (s : Slots D) (h : DepthOrder s) (ops : List (OAttr × Arg D))
    (hn : ∀ o ∈ ops, o.1 = .depth_bottom → ∀ x, toFloatVal o.2 = .ok x → x ≠ .nan)
    (ht : ∀ o ∈ ops, o.1 ≠ .depth_top) : DepthOrder (runOps OAttr.set s ops) := by
  induction ops generalizing s with
  | nil => exact h
  | cons o ops ih =>
    refine ih _ ?_ (fun o' ho' => hn o' (List.mem_cons_of_mem _ ho')) fun o' ho' => ht o' (List.mem_cons_of_mem _ ho')
    change DepthOrder (OAttr.set s o).1
    obtain ⟨t, b, h1, h2, h3⟩ := h
    have hget : ∀ a : OAttr, a.getSlot ≠ o.1.setSlot → OAttr.get a (OAttr.set s o).1 = OAttr.get a s := by
      intro a ha
      unfold OAttr.get Slots.read
      rw [setO_other _ _ _ ha.symm]
    have hne := ht o List.mem_cons_self
    have htop : OAttr.get .depth_top (OAttr.set s o).1 = .ok (.float t) := by
      rw [hget, h1]
      intro h'
      exact hne (setSlotO_injective (show OAttr.setSlot .depth_top = _ from h')).symm
    by_cases hb : o.1 = .depth_bottom
    · obtain ⟨a, v⟩ := o
      simp only at hb
      subst hb
      cases hv : toFloatVal v with
      | error e =>
        have : OAttr.set s (.depth_bottom, v) = (s, some e) := by simp [OAttr.set, OAttr.convert, hv]
        rw [this]
        exact ⟨t, b, h1, h2, h3⟩
      | ok x =>
        by_cases hx : x < t
        · have : OAttr.set s (.depth_bottom, v) = (s, some .valueError) := by
            simp [OAttr.set, OAttr.convert, hv, h1, hx]
          rw [this]
          exact ⟨t, b, h1, h2, h3⟩
        · have : OAttr.set s (.depth_bottom, v) = (s.write "_depth_bottom" (.float x), none) := by
            simp [OAttr.set, OAttr.convert, hv, h1, hx, OAttr.setSlot]
          refine ⟨t, x, htop, ?_, ?_⟩
          · rw [this]; simp [OAttr.get, OAttr.getSlot, Slots.read, Slots.write]
          · have htn : t ≠ .nan := by rintro rfl; simp at h3
            exact PyFloat.le_of_not_lt (hn _ List.mem_cons_self rfl x hv) htn hx
    · refine ⟨t, b, htop, ?_, h3⟩
      rw [hget, h2]
      intro h'
      exact hb (setSlotO_injective (show OAttr.setSlot .depth_bottom = _ from h')).symm

theorem assignAllO_ok {ops : List (OAttr × Arg D)} {s t : Slots D} (h : assignAllO ops s = (t, none)) :
    t = runOps OAttr.set s ops := by
  induction ops generalizing s with
  | nil => simp [assignAllO] at h; exact h.symm
  | cons o ops ih =>
    simp only [assignAllO] at h
    rcases hs : OAttr.set s o with ⟨s', _ | e⟩
    · rw [hs] at h
      have := ih h
      change t = runOps OAttr.set (OAttr.set s o).1 ops
      rw [hs]; exact this
    · rw [hs] at h
      simp [SetResult.andThen] at h

/-- Objects are built by assigning every attribute once, in source order, so the theorems about histories from the empty
object apply to every history of a constructed one. -/
theorem newOksar_is_history (given : OAttr → Option (Arg D)) (s : Slots D) (h : newOksar given = .ok s) :
    ∃ ops : List (OAttr × Arg D), s = runOps OAttr.set (fun _ => none) ops ∧
      ops.map Prod.fst = [.O, .U, .V, .center, .depth_top, .depth_bottom, .strike, .dip, .rake, .slip, .length, .beta, .mu,
        .shape] ∧
      ∀ o ∈ ops, o.2 = (given o.1).getD (OAttr.default o.1) := by
  unfold newOksar at h
  split at h
  · simp at h
  · simp only at h
    split at h
    · rename_i t ht
      simp only [Except.ok.injEq] at h
      subst h
      refine ⟨_, assignAllO_ok ht, by simp, by simp⟩
    · simp at h

theorem assignAllO_append {l₁ l₂ : List (OAttr × Arg D)} {s t : Slots D}
    (h : assignAllO (l₁ ++ l₂) s = (t, none)) : ∃ r, assignAllO l₁ s = (r, none) ∧ assignAllO l₂ r = (t, none) := by
  induction l₁ generalizing s with
  | nil => exact ⟨s, rfl, h⟩
  | cons o l ih =>
    simp only [List.cons_append, assignAllO] at h ⊢
    rcases hs : OAttr.set s o with ⟨s', _ | e⟩
    · rw [hs] at h
      simpa [SetResult.andThen] using ih h
    · rw [hs] at h
      simp [SetResult.andThen] at h

theorem setO_ok {s t : Slots D} {o : OAttr × Arg D} (h : OAttr.set s o = (t, none)) :
    ∃ v, o.1.convert s o.2 = .ok v ∧ t = s.write o.1.setSlot v := by
  unfold OAttr.set at h
  split at h
  · simp at h
  · rename_i v hv
    exact ⟨v, hv, (Prod.mk.inj h).1.symm⟩

/-- A constructed `Oksar` has its depths in order unless one of them was NaN. -/
theorem newOksar_depth_order (given : OAttr → Option (Arg D)) (s : Slots D) (h : newOksar given = .ok s)
    (hn : ∀ a ∈ [OAttr.depth_top, .depth_bottom], ∀ v, given a = some v → ∀ x, toFloatVal v = .ok x → x ≠ .nan) :
    DepthOrder s := by
  have hdef : ∀ a ∈ [OAttr.depth_top, .depth_bottom], ∀ x, toFloatVal ((given a).getD (OAttr.default a)) = .ok x →
      x ≠ .nan := by
    intro a ha x hx
    cases hg : given a with
    | some v => rw [hg] at hx; exact hn a ha v hg x hx
    | none =>
      rw [hg] at hx
      simp only [List.mem_cons, List.not_mem_nil, or_false] at ha
      rcases ha with rfl | rfl
      · simp [OAttr.default, toFloatVal, Obj.toFloat] at hx
      · simp only [Option.getD_none, OAttr.default, toFloatVal, Obj.toFloat, Except.ok.injEq] at hx
        rw [← hx]; simp
  unfold newOksar at h
  split at h
  · simp at h
  · simp only at h
    split at h
    · rename_i t ht
      simp only [Except.ok.injEq] at h
      subst h
      set arg : OAttr → OAttr × Arg D := fun a => (a, (given a).getD (OAttr.default a)) with harg
      have hlist : ([.O, .U, .V, .center, .depth_top, .depth_bottom, .strike, .dip, .rake, .slip, .length, .beta, .mu,
          .shape] : List OAttr).map arg = [.O, .U, .V, .center].map arg ++ ([arg .depth_top] ++ ([arg .depth_bottom] ++
            [.strike, .dip, .rake, .slip, .length, .beta, .mu, .shape].map arg)) := rfl
      rw [hlist] at ht
      obtain ⟨s1, _, h2⟩ := assignAllO_append ht
      obtain ⟨s2, h3, h4⟩ := assignAllO_append h2
      obtain ⟨s3, h5, h6⟩ := assignAllO_append h4
      have hone : ∀ (o : OAttr × Arg D) (s r : Slots D), assignAllO [o] s = (r, none) → OAttr.set s o = (r, none) := by
        intro o s r hr
        simp only [assignAllO] at hr
        rcases hs : OAttr.set s o with ⟨s', _ | e⟩ <;> rw [hs] at hr <;> simp [SetResult.andThen] at hr ⊢
        exact hr
      obtain ⟨v, hv, rfl⟩ := setO_ok (hone _ _ _ h3)
      obtain ⟨w, hw, rfl⟩ := setO_ok (hone _ _ _ h5)
      obtain ⟨x, hx, rfl, hxb⟩ := (oksar_accepts s1 .depth_top (by simp) _ v).1 hv
      have hxn := hdef .depth_top (by simp) x hx
      have htop : OAttr.get .depth_top (s1.write "_depth_top" (.float x)) = .ok (.float x) := by
        simp [OAttr.get, OAttr.getSlot, Slots.read, Slots.write]
      have hbot : ∃ y, toFloatVal (arg .depth_bottom).2 = .ok y ∧ w = .float y ∧ ¬ y < x := by
        cases hy : toFloatVal (arg .depth_bottom).2 with
        | error e =>
          have : OAttr.convert (s1.write "_depth_top" (.float x)) .depth_bottom (arg .depth_bottom).2 = .error e := by
            simp [OAttr.convert, hy]
          exact absurd (this.symm.trans hw) (by simp)
        | ok y =>
          have hc : OAttr.convert (s1.write "_depth_top" (.float x)) .depth_bottom (arg .depth_bottom).2 =
              if y < x then .error .valueError else .ok (.float y) := by
            simp only [OAttr.convert, hy, htop]
          have := hc.symm.trans hw
          by_cases hlt : y < x
          · simp [hlt] at this
          · simp only [hlt, if_false, Except.ok.injEq] at this
            exact ⟨y, rfl, this.symm, hlt⟩
      obtain ⟨y, hy, rfl, hyx⟩ := hbot
      rw [assignAllO_ok h6]
      refine oksar_depth_order_partial _ ⟨x, y, ?_, ?_, ?_⟩ _ ?_ ?_
      · simp [harg, OAttr.get, OAttr.getSlot, OAttr.setSlot, Slots.read, Slots.write]
      · simp [harg, OAttr.get, OAttr.getSlot, OAttr.setSlot, Slots.read, Slots.write]
      · exact PyFloat.le_of_not_lt (hdef .depth_bottom (by simp) y hy) hxn hyx
      · simp [harg]
      · simp [harg]
    · simp at h

/-- A two-entry sequence. -/
noncomputable def pair (x y : ℝ) : Obj := .seq (NArr.ofList [.fin x, .fin y] .nan)

omit [FloatGrammar] [Conversions D] in
theorem toPair_pair [FloatGrammar] (e : PyErr) (x y : ℝ) :
    ∃ a, toPair e (.obj (pair x y) : Arg D) = .ok (.array a) ∧ pairOf a = (.fin x, .fin y) := by
  refine ⟨(NArr.ofList [.fin x, .fin y] .nan).squeeze, ?_, ?_⟩
  · simp [toPair, toArray, pair, Obj.asFloatArray, NArr.squeeze, NArr.ofList]
  · simp [pairOf, NArr.squeeze, NArr.ofList, NArr.unsqueezeIndex]

theorem assignAllO_step {a : OAttr} {v : Arg D} {w : Val D} {l : List (OAttr × Arg D)} {s : Slots D}
    (h : a.convert s v = .ok w) (hl : ∃ t, assignAllO l (s.write a.setSlot w) = (t, none)) :
    ∃ t, assignAllO ((a, v) :: l) s = (t, none) := by
  obtain ⟨t, ht⟩ := hl
  refine ⟨t, ?_⟩
  have : OAttr.set s (a, v) = (s.write a.setSlot w, none) := by simp only [OAttr.set, h]
  rw [assignAllO, this]
  exact ht

omit [Conversions D] in
theorem floatUnless_num {bad : PyFloat → Prop} {x : PyFloat} (h : ¬ bad x) :
    floatUnless bad (.obj (.num x) : Arg D) = .ok (.float x) := by
  simp [floatUnless, toFloatVal, Obj.toFloat, h]

omit [FloatGrammar] in
theorem default_shape_accepted : ∃ w, toShapeArray (OAttr.default .shape : Arg D) = .ok w := by
  have : (∀ i, InShape [2] i → (truncInt ((NArr.ofList [.fin 300, .fin 300] PyFloat.nan).get i)).isSome = true) := by
    intro i hi
    rcases i with _ | ⟨k, _ | ⟨l, i⟩⟩
    · cases hi
    · simp only [InShape, List.forall₂_cons, List.forall₂_nil_right_iff, and_true] at hi
      rcases k with _ | _ | k
      · simp [NArr.ofList, truncInt]
      · simp [NArr.ofList, truncInt]
      · omega
    · simp [InShape] at hi
  simp only [OAttr.default, toShapeArray]
  rw [if_pos ⟨this, by simp [NArr.ofList]⟩]
  exact ⟨_, rfl⟩

/-- The arguments of a small fault, with default fault parameters. -/
noncomputable def exampleFault : OAttr → Option (Arg D)
  | .O => some (.obj (pair 0 0))
  | .U => some (.obj (pair 1 0))
  | .V => some (.obj (pair 0 1))
  | .center => some (.obj (pair 2 3))
  | .depth_top => some (.obj (.num (.fin 100)))
  | _ => none

/-- An `Oksar` that can be constructed. -/
theorem oksar_example : ∃ s : Slots D, newOksar exampleFault = .ok s := by
  obtain ⟨a1, h1, _⟩ := toPair_pair (D := D) .valueError 0 0
  obtain ⟨a2, h2, _⟩ := toPair_pair (D := D) .valueError 1 0
  obtain ⟨a3, h3, _⟩ := toPair_pair (D := D) .valueError 0 1
  obtain ⟨a4, h4, _⟩ := toPair_pair (D := D) .valueError 2 3
  obtain ⟨w, h6⟩ := default_shape_accepted (D := D)
  have f_depth_top : ∀ s : Slots D, OAttr.convert s .depth_top (.obj (.num (.fin 100))) = .ok (.float (.fin 100)) := by
    intro s; simp only [OAttr.convert]; exact floatUnless_num (by norm_num)
  have f_strike : ∀ s : Slots D, OAttr.convert s .strike (.obj (.num (.fin 0))) = .ok (.float (.fin 0)) := by
    intro s; simp only [OAttr.convert]; exact floatUnless_num (by norm_num)
  have f_dip : ∀ s : Slots D, OAttr.convert s .dip (.obj (.num (.fin 45))) = .ok (.float (.fin 45)) := by
    intro s; simp only [OAttr.convert]; exact floatUnless_num (by norm_num)
  have f_rake : ∀ s : Slots D, OAttr.convert s .rake (.obj (.num (.fin 90))) = .ok (.float (.fin 90)) := by
    intro s; simp only [OAttr.convert]; exact floatUnless_num (by norm_num)
  have f_slip : ∀ s : Slots D, OAttr.convert s .slip (.obj (.num (.fin 0.5))) = .ok (.float (.fin 0.5)) := by
    intro s; simp only [OAttr.convert]; exact floatUnless_num (by norm_num)
  have f_length : ∀ s : Slots D, OAttr.convert s .length (.obj (.num (.fin 1e4))) = .ok (.float (.fin 1e4)) := by
    intro s; simp only [OAttr.convert]; exact floatUnless_num (by norm_num)
  have key : ∃ t : Slots D, assignAllO ([OAttr.O, .U, .V, .center, .depth_top, .depth_bottom, .strike, .dip, .rake, .slip,
      .length, .beta, .mu, .shape].map fun a => (a, (exampleFault a).getD (OAttr.default a))) (fun _ => none) =
      (t, none) := by
    refine assignAllO_step (w := .array a1) h1 ?_
    refine assignAllO_step (w := .array a2) h2 ?_
    refine assignAllO_step (w := .array a3) h3 ?_
    refine assignAllO_step (w := .array a4) h4 ?_
    refine assignAllO_step (w := .float (.fin 100)) (f_depth_top _) ?_
    generalize hs : Slots.write _ OAttr.depth_top.setSlot (.float (.fin 100)) = s
    have ht : OAttr.get .depth_top s = .ok (.float (.fin 100)) := by
      rw [← hs]; simp [OAttr.get, OAttr.getSlot, OAttr.setSlot, Slots.read, Slots.write]
    have hd : OAttr.convert s .depth_bottom (.obj (.num (.fin 1e4))) = .ok (.float (.fin 1e4)) := by
      have c2 : ¬ (1e4 : ℝ) < 100 := by norm_num
      simp only [OAttr.convert, toFloatVal, Obj.toFloat, ht, PyFloat.fin_lt_fin, c2, if_false]
    refine assignAllO_step (w := .float (.fin 1e4)) hd ?_
    refine assignAllO_step (w := .float (.fin 0)) (f_strike _) ?_
    refine assignAllO_step (w := .float (.fin 45)) (f_dip _) ?_
    refine assignAllO_step (w := .float (.fin 90)) (f_rake _) ?_
    refine assignAllO_step (w := .float (.fin 0.5)) (f_slip _) ?_
    refine assignAllO_step (w := .float (.fin 1e4)) (f_length _) ?_
    refine assignAllO_step (w := .float (.fin 3e10)) rfl ?_
    refine assignAllO_step (w := .float (.fin 3e10)) rfl ?_
    exact assignAllO_step (w := w) h6 ⟨_, rfl⟩
  obtain ⟨t, ht⟩ := key
  refine ⟨t, ?_⟩
  unfold newOksar
  rw [if_neg (by simp [exampleFault])]
  simp only [ht]

/-- Its depths are in order. -/
example (s : Slots D) (h : newOksar exampleFault = .ok s) : DepthOrder s := by
  refine newOksar_depth_order _ s h ?_
  intro a ha v hv x hx
  simp only [List.mem_cons, List.not_mem_nil, or_false] at ha
  rcases ha with rfl | rfl
  · simp only [exampleFault, Option.some.injEq] at hv
    subst hv
    simp only [toFloatVal, Obj.toFloat, Except.ok.injEq] at hx
    rw [← hx]; simp
  · simp [exampleFault] at hv

/-! ## C64: the simulation grid -/

/-- **C64 fails**: `simulation_grid` raises `AttributeError` on every object, after every history. -/
theorem simulationGrid_always_raises (ops : List (OAttr × Arg D)) :
    simulationGrid (runOps OAttr.set (fun _ => none) ops) = .error .attributeError := by
  have hV := V_never_reads ops
  have hread : ∀ (a : OAttr) (s : Slots D) (e : PyErr), a.get s = .error e → e = .attributeError := by
    intro a s e h
    unfold OAttr.get Slots.read at h
    split at h <;> simp at h
    exact h.symm
  unfold simulationGrid
  cases h1 : OAttr.get .shape (runOps OAttr.set (fun _ => none) ops) with
  | error e => simp [hread _ _ _ h1]
  | ok sh =>
    cases h2 : OAttr.get .O (runOps OAttr.set (fun _ => none) ops) with
    | error e => simp [hread _ _ _ h2]
    | ok o =>
      cases h3 : OAttr.get .U (runOps OAttr.set (fun _ => none) ops) with
      | error e => simp [hread _ _ _ h3]
      | ok u => simp [hV]

omit [FloatGrammar] [Conversions D] in
/-- The formula itself, with `V` readable, mixes up rows and columns: position `k` holds `(O_x + U·(s,t), O_y + V·(s,t))`. -/
theorem gridOf_value (n m : ℕ) (ox oy ux uy vx vy : ℝ) :
    ∃ g, gridOf (n, m) (.fin ox, .fin oy) (.fin ux, .fin uy) (.fin vx, .fin vy) = .ok g ∧ g.shape = [m * n, 2] ∧
      ∀ k, g.get [k, 0] = .fin (ox + (ux * linspace01 n (k % n) + uy * linspace01 m (k / n))) ∧
        g.get [k, 1] = .fin (oy + (vx * linspace01 n (k % n) + vy * linspace01 m (k / n))) := by
  have h : ¬ ((n : ℤ) < 0 ∨ (m : ℤ) < 0) := by omega
  refine ⟨_, by simp only [gridOf, h, if_false]; rfl, by simp, fun k => ⟨?_, ?_⟩⟩ <;>
    simp [PyFloat.fin_mul_fin, PyFloat.fin_add_fin]

/-- The grid the property describes: `O + s U + t V`. -/
def SpansUV (n m : ℕ) (ox oy ux uy vx vy : ℝ) (g : NArr PyFloat) : Prop :=
  g.shape = [m * n, 2] ∧ ∀ i < n, ∀ j < m,
    g.get [j * n + i, 0] = .fin (ox + (i / (n - 1 : ℝ)) * ux + (j / (m - 1 : ℝ)) * vx) ∧
    g.get [j * n + i, 1] = .fin (oy + (i / (n - 1 : ℝ)) * uy + (j / (m - 1 : ℝ)) * vy)

omit [FloatGrammar] [Conversions D] in
/-- Even with `V` readable the grid spans `U` and `V` only if `U_y = V_x`, and then it does. -/
theorem grid_spans_iff (n m : ℕ) (hn : 2 ≤ n) (hm : 2 ≤ m) (ox oy ux uy vx vy : ℝ) (g : NArr PyFloat)
    (h : gridOf (n, m) (.fin ox, .fin oy) (.fin ux, .fin uy) (.fin vx, .fin vy) = .ok g) :
    SpansUV n m ox oy ux uy vx vy g ↔ uy = vx := by
  obtain ⟨g', hg, hsh, hval⟩ := gridOf_value n m ox oy ux uy vx vy
  rw [h] at hg
  simp only [Except.ok.injEq] at hg
  subst hg
  have hn0 : 0 < n := by omega
  have hi : ∀ i < n, ∀ j, (j * n + i) % n = i ∧ (j * n + i) / n = j := by
    intro i hi j
    constructor
    · rw [mul_comm, Nat.mul_add_mod, Nat.mod_eq_of_lt hi]
    · rw [mul_comm, Nat.mul_add_div hn0, Nat.div_eq_of_lt hi, add_zero]
  have hl : ∀ (N : ℕ), 2 ≤ N → ∀ i, linspace01 N i = i / (N - 1 : ℝ) := by
    intro N hN i
    have : N ≠ 1 := by omega
    simp only [linspace01, this, if_false]
    ring
  have hm1 : (m - 1 : ℝ) ≠ 0 := by
    have : (2 : ℝ) ≤ m := by exact_mod_cast hm
    linarith
  constructor
  · rintro ⟨_, hs⟩
    have := (hs 0 (by omega) (m - 1) (by omega)).1
    rw [(hval _).1, (hi 0 (by omega) (m - 1)).1, (hi 0 (by omega) (m - 1)).2, hl n hn, hl m hm] at this
    have hc : ((m - 1 : ℕ) : ℝ) = m - 1 := by rw [Nat.cast_sub (by omega)]; simp
    rw [hc] at this
    simp only [PyFloat.fin.injEq, CharP.cast_eq_zero, zero_div, mul_zero, zero_add, zero_mul, add_zero, div_self hm1,
      mul_one, one_mul] at this
    linarith
  · rintro rfl
    refine ⟨hsh, fun i hi' j hj' => ?_⟩
    rw [(hval _).1, (hval _).2, (hi i hi' j).1, (hi i hi' j).2, hl n hn, hl m hm]
    exact ⟨by congr 1; ring, by congr 1; ring⟩

omit [FloatGrammar] [Conversions D] in
/-- The four corners when `U_y = V_x`: `O`, `O + U`, `O + V`, `O + U + V`. -/
theorem grid_corners_partial (n m : ℕ) (hn : 2 ≤ n) (hm : 2 ≤ m) (ox oy ux w vy : ℝ) (g : NArr PyFloat)
    (h : gridOf (n, m) (.fin ox, .fin oy) (.fin ux, .fin w) (.fin w, .fin vy) = .ok g) :
    (g.get [0, 0], g.get [0, 1]) = (.fin ox, .fin oy) ∧
    (g.get [n - 1, 0], g.get [n - 1, 1]) = (.fin (ox + ux), .fin (oy + w)) ∧
    (g.get [(m - 1) * n, 0], g.get [(m - 1) * n, 1]) = (.fin (ox + w), .fin (oy + vy)) ∧
    (g.get [(m - 1) * n + (n - 1), 0], g.get [(m - 1) * n + (n - 1), 1]) =
      (.fin (ox + ux + w), .fin (oy + w + vy)) := by
  obtain ⟨_, hs⟩ := (grid_spans_iff n m hn hm ox oy ux w w vy g h).2 rfl
  have hm1 : (m - 1 : ℝ) ≠ 0 := by
    have : (2 : ℝ) ≤ m := by exact_mod_cast hm
    linarith
  have hn1 : (n - 1 : ℝ) ≠ 0 := by
    have : (2 : ℝ) ≤ n := by exact_mod_cast hn
    linarith
  have hcm : ((m - 1 : ℕ) : ℝ) = m - 1 := by rw [Nat.cast_sub (by omega)]; simp
  have hcn : ((n - 1 : ℕ) : ℝ) = n - 1 := by rw [Nat.cast_sub (by omega)]; simp
  have h00 := hs 0 (by omega) 0 (by omega)
  have h10 := hs (n - 1) (by omega) 0 (by omega)
  have h01 := hs 0 (by omega) (m - 1) (by omega)
  have h11 := hs (n - 1) (by omega) (m - 1) (by omega)
  simp only [hcm, hcn, div_self hm1, div_self hn1, CharP.cast_eq_zero, zero_div, zero_mul, add_zero, one_mul,
    zero_add] at h00 h10 h01 h11
  exact ⟨by rw [h00.1, h00.2], by rw [h10.1, h10.2], by rw [h01.1, h01.2], by rw [h11.1, h11.2]⟩

end Verif.Earthquake
