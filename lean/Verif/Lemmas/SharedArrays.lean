import Verif.Spec.SharedArrays

/-!
# Lemmas about shared arrays
-/

namespace Verif.SharedArrays

theorem Attr.keeps_of {a : Attr} (h : a.copies = false) : a.Keeps := by
  cases a <;> simp_all [Attr.copies, Attr.Keeps]

theorem Attr.copies_of_not_keeps {a : Attr} (h : ¬ a.Keeps) : a.copies = true := by
  cases a <;> simp_all [Attr.copies, Attr.Keeps]

/-- All addresses in use are below the next free one. -/
structure Bounded (w : World) : Prop where
  arrays : ∀ p ∈ w.arrays, p < w.heap.next
  slots : ∀ (j : ℕ) (o : Object) (b : Attr) (q : ℕ), w.objects[j]? = some o → o.slot b = some q → q < w.heap.next

/-- Array `p` belongs to attribute `a` of object `i` and to nobody else. -/
structure Owns (w : World) (i : ℕ) (a : Attr) (p : ℕ) : Prop where
  slot : (w.objects[i]?).bind (fun o => o.slot a) = some p
  arrays : p ∉ w.arrays
  slots : ∀ (j : ℕ) (o : Object) (b : Attr), w.objects[j]? = some o → o.slot b = some p → j = i ∧ b = a

/-- What a setter does to the memory. -/
structure Stored (arrays : List ℕ) (h : Heap) (o : Object) (a : Attr) (x : Arg) (h' : Heap) (o' : Object) (p : ℕ) :
    Prop where
  cls : o'.cls = o.cls
  slot : ∀ b, o'.slot b = if b = a then some p else o.slot b
  le : h.next ≤ h'.next
  old : ∀ q, q < h.next → h'.cell q = h.cell q
  origin : (p = h.next ∧ p < h'.next) ∨ (h' = h ∧ a.copies = false ∧ ∃ k, x = .array k ∧ arrays[k]? = some p)
  content : x.content h arrays = some (h'.cell p)
  accepts : a.Accepts (h'.cell p)
  source : a = .electrode → o'.source = h'.cell p ∧ o'.image = flipLast (h'.cell p)
  source_old : a ≠ .electrode → o'.source = o.source ∧ o'.image = o.image

theorem store_spec {arrays : List ℕ} {h h' : Heap} {o o' : Object} {a : Attr} {x : Arg}
    (hs : store arrays h o a x = some (h', o')) : ∃ p, Stored arrays h o a x h' o' p := by
  unfold store at hs
  cases hc : convert h arrays a x with
  | none => simp [hc] at hs
  | some ph =>
    obtain ⟨p, g⟩ := ph
    simp only [hc] at hs
    by_cases hacc : a.Accepts (g.cell p)
    · have key : h.next ≤ g.next ∧ (∀ q, q < h.next → g.cell q = h.cell q) ∧
          ((p = h.next ∧ p < g.next) ∨ (g = h ∧ a.copies = false ∧ ∃ k, x = .array k ∧ arrays[k]? = some p)) ∧
          x.content h arrays = some (g.cell p) := by
        cases x with
        | fresh v =>
          simp only [convert, Heap.alloc, Option.some.injEq, Prod.mk.injEq] at hc
          obtain ⟨rfl, rfl⟩ := hc
          refine ⟨by simp, fun q hq => by simp [hq.ne], .inl ⟨rfl, by simp⟩, by simp [Arg.content]⟩
        | array k =>
          simp only [convert] at hc
          cases hk : arrays[k]? with
          | none => simp [hk] at hc
          | some q =>
            simp only [hk] at hc
            by_cases hcp : a.copies = true
            · simp only [hcp, if_true, Heap.alloc, Option.some.injEq, Prod.mk.injEq] at hc
              obtain ⟨rfl, rfl⟩ := hc
              refine ⟨by simp, fun r hr => by simp [hr.ne], .inl ⟨rfl, by simp⟩, by simp [Arg.content, hk]⟩
            · simp only [hcp, Bool.false_eq_true, if_false, Option.some.injEq, Prod.mk.injEq] at hc
              obtain ⟨rfl, rfl⟩ := hc
              exact ⟨le_rfl, fun _ _ => rfl, .inr ⟨rfl, by simpa using hcp, k, rfl, hk⟩, by simp [Arg.content, hk]⟩
      obtain ⟨k1, k2, k3, k4⟩ := key
      simp only [hacc, if_true] at hs
      by_cases he : a = .electrode
      · simp only [he, if_true, Option.some.injEq, Prod.mk.injEq] at hs
        obtain ⟨rfl, rfl⟩ := hs
        subst he
        exact ⟨p, rfl, fun _ => rfl, k1, k2, k3, k4, hacc, fun _ => ⟨rfl, rfl⟩, fun h => absurd rfl h⟩
      · simp only [he, if_false, Option.some.injEq, Prod.mk.injEq] at hs
        obtain ⟨rfl, rfl⟩ := hs
        exact ⟨p, rfl, fun _ => rfl, k1, k2, k3, k4, hacc, fun h => absurd h he, fun _ => ⟨rfl, rfl⟩⟩
    · simp [hacc] at hs

/-- A setter succeeds exactly when the contents of its argument are acceptable. -/
theorem store_none {arrays : List ℕ} {h : Heap} {o : Object} {a : Attr} {x : Arg} {v : Data}
    (hv : x.content h arrays = some v) (hacc : a.Accepts v) : store arrays h o a x ≠ none := by
  have : ∃ p g, convert h arrays a x = some (p, g) ∧ g.cell p = v := by
    cases x with
    | fresh u =>
      simp only [Arg.content, Option.some.injEq] at hv
      exact ⟨_, _, rfl, by simp [hv]⟩
    | array k =>
      simp only [Arg.content, Option.map_eq_some_iff] at hv
      obtain ⟨p, hp, rfl⟩ := hv
      by_cases hc : a.copies = true
      · exact ⟨_, _, by simp only [convert, hp, hc, if_true]; rfl, by simp⟩
      · exact ⟨p, h, by simp [convert, hp, hc], rfl⟩
  obtain ⟨p, g, hc, rfl⟩ := this
  simp only [store, hc, hacc, if_true]
  split <;> simp

/-- What a constructor does to the memory. -/
structure Built (arrays : List ℕ) (h : Heap) (o : Object) (l : List Attr) (h' : Heap) (o' : Object) : Prop where
  cls : o'.cls = o.cls
  le : h.next ≤ h'.next
  old : ∀ q, q < h.next → h'.cell q = h.cell q
  rest : ∀ b, b ∉ l → o'.slot b = o.slot b
  slots : ∀ b ∈ l, ∃ p, o'.slot b = some p ∧ ((h.next ≤ p ∧ p < h'.next) ∨ p ∈ arrays)

theorem storeAll_spec {arrays : List ℕ} {args : Attr → Arg} {l : List Attr} (hl : l.Nodup) {h h' : Heap} {o o' : Object}
    (hs : storeAll arrays args l h o = some (h', o')) : Built arrays h o l h' o' := by
  induction l generalizing h o with
  | nil =>
    simp only [storeAll, Option.some.injEq, Prod.mk.injEq] at hs
    obtain ⟨rfl, rfl⟩ := hs
    exact ⟨rfl, le_rfl, fun _ _ => rfl, fun _ _ => rfl, by simp⟩
  | cons a l ih =>
    simp only [storeAll] at hs
    cases h1 : store arrays h o a (args a) with
    | none => simp [h1] at hs
    | some r =>
      obtain ⟨g, u⟩ := r
      simp only [h1] at hs
      obtain ⟨hal, hl⟩ := List.nodup_cons.mp hl
      obtain ⟨p, s⟩ := store_spec h1
      have t := ih hl hs
      refine ⟨t.cls.trans s.cls, s.le.trans t.le, fun q hq => (t.old q (hq.trans_le s.le)).trans (s.old q hq), ?_, ?_⟩
      · intro b hb
        rw [List.mem_cons, not_or] at hb
        rw [t.rest b hb.2, s.slot b, if_neg hb.1]
      · intro b hb
        rcases List.mem_cons.mp hb with rfl | hb
        · refine ⟨p, by rw [t.rest b hal, s.slot b, if_pos rfl], ?_⟩
          rcases s.origin with ⟨e, e'⟩ | ⟨_, _, k, _, hk⟩
          · exact .inl ⟨e.ge, e'.trans_le t.le⟩
          · exact .inr (List.mem_of_getElem? hk)
        · obtain ⟨q, hq, hq'⟩ := t.slots b hb
          refine ⟨q, hq, hq'.imp_left fun e => ⟨s.le.trans e.1, e.2⟩⟩

theorem attrs_nodup (c : Cls) : c.attrs.Nodup := by cases c <;> decide

theorem bounded_init : Bounded World.init := ⟨by simp [World.init], by simp [World.init]⟩

theorem step_bounded (w : World) (hw : Bounded w) (o : Op) : Bounded (step w o) := by
  cases o with
  | array v =>
    refine ⟨?_, ?_⟩
    · intro p hp
      simp only [step, Heap.alloc, List.mem_append, List.mem_singleton] at hp ⊢
      rcases hp with hp | rfl
      · exact (hw.arrays p hp).trans (by simp)
      · simp
    · intro j o b q hj hb
      exact (hw.slots j o b q hj hb).trans (by simp [step, Heap.alloc])
  | write k v =>
    simp only [step]
    split
    · split
      · exact ⟨hw.arrays, hw.slots⟩
      · exact hw
    · exact hw
  | build c args =>
    simp only [step]
    split
    · exact hw
    · rename_i h u hs
      split
      · have t := storeAll_spec (attrs_nodup c) hs
        refine ⟨fun p hp => (hw.arrays p hp).trans_le t.le, ?_⟩
        intro j o b q hj hb
        simp only [] at hj ⊢
        rw [List.getElem?_append] at hj
        split at hj
        · exact (hw.slots j o b q hj hb).trans_le t.le
        · obtain rfl := List.mem_singleton.mp (List.mem_of_getElem? hj)
          by_cases hm : b ∈ c.attrs
          · obtain ⟨p, hp, hp'⟩ := t.slots b hm
            rw [hp, Option.some.injEq] at hb
            subst hb
            exact hp'.elim (fun e => e.2) fun e => (hw.arrays p e).trans_le t.le
          · rw [t.rest b hm] at hb
            simp at hb
      · exact hw
  | assign i a x =>
    simp only [step]
    split
    · exact hw
    · rename_i o hi
      split
      · split
        · exact hw
        · rename_i h u hs
          obtain ⟨p, s⟩ := store_spec hs
          refine ⟨fun p hp => (hw.arrays p hp).trans_le s.le, ?_⟩
          intro j o' b q hj hb
          simp only [List.getElem?_set] at hj ⊢
          split at hj
          · split at hj
            · rw [Option.some.injEq] at hj
              subst hj
              rw [s.slot b] at hb
              split at hb
              · rw [Option.some.injEq] at hb
                subst hb
                rcases s.origin with ⟨_, e⟩ | ⟨rfl, _, k, _, hk⟩
                · exact e
                · exact hw.arrays p (List.mem_of_getElem? hk)
              · exact (hw.slots i o b q hi hb).trans_le s.le
            · simp at hj
          · exact (hw.slots j o' b q hj hb).trans_le s.le
      · exact hw
  | get i a =>
    simp only [step]
    split
    · rename_i p hp
      refine ⟨?_, hw.slots⟩
      intro q hq
      simp only [List.mem_append, List.mem_singleton] at hq ⊢
      rcases hq with hq | rfl
      · exact hw.arrays q hq
      · obtain ⟨o, ho, hb⟩ := Option.bind_eq_some_iff.mp hp
        exact hw.slots i o a q ho hb
    · exact hw

theorem run_bounded (w : World) (hw : Bounded w) (ops : List Op) : Bounded (run w ops) := by
  induction ops generalizing w with
  | nil => exact hw
  | cons o ops ih => exact ih _ (step_bounded w hw o)

/-- A setter of another attribute leaves an owned array to its owner. -/
theorem stored_ne {arrays : List ℕ} {h h' : Heap} {o o' : Object} {a : Attr} {x : Arg} {p q : ℕ}
    (s : Stored arrays h o a x h' o' p) (hq : q ∉ arrays) (hn : q < h.next) : p ≠ q := by
  rintro rfl
  rcases s.origin with ⟨e, _⟩ | ⟨_, _, k, _, hk⟩
  · omega
  · exact hq (List.mem_of_getElem? hk)

theorem slot_mem {o : Object} {a : Attr} {p : ℕ} (hc : ∀ b, (o.slot b).isSome ↔ b ∈ o.cls.attrs)
    (h : o.slot a = some p) : a ∈ o.cls.attrs := (hc a).mp (by simp [h])

/-- The attributes of an object are those of its class. -/
def Typed (w : World) : Prop := ∀ (j : ℕ) (o : Object), w.objects[j]? = some o → ∀ b, (o.slot b).isSome ↔ b ∈ o.cls.attrs

theorem step_typed (w : World) (hw : Typed w) (o : Op) : Typed (step w o) := by
  cases o with
  | array v => exact hw
  | write k v =>
    simp only [step]
    split
    · split
      · exact hw
      · exact hw
    · exact hw
  | get i a =>
    simp only [step]
    split
    · exact hw
    · exact hw
  | build c args =>
    simp only [step]
    split
    · exact hw
    · rename_i h u hs
      split
      · intro j o hj b
        have t := storeAll_spec (attrs_nodup c) hs
        simp only [] at hj
        rw [List.getElem?_append] at hj
        split at hj
        · exact hw j o hj b
        · obtain rfl := List.mem_singleton.mp (List.mem_of_getElem? hj)
          rw [t.cls]
          by_cases hm : b ∈ c.attrs
          · obtain ⟨p, hp, -⟩ := t.slots b hm
            simp [hp, hm]
          · simp [t.rest b hm, hm]
      · exact hw
  | assign i a x =>
    simp only [step]
    split
    · exact hw
    · rename_i o hi
      split
      · rename_i ha
        split
        · exact hw
        · rename_i h u hs
          obtain ⟨p, s⟩ := store_spec hs
          intro j o' hj b
          simp only [List.getElem?_set] at hj
          split at hj
          · split at hj
            · rw [Option.some.injEq] at hj
              subst hj
              rw [s.slot b, s.cls]
              split
              · rename_i hb
                simp [hb, ha]
              · exact hw i o hi b
            · simp at hj
          · exact hw j o' hj b
      · exact hw

theorem run_typed (w : World) (hw : Typed w) (ops : List Op) : Typed (run w ops) := by
  induction ops generalizing w with
  | nil => exact hw
  | cons o ops ih => exact ih _ (step_typed w hw o)

theorem typed_init : Typed World.init := by simp [Typed, World.init]

/-- An operation that does not expose an owned array leaves it owned, and changes it only by assignment. -/
theorem step_owns {w : World} (hw : Bounded w) (ht : Typed w) {i : ℕ} {a : Attr} {p : ℕ} (hp : Owns w i a p) {o : Op}
    (ho : ¬ o.Exposes i a) :
    ∃ q, Owns (step w o) i a q ∧ (step w o).heap.cell q = assigned i a w (w.heap.cell p) o := by
  obtain ⟨ob, hob, hsl⟩ := Option.bind_eq_some_iff.mp hp.slot
  have hpn : p < w.heap.next := hw.slots i ob a p hob hsl
  have hil : i < w.objects.length := (List.getElem?_eq_some_iff.mp hob).1
  cases o with
  | array v =>
    refine ⟨p, ⟨hp.slot, ?_, hp.slots⟩, by simp [step, Heap.alloc, assigned, hpn.ne]⟩
    simp only [step, Heap.alloc, List.mem_append, List.mem_singleton, not_or]
    exact ⟨hp.arrays, hpn.ne⟩
  | write k v =>
    simp only [step]
    split
    · rename_i q hq
      split
      · have hne : p ≠ q := fun e => hp.arrays (e ▸ List.mem_of_getElem? hq)
        exact ⟨p, ⟨hp.slot, hp.arrays, hp.slots⟩, by simp [Heap.write, assigned, hne]⟩
      · exact ⟨p, hp, rfl⟩
    · exact ⟨p, hp, rfl⟩
  | get j b =>
    simp only [step]
    split
    · rename_i q hq
      refine ⟨p, ⟨hp.slot, ?_, hp.slots⟩, rfl⟩
      simp only [List.mem_append, List.mem_singleton, not_or]
      refine ⟨hp.arrays, ?_⟩
      rintro rfl
      obtain ⟨o', ho', hb'⟩ := Option.bind_eq_some_iff.mp hq
      exact ho (hp.slots j o' b ho' hb')
    · exact ⟨p, hp, rfl⟩
  | build c args =>
    simp only [step]
    split
    · exact ⟨p, hp, rfl⟩
    · rename_i h u hs
      split
      · have t := storeAll_spec (attrs_nodup c) hs
        refine ⟨p, ⟨?_, hp.arrays, ?_⟩, t.old p hpn⟩
        · simp only []
          rw [List.getElem?_append_left hil]
          exact hp.slot
        · intro j o b hj hb
          simp only [] at hj
          rw [List.getElem?_append] at hj
          split at hj
          · exact hp.slots j o b hj hb
          · obtain rfl := List.mem_singleton.mp (List.mem_of_getElem? hj)
            exfalso
            by_cases hm : b ∈ c.attrs
            · obtain ⟨q, hq, hq'⟩ := t.slots b hm
              rw [hq, Option.some.injEq] at hb
              subst hb
              rcases hq' with e | e
              · omega
              · exact hp.arrays e
            · rw [t.rest b hm] at hb
              simp at hb
      · exact ⟨p, hp, rfl⟩
  | assign j b x =>
    by_cases hji : j = i ∧ b = a
    · obtain ⟨rfl, rfl⟩ := hji
      have hmem : b ∈ ob.cls.attrs := slot_mem (ht j ob hob) hsl
      simp only [step, hob, hmem, if_true]
      cases hs : store w.arrays w.heap ob b x with
      | none =>
        refine ⟨p, hp, ?_⟩
        simp only [assigned]
        split
        · rename_i v hv
          rw [if_neg]
          rintro ⟨-, -, hacc⟩
          exact store_none hv hacc hs
        · rfl
      | some r =>
        obtain ⟨h, u⟩ := r
        obtain ⟨q, s⟩ := store_spec hs
        have hq : q = w.heap.next ∧ q < h.next := by
          rcases s.origin with e | ⟨_, hc, k, rfl, _⟩
          · exact e
          · exact absurd ⟨rfl, rfl, Attr.keeps_of hc⟩ ho
        refine ⟨q, ⟨?_, ?_, ?_⟩, ?_⟩
        · simp [hil, s.slot b]
        · intro hq'
          exact absurd (hw.arrays q hq') (by omega)
        · intro j' o' b' hj' hb'
          simp only [List.getElem?_set] at hj'
          split at hj'
          · rename_i hjj
            rw [Option.some.injEq] at hj'
            subst hj'
            rw [s.slot b'] at hb'
            split at hb'
            · rename_i hbb
              exact ⟨hjj.symm, hbb⟩
            · exact absurd (hw.slots j ob b' q hob hb') (by omega)
          · exact absurd (hw.slots j' o' b' q hj' hb') (by omega)
        · simp [assigned, s.content, s.accepts]
    · have hass : assigned i a w (w.heap.cell p) (.assign j b x) = w.heap.cell p := by
        simp only [assigned]
        split
        · rw [if_neg]
          exact fun e => hji ⟨e.1, e.2.1⟩
        · rfl
      rw [hass]
      simp only [step]
      split
      · exact ⟨p, hp, rfl⟩
      · rename_i oj hj
        split
        · split
          · exact ⟨p, hp, rfl⟩
          · rename_i h u hs
            obtain ⟨q, s⟩ := store_spec hs
            have hne : q ≠ p := stored_ne s hp.arrays hpn
            refine ⟨p, ⟨?_, hp.arrays, ?_⟩, s.old p hpn⟩
            · simp only [List.getElem?_set]
              by_cases hjj : j = i
              · subst hjj
                rw [hob, Option.some.injEq] at hj
                subst hj
                have hb : a ≠ b := fun e => hji ⟨rfl, e.symm⟩
                simp [hil, s.slot a, hb, hsl]
              · simpa [hjj] using hp.slot
            · intro j' o' b' hj' hb'
              simp only [List.getElem?_set] at hj'
              split at hj'
              · rename_i hjj
                split at hj'
                · rw [Option.some.injEq] at hj'
                  subst hj'
                  rw [s.slot b'] at hb'
                  split at hb'
                  · exact absurd (Option.some.inj hb') hne
                  · exact hjj ▸ hp.slots j oj b' hj hb'
                · simp at hj'
              · exact hp.slots j' o' b' hj' hb'
        · exact ⟨p, hp, rfl⟩

/-- Memory that the caller does not hold is never overwritten. -/
theorem step_cell {w : World} {p : ℕ} (hn : p < w.heap.next) (ha : p ∉ w.arrays) (o : Op) :
    (step w o).heap.cell p = w.heap.cell p := by
  cases o with
  | array v => simp [step, Heap.alloc, hn.ne]
  | write k v =>
    simp only [step]
    split
    · rename_i q hq
      split
      · have hne : p ≠ q := fun e => ha (e ▸ List.mem_of_getElem? hq)
        simp [Heap.write, hne]
      · rfl
    · rfl
  | get j b =>
    simp only [step]
    split <;> rfl
  | build c args =>
    simp only [step]
    split
    · rfl
    · rename_i h u hs
      split
      · exact (storeAll_spec (attrs_nodup c) hs).old p hn
      · rfl
  | assign j b x =>
    simp only [step]
    split
    · rfl
    · split
      · split
        · rfl
        · rename_i h u hs
          obtain ⟨q, s⟩ := store_spec hs
          exact s.old p hn
      · rfl

/-- The source and the image of a point current move only when its location is assigned. -/
theorem step_source {w : World} {i : ℕ} {ob : Object} (hob : w.objects[i]? = some ob) (o : Op) :
    ∃ ob', (step w o).objects[i]? = some ob' ∧
      ((ob'.source = ob.source ∧ ob'.image = ob.image ∧ ob'.slot .electrode = ob.slot .electrode) ∨
        ∃ p, ob'.slot .electrode = some p ∧ ob'.source = (step w o).heap.cell p ∧
          ob'.image = flipLast ((step w o).heap.cell p)) := by
  have hil : i < w.objects.length := (List.getElem?_eq_some_iff.mp hob).1
  cases o with
  | array v => exact ⟨ob, hob, .inl ⟨rfl, rfl, rfl⟩⟩
  | write k v =>
    refine ⟨ob, ?_, .inl ⟨rfl, rfl, rfl⟩⟩
    simp only [step]
    split
    · split <;> exact hob
    · exact hob
  | get j b =>
    refine ⟨ob, ?_, .inl ⟨rfl, rfl, rfl⟩⟩
    simp only [step]
    split <;> exact hob
  | build c args =>
    refine ⟨ob, ?_, .inl ⟨rfl, rfl, rfl⟩⟩
    simp only [step]
    split
    · exact hob
    · split
      · simp only []
        rw [List.getElem?_append_left hil]
        exact hob
      · exact hob
  | assign j b x =>
    simp only [step]
    split
    · exact ⟨ob, hob, .inl ⟨rfl, rfl, rfl⟩⟩
    · rename_i oj hj
      split
      · split
        · exact ⟨ob, hob, .inl ⟨rfl, rfl, rfl⟩⟩
        · rename_i h u hs
          obtain ⟨q, s⟩ := store_spec hs
          by_cases hji : j = i
          · subst hji
            rw [hob, Option.some.injEq] at hj
            subst hj
            refine ⟨u, by simp [hil], ?_⟩
            by_cases hb : b = .electrode
            · exact .inr ⟨q, by rw [s.slot, if_pos hb.symm], (s.source hb).1, (s.source hb).2⟩
            · exact .inl ⟨(s.source_old hb).1, (s.source_old hb).2, by rw [s.slot, if_neg (Ne.symm hb)]⟩
          · exact ⟨ob, by simpa [List.getElem?_set, hji] using hob, .inl ⟨rfl, rfl, rfl⟩⟩
      · exact ⟨ob, hob, .inl ⟨rfl, rfl, rfl⟩⟩

theorem content_mono {arrays : List ℕ} {h g : Heap} (ha : ∀ p ∈ arrays, p < h.next)
    (hc : ∀ q, q < h.next → g.cell q = h.cell q) (x : Arg) : x.content g arrays = x.content h arrays := by
  cases x with
  | fresh v => rfl
  | array k =>
    simp only [Arg.content]
    cases hk : arrays[k]? with
    | none => rfl
    | some p => simp [hc p (ha p (List.mem_of_getElem? hk))]

/-- An attribute that a constructor fills with new memory is the only one that holds it. -/
theorem storeAll_fresh {arrays : List ℕ} {args : Attr → Arg} {l : List Attr} (hl : l.Nodup) {h h' : Heap} {o o' : Object}
    (ha : ∀ p ∈ arrays, p < h.next) (hn : ∀ b q, o.slot b = some q → q < h.next)
    (hs : storeAll arrays args l h o = some (h', o')) {a : Attr} (hal : a ∈ l)
    (hf : a.copies = true ∨ ∃ v, args a = .fresh v) :
    ∃ p, o'.slot a = some p ∧ h.next ≤ p ∧ (∀ b, o'.slot b = some p → b = a) ∧
      (args a).content h arrays = some (h'.cell p) ∧ a.Accepts (h'.cell p) := by
  induction l generalizing h o with
  | nil => simp at hal
  | cons b l ih =>
    simp only [storeAll] at hs
    cases h1 : store arrays h o b (args b) with
    | none => simp [h1] at hs
    | some r =>
      obtain ⟨g, u⟩ := r
      simp only [h1] at hs
      obtain ⟨hbl, hl⟩ := List.nodup_cons.mp hl
      obtain ⟨p, s⟩ := store_spec h1
      have t := storeAll_spec hl hs
      by_cases hab : a = b
      · subst hab
        have hp : p = h.next ∧ p < g.next := by
          rcases s.origin with e | ⟨_, hc, k, hk, _⟩
          · exact e
          · rcases hf with hf | ⟨v, hv⟩
            · simp [hc] at hf
            · simp [hv] at hk
        refine ⟨p, by rw [t.rest a hbl, s.slot a, if_pos rfl], hp.1.ge, ?_, ?_, ?_⟩
        · intro c hc
          by_contra hca
          by_cases hcl : c ∈ l
          · obtain ⟨q, hq, hq'⟩ := t.slots c hcl
            rw [hq, Option.some.injEq] at hc
            subst hc
            rcases hq' with e | e
            · omega
            · exact absurd (ha q e) (by omega)
          · rw [t.rest c hcl, s.slot c, if_neg hca] at hc
            exact absurd (hn c p hc) (by omega)
        · rw [t.old p hp.2]
          exact s.content
        · rw [t.old p hp.2]
          exact s.accepts
      · have hal : a ∈ l := (List.mem_cons.mp hal).resolve_left hab
        obtain ⟨q, q1, q2, q3, q4, q5⟩ := ih hl (fun p hp => (ha p hp).trans_le s.le) (by
          intro c q hc
          rw [s.slot c] at hc
          split at hc
          · rw [Option.some.injEq] at hc
            subst hc
            rcases s.origin with ⟨_, e⟩ | ⟨rfl, _, k, _, hk⟩
            · exact e
            · exact ha p (List.mem_of_getElem? hk)
          · exact (hn c q hc).trans_le s.le) hs hal
        exact ⟨q, q1, s.le.trans q2, q3, by rw [← content_mono ha s.old, q4], q5⟩

/-- The arrays of a new object that come from copies are its own. -/
theorem built_owns {w : World} (hb : Bounded w) {c : Cls} {args : Attr → Arg} {a : Attr} (ha : a ∈ c.attrs) {v : Data}
    (hv : (args a).content w.heap w.arrays = some v) (hf : a.copies = true ∨ ∃ u, args a = .fresh u)
    (hlen : (step w (.build c args)).objects.length = w.objects.length + 1) :
    ∃ p, Owns (step w (.build c args)) w.objects.length a p ∧ (step w (.build c args)).heap.cell p = v ∧ a.Accepts v := by
  simp only [step] at hlen ⊢
  split at hlen
  · simp at hlen
  · rename_i h o hs
    split at hlen
    · rename_i hcomp
      obtain ⟨p, p1, p2, p3, p4, p5⟩ := storeAll_fresh (attrs_nodup c) hb.arrays (by simp) hs ha hf
      rw [hv, Option.some.injEq] at p4
      simp only [hcomp, if_true]
      refine ⟨p, ⟨by simp [p1], fun hp => absurd (hb.arrays p hp) (by omega), ?_⟩, p4.symm, p4 ▸ p5⟩
      intro j o' b hj hb'
      simp only [] at hj
      rw [List.getElem?_append] at hj
      split at hj
      · exact absurd (hb.slots j o' b p hj hb') (by omega)
      · rename_i hjl
        obtain ⟨hj', -⟩ := List.getElem?_eq_some_iff.mp hj
        obtain rfl := List.mem_singleton.mp (List.mem_of_getElem? hj)
        simp only [List.length_singleton] at hj'
        exact ⟨by omega, p3 b hb'⟩
    · simp at hlen

theorem run_append (w : World) (l m : List Op) : run w (l ++ m) = run (run w l) m := List.foldl_append

end Verif.SharedArrays
