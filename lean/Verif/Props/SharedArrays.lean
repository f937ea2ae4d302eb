import Verif.Lemmas.SharedArrays
import Mathlib.Tactic.NormNum

/-!
# C146: an object changes only when one of its attributes is assigned

False of the code for every array attribute: six of them keep a float array that the caller passes, and the getters of
all of them return the stored array itself.  `changes_only_by_assignment_partial` proves it for the attributes that copy
their argument, and for the others as long as they are given something that numpy has to convert, if nobody takes the
array out with the getter.
-/

namespace Verif.SharedArrays

/-! ## What the code does -/

/-- A prism built from two float arrays turns inside out when the caller overwrites one of them: no exception is raised,
although the constructor rejects such a prism. -/
theorem prism_turns_inside_out :
    let w := run World.init [.array [0, 0, 0], .array [1, 1, 1],
      .build .prism (fun a => if a = .minLocation then .array 0 else .array 1), .write 0 [.fin 2, .fin 2, .fin 2]]
    w.read 0 .minLocation = some [.fin 2, .fin 2, .fin 2] ∧ w.read 0 .maxLocation = some [1, 1, 1] ∧
      (step w (.build .prism fun a => if a = .minLocation then .array 0 else .array 1)).objects.length =
        w.objects.length := by
  simp [run, step, storeAll, store, convert, Heap.alloc, Heap.write, World.init, World.read, Cls.attrs,
    Attr.copies, Attr.Accepts, Complete]

/-- A frequency or a time becomes negative without an exception, when the array from which it was set is overwritten. -/
theorem frequency_and_time_turn_negative :
    let w := run World.init [.array [1, .fin 10], .build .harmonic (fun _ => .array 0),
      .build .transient (fun _ => .array 0), .write 0 [.fin (-1), .fin 10]]
    w.read 0 .frequency = some [.fin (-1), .fin 10] ∧ ¬ Attr.Accepts .frequency [.fin (-1), .fin 10] ∧
      w.read 1 .time = some [.fin (-1), .fin 10] ∧ ¬ Attr.Accepts .time [.fin (-1), .fin 10] := by
  simp [run, step, storeAll, store, convert, Heap.alloc, Heap.write, World.init, World.read, Cls.attrs,
    Attr.copies, Attr.Accepts, Complete]

/-- Two masses placed at the same float array move together, and with the array. -/
theorem masses_move_together (u v : Data) (hu : u.length = 3) (hv : v.length = 3) :
    let w := run World.init [.array u, .build .pointMass (fun _ => .array 0), .build .pointMass (fun _ => .array 0),
      .get 0 .massLocation, .write 1 v]
    w.read 0 .massLocation = some v ∧ w.read 1 .massLocation = some v ∧ w.array 0 = some v := by
  simp [run, step, storeAll, store, convert, Heap.alloc, Heap.write, World.init, World.read, World.array, Cls.attrs,
    Attr.copies, Attr.Accepts, Complete, hu, hv]

theorem grown_iff (P : Prop) {_ : Decidable P} (w : World) (h : Heap) (o : Object) :
    (if P then (⟨h, w.arrays, w.objects ++ [o]⟩ : World) else w).objects.length = w.objects.length + 1 ↔ P := by
  split <;> simp_all

/-- **C146.** An object comes into being exactly if every one of its setters accepts what it is given and, for prisms, every
coordinate of the upper corner is above that of the lower one: boxes without volume are refused. -/
theorem built_iff (w : World) (c : Cls) (val : Attr → Data) :
    (step w (.build c fun a => .fresh (val a))).objects.length = w.objects.length + 1 ↔
      (∀ a ∈ c.attrs, a.Accepts (val a)) ∧
        (c = .prism ∨ c = .magneticPrism → ∀ xy ∈ (val .maxLocation).zip (val .minLocation), ¬ xy.1 ≤ xy.2) := by
  cases c
  · by_cases h0 : Attr.Accepts .massLocation (val .massLocation) <;>
    simp [step, storeAll, store, convert, Heap.alloc, Cls.attrs, Complete, h0]
  · by_cases h0 : Attr.Accepts .minLocation (val .minLocation) <;>
    by_cases h1 : Attr.Accepts .maxLocation (val .maxLocation) <;>
    simp [step, storeAll, store, convert, Heap.alloc, Cls.attrs, Complete, h0, h1]
    exact (grown_iff _ _ _ _).trans (by simp)
  · by_cases h0 : Attr.Accepts .magnetization (val .magnetization) <;>
    by_cases h1 : Attr.Accepts .minLocation (val .minLocation) <;>
    by_cases h2 : Attr.Accepts .maxLocation (val .maxLocation) <;>
    simp [step, storeAll, store, convert, Heap.alloc, Cls.attrs, Complete, h0, h1, h2]
    exact (grown_iff _ _ _ _).trans (by simp)
  · by_cases h0 : Attr.Accepts .frequency (val .frequency) <;>
    simp [step, storeAll, store, convert, Heap.alloc, Cls.attrs, Complete, h0]
  · by_cases h0 : Attr.Accepts .time (val .time) <;>
    simp [step, storeAll, store, convert, Heap.alloc, Cls.attrs, Complete, h0]
  · by_cases h0 : Attr.Accepts .electrode (val .electrode) <;>
    simp [step, storeAll, store, convert, Heap.alloc, Cls.attrs, Complete, h0]
  · by_cases h0 : Attr.Accepts .primaryField (val .primaryField) <;>
    by_cases h1 : Attr.Accepts .sphereLocation (val .sphereLocation) <;>
    simp [step, storeAll, store, convert, Heap.alloc, Cls.attrs, Complete, h0, h1]
  · by_cases h0 : Attr.Accepts .thickness (val .thickness) <;>
    by_cases h1 : Attr.Accepts .layeredFrequency (val .layeredFrequency) <;>
    simp [step, storeAll, store, convert, Heap.alloc, Cls.attrs, Complete, h0, h1]

/-- Writing to the array returned by `location` lifts a point current above the surface: no exception is raised, the
attribute shows the new position, and the source and its image stay where they were. -/
theorem electrode_leaves_the_ground :
    let w := run World.init [.build .pointCurrentHalfSpace (fun _ => .fresh [0, 0, .fin (-1)]), .get 0 .electrode,
      .write 0 [0, 0, .fin 5]]
    w.read 0 .electrode = some [0, 0, .fin 5] ∧ ¬ Attr.Accepts .electrode [0, 0, .fin 5] ∧
      (w.objects[0]?).map (fun o => (o.source, o.image)) = some ([0, 0, .fin (-1)], [0, 0, .fin 1]) := by
  simp [run, step, storeAll, store, convert, Heap.alloc, Heap.write, World.init, World.read, Cls.attrs,
    Attr.Accepts, Complete, flipLast]
  change PyFloat.fin (-1 * -1) = _
  norm_num

/-- A class that has the attribute. -/
def owner : Attr → Cls
  | .massLocation => .pointMass
  | .minLocation => .prism
  | .maxLocation => .prism
  | .magnetization => .magneticPrism
  | .frequency => .harmonic
  | .time => .transient
  | .electrode => .pointCurrentHalfSpace
  | .primaryField => .staticSphere
  | .sphereLocation => .staticSphere
  | .layeredFrequency => .layered
  | .thickness => .layered

/-- The property fails for every array attribute, because every getter returns the stored array. -/
theorem not_changesOnlyByAssignment (a : Attr) : ¬ ChangesOnlyByAssignment a := by
  intro h
  have := h [] (owner a) (fun b => if b = .maxLocation then .fresh [1, 1, 1] else .fresh [0, 0, 0])
    [.get 0 a, .write 0 [.fin 2, .fin 2, .fin 2]] (if a = .maxLocation then [1, 1, 1] else [0, 0, 0])
    (by cases a <;> simp [owner, Cls.attrs]) (by cases a <;> simp [Arg.content])
  revert this
  cases a <;> simp [owner, run, step, storeAll, store, convert, Heap.alloc, Heap.write, World.init, World.read, Cls.attrs,
    Attr.Accepts, Complete, expected, assigned]

/-- The attributes that keep a float array change with it, even if nobody uses the getter: this is so for the six that use
`np.asarray`. -/
theorem kept_attributes_follow_the_callers_array (a : Attr) (ha : a.Keeps) :
    ∃ (before : List Op) (args : Attr → Arg) (v : Data), (∀ i b, Op.get i b ∉ before) ∧
      let w := run World.init (before ++ [.build (owner a) args])
      w.objects.length = 1 ∧ w.read 0 a ≠ some v ∧ (step w (.write 0 v)).read 0 a = some v := by
  refine ⟨[.array (if a = .maxLocation then [1, 1, 1] else [0, 0, 0])], fun b => if b = a then .array 0 else
    if b = .maxLocation then .fresh [1, 1, 1] else .fresh [0, 0, 0], [.fin 2, .fin 2, .fin 2], by simp, ?_⟩
  cases a <;> simp [Attr.Keeps] at ha <;> simp [owner, run, step, storeAll, store, convert, Heap.alloc, Heap.write,
    World.init, World.read, Cls.attrs, Attr.Accepts, Complete, Attr.copies]

/-! ## What holds -/

/-- **An attribute changes only by assignment**, to the value assigned, and only if the setter accepts it, whatever the caller
does with its own arrays and with other attributes and objects — if the attribute copies its argument or is never given a
float array, and if nobody takes its array out with the getter.  What is missing is exactly these two conditions: see
`not_changesOnlyByAssignment` and `kept_attributes_follow_the_callers_array`. -/
theorem changes_only_by_assignment_partial (before : List Op) (c : Cls) (args : Attr → Arg) (after : List Op) (v : Data)
    (a : Attr) (ha : a ∈ c.attrs)
    (hv : (args a).content (run World.init before).heap (run World.init before).arrays = some v)
    (hf : ¬ a.Keeps ∨ ∃ u, args a = .fresh u) :
    let i := (run World.init before).objects.length
    let w := run World.init (before ++ [.build c args])
    w.objects.length = i + 1 → (∀ o ∈ after, ¬ o.Exposes i a) →
    (run w after).read i a = some (expected i a w v after) ∧ a.Accepts (expected i a w v after) := by
  intro i w hlen hafter
  have hb := run_bounded _ bounded_init before
  have ht := run_typed _ typed_init before
  have hw : w = step (run World.init before) (.build c args) := by simp only [w, run_append]; rfl
  obtain ⟨p, hp, hpv, hacc⟩ : ∃ p, Owns w i a p ∧ w.heap.cell p = v ∧ a.Accepts v := by
    rw [hw] at hlen ⊢
    exact built_owns hb ha hv (hf.imp_left Attr.copies_of_not_keeps) hlen
  have hbw : Bounded w := hw ▸ step_bounded _ hb _
  have htw : Typed w := hw ▸ step_typed _ ht _
  clear_value w
  clear hw hlen hv
  induction after generalizing w p v with
  | nil =>
    refine ⟨?_, hacc⟩
    obtain ⟨o, ho, hs⟩ := Option.bind_eq_some_iff.mp hp.slot
    simp [run, World.read, ho, hs, expected, hpv]
  | cons o after ih =>
    obtain ⟨q, hq, hqv⟩ := step_owns hbw htw hp (hafter o (by simp))
    rw [hpv] at hqv
    refine ih _ (step w o) (fun o ho => hafter o (by simp [ho])) q hq hqv ?_ (step_bounded _ hbw _) (step_typed _ htw _)
    cases o with
    | assign j b x =>
      simp only [assigned]
      split
      · split
        · rename_i h
          exact h.2.2
        · exact hacc
      · exact hacc
    | _ => exact hacc

/-- **The source and the image of a point current in a half-space are at the location that the object shows**, and at its mirror
image, as long as nobody takes the location out with the getter. -/
theorem electrode_in_sync_partial (before : List Op) (args : Attr → Arg) (after : List Op) (v : Data)
    (hv : (args .electrode).content (run World.init before).heap (run World.init before).arrays = some v) :
    let i := (run World.init before).objects.length
    let w := run World.init (before ++ [.build .pointCurrentHalfSpace args])
    w.objects.length = i + 1 → (∀ o ∈ after, ¬ o.Exposes i .electrode) →
    ∃ o u, (run w after).objects[i]? = some o ∧ (run w after).read i .electrode = some u ∧ o.source = u ∧
      o.image = flipLast u := by
  intro i w hlen hafter
  have hb := run_bounded _ bounded_init before
  have ht := run_typed _ typed_init before
  have hw : w = step (run World.init before) (.build .pointCurrentHalfSpace args) := by simp only [w, run_append]; rfl
  obtain ⟨p, hp, ob, hob, hs, hi⟩ : ∃ p, Owns w i .electrode p ∧ ∃ ob, w.objects[i]? = some ob ∧
      ob.source = w.heap.cell p ∧ ob.image = flipLast (w.heap.cell p) := by
    rw [hw] at hlen ⊢
    obtain ⟨p, hp, -⟩ := built_owns hb (by simp [Cls.attrs]) hv (.inl rfl) hlen
    refine ⟨p, hp, ?_⟩
    obtain ⟨ob, hob, hsl⟩ := Option.bind_eq_some_iff.mp hp.slot
    refine ⟨ob, hob, ?_⟩
    simp only [step, Cls.attrs, storeAll] at hob hsl hlen ⊢
    cases h1 : store (run World.init before).arrays (run World.init before).heap
        ⟨.pointCurrentHalfSpace, fun _ => none, [], []⟩ .electrode (args .electrode) with
    | none => simp [h1, i] at hlen
    | some r =>
      obtain ⟨h, o⟩ := r
      obtain ⟨q, s⟩ := store_spec h1
      simp only [h1] at hob hlen ⊢
      split at hlen
      · rename_i hc
        simp only [hc, if_true, List.getElem?_concat_length, Option.some.injEq] at hob ⊢
        subst hob
        rw [s.slot, if_pos rfl, Option.some.injEq] at hsl
        subst hsl
        exact s.source rfl
      · simp [i] at hlen
  have hbw : Bounded w := hw ▸ step_bounded _ hb _
  have htw : Typed w := hw ▸ step_typed _ ht _
  clear_value w
  clear hw hlen hv
  induction after generalizing w p ob with
  | nil =>
    obtain ⟨o, ho, hsl⟩ := Option.bind_eq_some_iff.mp hp.slot
    rw [hob, Option.some.injEq] at ho
    subst ho
    exact ⟨ob, _, hob, by simp [run, World.read, hob, hsl], hs, hi⟩
  | cons o after ih =>
    obtain ⟨q, hq, -⟩ := step_owns hbw htw hp (hafter o (by simp))
    obtain ⟨ob', hob', hcase⟩ := step_source hob o
    obtain ⟨o1, ho1, hsl1⟩ := Option.bind_eq_some_iff.mp hq.slot
    rw [hob', Option.some.injEq] at ho1
    subst ho1
    obtain ⟨o2, ho2, hsl2⟩ := Option.bind_eq_some_iff.mp hp.slot
    rw [hob, Option.some.injEq] at ho2
    subst ho2
    have key : ob'.source = (step w o).heap.cell q ∧ ob'.image = flipLast ((step w o).heap.cell q) := by
      rcases hcase with ⟨c1, c2, c3⟩ | ⟨r, c1, c2, c3⟩
      · rw [hsl1, hsl2, Option.some.injEq] at c3
        subst c3
        rw [step_cell (hbw.slots i ob _ q hob hsl2) hp.arrays, c1, c2]
        exact ⟨hs, hi⟩
      · rw [hsl1, Option.some.injEq] at c1
        subst c1
        exact ⟨c2, c3⟩
    exact ih (step w o) (fun o ho => hafter o (by simp [ho])) q hq ob' hob' key.1 key.2 (step_bounded _ hbw _)
      (step_typed _ htw _)

/-- The hypotheses of the two theorems are met by a history in which the caller overwrites the array from which a point current
was built, moves the current, and takes a frequency out of another object. -/
example :
    let before : List Op := [.array [0, 0, .fin (-1)]]
    let args : Attr → Arg := fun _ => .array 0
    let after : List Op := [.write 0 [0, 0, .fin 5], .assign 0 .electrode (.fresh [0, 0, .fin (-2)]),
      .build .harmonic (fun _ => .fresh [1]), .get 1 .frequency, .assign 0 .electrode (.array 0)]
    let w := run World.init (before ++ [.build .pointCurrentHalfSpace args])
    (args .electrode).content (run World.init before).heap (run World.init before).arrays = some [0, 0, .fin (-1)] ∧
      w.objects.length = 1 ∧ (∀ o ∈ after, ¬ o.Exposes 0 .electrode) ∧
      (run w after).read 0 .electrode = some [0, 0, .fin (-2)] := by
  simp [run, step, storeAll, store, convert, Heap.alloc, Heap.write, World.init, World.read, Cls.attrs, Arg.content,
    Attr.copies, Attr.Keeps, Attr.Accepts, Complete, Op.Exposes]

end Verif.SharedArrays
