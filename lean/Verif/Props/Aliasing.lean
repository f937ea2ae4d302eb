import Verif.Model.Aliasing
import Verif.Props.WaveSetters

/-!
# C41: sharing between dipoles and the caller's arrays

The specification is a world without memory: every array and every attribute is a value, assignments copy.  The English
property says that the real world cannot be told apart from it.  It is false when float arrays are passed, and when a
default location is written to; it holds for every history that does neither.
-/

namespace Verif.Aliasing

open Verif.Setters PyFloat

/-- The value of an argument in the specification. -/
def Spec.value (arrays : List Vec3) : Arg → Option Vec3
  | .array k => arrays[k]?
  | .fresh v => some v

/-- The specification: the caller's arrays and, for each dipole, its location and orientation, all plain values. -/
structure Spec where
  arrays : List Vec3
  dipoles : List (Vec3 × Vec3)

/-- Assignments copy; an orientation is stored normalised; nothing else changes. -/
noncomputable def Spec.step (s : Spec) : Op → Spec
  | .array v => { s with arrays := s.arrays ++ [v] }
  | .write k v => { s with arrays := s.arrays.set k v }
  | .build loc ori =>
    match (match loc with | none => some ⟨.fin 0, .fin 0, .fin 0⟩ | some x => Spec.value s.arrays x),
      Spec.value s.arrays ori with
    | some l, some o => { s with dipoles := s.dipoles ++ [(l, o.normalized)] }
    | _, _ => s
  | .setLocation i x =>
    match s.dipoles[i]?, Spec.value s.arrays x with
    | some d, some l => { s with dipoles := s.dipoles.set i (l, d.2) }
    | _, _ => s
  | .setOrientation i x =>
    match s.dipoles[i]?, Spec.value s.arrays x with
    | some d, some o => { s with dipoles := s.dipoles.set i (d.1, o.normalized) }
    | _, _ => s
  | .writeLocation i v =>
    match s.dipoles[i]? with
    | some d => { s with dipoles := s.dipoles.set i (v, d.2) }
    | none => s

/-- What an observer of the real world sees. -/
def World.view (w : World) : Spec :=
  ⟨w.arrays.map w.heap.cell, w.dipoles.map fun d => (w.heap.cell d.location, w.heap.cell d.orientation)⟩

/-- The full English property: the two worlds agree after every history. -/
def SharingInvisible : Prop := ∀ ops, (run World.init ops).view = ops.foldl Spec.step ⟨[], []⟩

/-! ## Where it fails -/

section Failures

/-- **C41 fails, the setter modifies its argument**: after assigning the float array `[3, 0, 4]` as an orientation, the
caller's own array reads `[0.6, 0, 0.8]`. -/
theorem orientation_setter_modifies_argument :
    let w := run World.init [.array ⟨.fin 3, .fin 0, .fin 4⟩, .build none (.fresh ⟨.fin 1, .fin 0, .fin 0⟩),
      .setOrientation 0 (.array 0)]
    w.array 0 = some ⟨.fin (3 / 5), .fin 0, .fin (4 / 5)⟩ := by
  have h : (⟨.fin 3, .fin 0, .fin 4⟩ : Vec3).normalized = ⟨.fin (3 / 5), .fin 0, .fin (4 / 5)⟩ := by
    have h5 : Real.sqrt 25 = 5 := by
      rw [show (25 : ℝ) = 5 ^ 2 by norm_num]; exact Real.sqrt_sq (by norm_num)
    have hs : ¬ (25 : ℝ) < 0 := by norm_num
    simp only [Vec3.normalized, fin_mul_fin, fin_add_fin]
    norm_num [PyFloat.sqrt, h5, npDiv]
  simp [run, step, World.init, Heap.alloc, orientationSetter, asarray, World.array, Heap.write, h]

/-- **C41 fails, the object follows the caller's array**: a location assigned from a float array changes when the caller
writes to that array later. -/
theorem location_follows_callers_array (u v : Vec3) :
    let w := run World.init [.array u, .build none (.fresh ⟨.fin 1, .fin 0, .fin 0⟩), .setLocation 0 (.array 0)]
    w.location 0 = some u ∧ (step w (.write 0 v)).location 0 = some v := by
  simp [run, step, World.init, Heap.alloc, orientationSetter, locationSetter, asarray, World.location, Heap.write]

/-- **C41 fails, dipoles share the default location**: after writing to the location of one default-built dipole, another one
has moved, and so has every dipole built later. -/
theorem default_location_shared (v : Vec3) (o : Vec3) :
    let w := run World.init [.build none (.fresh o), .build none (.fresh o), .writeLocation 0 v, .build none (.fresh o)]
    w.location 1 = some v ∧ w.location 2 = some v := by
  simp [run, step, World.init, Heap.alloc, orientationSetter, asarray, World.location, Heap.write]

theorem not_sharingInvisible : ¬ SharingInvisible := by
  intro h
  have h1 := h [.array ⟨.fin 0, .fin 0, .fin 0⟩, .build none (.fresh ⟨.fin 1, .fin 0, .fin 0⟩), .setLocation 0 (.array 0),
    .write 0 ⟨.fin 1, .fin 0, .fin 0⟩]
  simp [run, step, World.init, Heap.alloc, orientationSetter, locationSetter, asarray, Heap.write, World.view, Spec.step,
    Spec.value] at h1

end Failures

/-! ## Where it holds -/

/-- The argument is not one of the caller's float arrays. -/
def Arg.IsFresh : Arg → Prop
  | .array _ => False
  | .fresh _ => True

/-- An operation that passes no float array of the caller's and does not write through an attribute. -/
def Op.Harmless : Op → Prop
  | .build loc ori => (∀ x, loc = some x → x.IsFresh) ∧ ori.IsFresh
  | .setLocation _ x => x.IsFresh
  | .setOrientation _ x => x.IsFresh
  | .writeLocation _ _ => False
  | _ => True

/-- The caller's arrays are distinct allocated addresses, none of which a dipole uses; the default location is intact. -/
structure Separated (w : World) : Prop where
  pos : 0 < w.heap.next
  default : w.heap.cell 0 = ⟨.fin 0, .fin 0, .fin 0⟩
  arrays : ∀ a ∈ w.arrays, 0 < a ∧ a < w.heap.next
  distinct : w.arrays.Nodup
  dipoles : ∀ d ∈ w.dipoles, (d.location < w.heap.next ∧ d.orientation < w.heap.next) ∧
    d.location ∉ w.arrays ∧ d.orientation ∉ w.arrays

theorem separated_init : Separated World.init := by
  constructor <;> simp [World.init]

theorem map_congr_mem {α β : Type} {l : List α} {f g : α → β} (h : ∀ a ∈ l, f a = g a) : l.map f = l.map g :=
  List.map_congr_left h

/-- Allocation leaves everything in use untouched. -/
theorem view_alloc (w : World) (hw : Separated w) (f : ℕ → Vec3) (hf : ∀ a, a < w.heap.next → f a = w.heap.cell a) :
    w.arrays.map f = w.arrays.map w.heap.cell ∧
      (w.dipoles.map fun d => (f d.location, f d.orientation)) =
        w.dipoles.map fun d => (w.heap.cell d.location, w.heap.cell d.orientation) := by
  constructor
  · exact List.map_congr_left fun a ha => hf a (hw.arrays a ha).2
  · refine List.map_congr_left fun d hd => ?_
    rw [hf _ (hw.dipoles d hd).1.1, hf _ (hw.dipoles d hd).1.2]

theorem harmless_step (w : World) (hw : Separated w) (o : Op) (ho : o.Harmless) :
    Separated (step w o) ∧ (step w o).view = Spec.step w.view o := by
  cases o with
  | array v =>
    have hc : ∀ a, a < w.heap.next → (fun a => if a = w.heap.next then v else w.heap.cell a) a = w.heap.cell a :=
      fun a ha => by simp [ha.ne]
    obtain ⟨h1, h2⟩ := view_alloc w hw _ hc
    constructor
    · refine ⟨by simp [step, Heap.alloc], ?_, ?_, ?_, ?_⟩
      · have := hc 0 hw.pos
        simp only [step, Heap.alloc]
        rw [← hw.default]; exact this
      · intro a ha
        simp only [step, Heap.alloc, List.mem_append, List.mem_singleton] at ha ⊢
        rcases ha with ha | rfl
        · have := hw.arrays a ha; exact ⟨this.1, by omega⟩
        · exact ⟨hw.pos, by omega⟩
      · simp only [step, Heap.alloc]
        rw [List.nodup_append]
        refine ⟨hw.distinct, by simp, ?_⟩
        rintro a ha b hb rfl
        simp only [List.mem_singleton] at hb
        have := (hw.arrays a ha).2
        omega
      · intro d hd
        have h := hw.dipoles d hd
        simp only [step, Heap.alloc, List.mem_append, List.mem_singleton, not_or] at hd ⊢
        exact ⟨⟨by omega, by omega⟩, ⟨h.2.1, by omega⟩, ⟨h.2.2, by omega⟩⟩
    · simp only [step, Heap.alloc, World.view, Spec.step, List.map_append, List.map_cons, List.map_nil, if_true]
      rw [h1, h2]
  | write k v =>
    cases hk : w.arrays[k]? with
    | none =>
      have hlen : w.arrays.length ≤ k := by simpa using hk
      refine ⟨by simpa [step, hk] using hw, ?_⟩
      simp only [step, hk, World.view, Spec.step]
      rw [List.set_eq_of_length_le (by simpa using hlen)]
    | some a =>
      obtain ⟨hlt, rfl⟩ := List.getElem?_eq_some_iff.1 hk
      have hmem : w.arrays[k] ∈ w.arrays := List.getElem_mem hlt
      have hpos := (hw.arrays _ hmem).1
      constructor
      · refine ⟨by simpa [step, hk, Heap.write] using hw.pos, ?_, ?_, ?_, ?_⟩
        · simp only [step, hk, Heap.write]
          rw [if_neg (by omega)]
          exact hw.default
        · simpa [step, hk, Heap.write] using hw.arrays
        · simpa [step, hk, Heap.write] using hw.distinct
        · simpa [step, hk, Heap.write] using hw.dipoles
      · simp only [step, hk, World.view, Spec.step, Heap.write]
        congr 1
        · apply List.ext_getElem
          · simp
          · intro j hj hj'
            simp only [List.length_map] at hj
            simp only [List.getElem_map, List.getElem_set]
            by_cases hkj : k = j
            · subst hkj; simp
            · have : w.arrays[j] ≠ w.arrays[k] := fun h => hkj ((hw.distinct.getElem_inj_iff.1 h).symm)
              simp [hkj, this]
        · refine List.map_congr_left fun d hd => ?_
          have h := (hw.dipoles d hd).2
          have h1 : d.location ≠ w.arrays[k] := fun h' => h.1 (h' ▸ hmem)
          have h2 : d.orientation ≠ w.arrays[k] := fun h' => h.2 (h' ▸ hmem)
          simp [h1, h2]
  | build loc ori =>
    obtain ⟨hl, hori⟩ := ho
    cases ori with
    | array k => exact absurd hori id
    | fresh o =>
      cases loc with
      | none =>
        have hc : ∀ a, a < w.heap.next →
            (fun b => if b = w.heap.next then o.normalized else if b = w.heap.next then o else w.heap.cell b) a =
              w.heap.cell a := fun a ha => by simp [ha.ne]
        obtain ⟨h1, h2⟩ := view_alloc w hw _ hc
        constructor
        · refine ⟨by simp [step, orientationSetter, asarray, Heap.alloc, Heap.write], ?_, ?_, ?_, ?_⟩
          · simp only [step, orientationSetter, asarray, Heap.alloc, Heap.write, Option.map_some, if_true]
            rw [← hw.default]; exact hc 0 hw.pos
          · intro a ha
            have := hw.arrays a ha
            simp only [step, orientationSetter, asarray, Heap.alloc, Heap.write, Option.map_some]
            omega
          · simpa [step, orientationSetter, asarray, Heap.alloc, Heap.write] using hw.distinct
          · intro d hd
            simp only [step, orientationSetter, asarray, Heap.alloc, Heap.write, Option.map_some, List.mem_append,
              List.mem_singleton] at hd ⊢
            rcases hd with hd | rfl
            · have h := hw.dipoles d hd
              exact ⟨⟨by omega, by omega⟩, h.2⟩
            · refine ⟨⟨hw.pos.trans (by omega), by simp⟩, fun h0 => ?_, fun h0 => ?_⟩
              · have := (hw.arrays _ h0).1; simp at this
              · have := (hw.arrays _ h0).2; simp at this
        · have hp := hc 0 hw.pos
          simp only [step, orientationSetter, asarray, Heap.alloc, Heap.write, Option.map_some, World.view, Spec.step,
            Spec.value, List.map_append, List.map_cons, List.map_nil, if_true]
          rw [h1, h2]
          simp only at hp
          rw [hp, hw.default]
      | some x =>
        cases x with
        | array k => exact absurd (hl _ rfl) id
        | fresh l =>
          have hc : ∀ a, a < w.heap.next →
              (fun b => if b = w.heap.next + 1 then o.normalized else if b = w.heap.next + 1 then o else
                if b = w.heap.next then l else w.heap.cell b) a = w.heap.cell a := fun a ha => by
            have h1 : a ≠ w.heap.next + 1 := by omega
            simp [ha.ne, h1]
          obtain ⟨h1, h2⟩ := view_alloc w hw _ hc
          constructor
          · refine ⟨by simp [step, orientationSetter, locationSetter, asarray, Heap.alloc, Heap.write], ?_, ?_, ?_, ?_⟩
            · simp only [step, orientationSetter, locationSetter, asarray, Heap.alloc, Heap.write, Option.map_some,
                if_true]
              rw [← hw.default]; exact hc 0 hw.pos
            · intro a ha
              have := hw.arrays a ha
              simp only [step, orientationSetter, locationSetter, asarray, Heap.alloc, Heap.write, Option.map_some]
              omega
            · simpa [step, orientationSetter, locationSetter, asarray, Heap.alloc, Heap.write] using hw.distinct
            · intro d hd
              simp only [step, orientationSetter, locationSetter, asarray, Heap.alloc, Heap.write, Option.map_some,
                List.mem_append, List.mem_singleton] at hd ⊢
              rcases hd with hd | rfl
              · have h := hw.dipoles d hd
                exact ⟨⟨by omega, by omega⟩, h.2⟩
              · refine ⟨⟨by simp only; omega, by simp only; omega⟩, fun h0 => ?_, fun h0 => ?_⟩
                · have := (hw.arrays _ h0).2; simp only at this; omega
                · have := (hw.arrays _ h0).2; simp only at this; omega
          · simp only [step, orientationSetter, locationSetter, asarray, Heap.alloc, Heap.write, Option.map_some,
              World.view, Spec.step, Spec.value, List.map_append, List.map_cons, List.map_nil, if_true]
            rw [h1, h2]
            simp
  | setLocation i x =>
    cases x with
    | array k => exact absurd ho id
    | fresh l =>
      cases hi : w.dipoles[i]? with
      | none =>
        refine ⟨by simpa [step, hi] using hw, ?_⟩
        simp [step, hi, World.view, Spec.step]
      | some d =>
        obtain ⟨hlt, rfl⟩ := List.getElem?_eq_some_iff.1 hi
        have hc : ∀ a, a < w.heap.next → (fun b => if b = w.heap.next then l else w.heap.cell b) a = w.heap.cell a :=
          fun a ha => by simp [ha.ne]
        obtain ⟨h1, h2⟩ := view_alloc w hw _ hc
        have hd0 := hw.dipoles _ (List.getElem_mem hlt)
        constructor
        · refine ⟨by simp [step, hi, locationSetter, asarray, Heap.alloc], ?_, ?_, ?_, ?_⟩
          · simp only [step, hi, locationSetter, asarray, Heap.alloc, Option.map_some]
            rw [← hw.default]; exact hc 0 hw.pos
          · intro a ha
            simp only [step, hi, locationSetter, asarray, Heap.alloc, Option.map_some] at ha ⊢
            have := hw.arrays a ha
            omega
          · simpa [step, hi, locationSetter, asarray, Heap.alloc] using hw.distinct
          · intro d hd
            simp only [step, hi, locationSetter, asarray, Heap.alloc, Option.map_some] at hd ⊢
            rcases List.mem_or_eq_of_mem_set hd with hd | rfl
            · have h := hw.dipoles d hd
              exact ⟨⟨by omega, by omega⟩, h.2⟩
            · refine ⟨⟨by simp, by simp only; omega⟩, fun h0 => ?_, hd0.2.2⟩
              have := (hw.arrays _ h0).2; simp at this
        · simp only [step, hi, locationSetter, asarray, Heap.alloc, Option.map_some, World.view, Spec.step, Spec.value,
            List.getElem?_map, List.map_set, if_true]
          rw [h1, h2]
          have := hc _ hd0.1.2
          simp only at this
          rw [this]
  | setOrientation i x =>
    cases x with
    | array k => exact absurd ho id
    | fresh o =>
      cases hi : w.dipoles[i]? with
      | none =>
        refine ⟨by simpa [step, hi] using hw, ?_⟩
        simp [step, hi, World.view, Spec.step]
      | some d =>
        obtain ⟨hlt, rfl⟩ := List.getElem?_eq_some_iff.1 hi
        have hc : ∀ a, a < w.heap.next →
            (fun b => if b = w.heap.next then o.normalized else if b = w.heap.next then o else w.heap.cell b) a =
              w.heap.cell a := fun a ha => by simp [ha.ne]
        obtain ⟨h1, h2⟩ := view_alloc w hw _ hc
        have hd0 := hw.dipoles _ (List.getElem_mem hlt)
        constructor
        · refine ⟨by simp [step, hi, orientationSetter, asarray, Heap.alloc, Heap.write], ?_, ?_, ?_, ?_⟩
          · simp only [step, hi, orientationSetter, asarray, Heap.alloc, Heap.write, Option.map_some, if_true]
            rw [← hw.default]; exact hc 0 hw.pos
          · intro a ha
            simp only [step, hi, orientationSetter, asarray, Heap.alloc, Heap.write, Option.map_some] at ha ⊢
            have := hw.arrays a ha
            omega
          · simpa [step, hi, orientationSetter, asarray, Heap.alloc, Heap.write] using hw.distinct
          · intro d hd
            simp only [step, hi, orientationSetter, asarray, Heap.alloc, Heap.write, Option.map_some] at hd ⊢
            rcases List.mem_or_eq_of_mem_set hd with hd | rfl
            · have h := hw.dipoles d hd
              exact ⟨⟨by omega, by omega⟩, h.2⟩
            · refine ⟨⟨by simp only; omega, by simp⟩, hd0.2.1, fun h0 => ?_⟩
              have := (hw.arrays _ h0).2; simp at this
        · simp only [step, hi, orientationSetter, asarray, Heap.alloc, Heap.write, Option.map_some, World.view, Spec.step,
            Spec.value, List.getElem?_map, List.map_set, if_true]
          rw [h1, h2]
          have := hc _ hd0.1.1
          simp only at this
          rw [this]
  | writeLocation i v => exact absurd ho id

/-- For every history in which arguments are lists, tuples or other things numpy must convert, and no attribute is written
through, sharing is invisible: arrays, locations and orientations are those of the copying world.  Missing from the full
statement: float arrays passed as arguments, and writes through attributes (the failures above). -/
theorem sharing_invisible_partial (ops : List Op) (h : ∀ o ∈ ops, o.Harmless) :
    (run World.init ops).view = ops.foldl Spec.step ⟨[], []⟩ := by
  have key : ∀ (ops : List Op) (w : World), Separated w → (∀ o ∈ ops, o.Harmless) →
      (run w ops).view = ops.foldl Spec.step w.view := by
    intro ops
    induction ops with
    | nil => intro w _ _; rfl
    | cons o ops ih =>
      intro w hw ho
      obtain ⟨h1, h2⟩ := harmless_step w hw o (ho o List.mem_cons_self)
      have := ih (step w o) h1 fun o' ho' => ho o' (List.mem_cons_of_mem _ ho')
      rw [h2] at this
      exact this
  exact key ops World.init separated_init h

/-- Passing a float array that already has unit length leaves its contents as they were. -/
theorem orientation_unit_argument_unchanged (x y z : ℝ) (h : x ^ 2 + y ^ 2 + z ^ 2 = 1) :
    (⟨.fin x, .fin y, .fin z⟩ : Vec3).normalized = ⟨.fin x, .fin y, .fin z⟩ := by
  have h1 : x * x + y * y + z * z = 1 := by linarith
  simp [Vec3.normalized, fin_mul_fin, fin_add_fin, PyFloat.sqrt, h1, npDiv, (by norm_num : ¬ (1 : ℝ) < 0)]

/-- In general, a location or orientation assigned from a float array reads the current contents of that very array. -/
theorem attributes_read_shared_array (w : World) (i k a : ℕ) (d : Dipole) (hi : w.dipoles[i]? = some d)
    (hk : w.arrays[k]? = some a) :
    (step w (.setLocation i (.array k))).location i = (step w (.setLocation i (.array k))).array k ∧
      (step w (.setOrientation i (.array k))).orientation i = (step w (.setOrientation i (.array k))).array k ∧
      (step w (.setOrientation i (.array k))).array k = some (w.heap.cell a).normalized ∧
      (step w (.setLocation i (.array k))).array k = some (w.heap.cell a) := by
  have hlt : i < w.dipoles.length := (List.getElem?_eq_some_iff.1 hi).1
  simp [step, hk, locationSetter, orientationSetter, asarray, World.location, World.orientation, World.array, Heap.write,
    hlt]

/-- A harmless history that does something. -/
example : ∀ o ∈ ([.array ⟨.fin 1, .fin 2, .fin 3⟩, .build none (.fresh ⟨.fin 0, .fin 3, .fin 4⟩),
    .setLocation 0 (.fresh ⟨.fin 1, .fin 2, .fin 3⟩), .write 0 ⟨.fin 9, .fin 9, .fin 9⟩] : List Op), o.Harmless := by
  simp [Op.Harmless, Arg.IsFresh]

end Verif.Aliasing
