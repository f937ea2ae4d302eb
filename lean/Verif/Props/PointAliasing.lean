import Verif.Model.PointAliasing

/-!
# C89: moving a point current moves nothing else

The specification is a world without memory in which assignments copy.  The English property says that the real world cannot be told apart
from it.  It is false if a float array is passed to a constructor or to `nodes`; it holds for every other history.
-/

namespace Verif.PointAliasing

open Verif.Setters

/-- The value of an argument in the specification. -/
def Spec.value (arrays : List (List Vec3)) : Arg → Option (List Vec3)
  | .array k => arrays[k]?
  | .fresh v => some v

/-- The specification: the caller's arrays and the nodes of every source, as plain values. -/
structure Spec where
  arrays : List (List Vec3)
  sources : List (List Vec3)

/-- Assignments copy, and nothing but the assigned object changes. -/
noncomputable def Spec.step (s : Spec) : Op → Spec
  | .array v => { s with arrays := s.arrays ++ [v] }
  | .write k v => { s with arrays := s.arrays.set k v }
  | .build none => { s with sources := s.sources ++ [[⟨.fin 0, .fin 0, .fin 0⟩]] }
  | .build (some x) =>
    match Spec.value s.arrays x with
    | some v => { s with sources := s.sources ++ [v] }
    | none => s
  | .setNodes i x =>
    match Spec.value s.arrays x with
    | some v => { s with sources := s.sources.set i v }
    | none => s
  | .setLocation i v =>
    match s.sources[i]? with
    | some (_ :: rest) => { s with sources := s.sources.set i (v :: rest) }
    | _ => s

/-- What an observer of the real world sees. -/
def World.view (w : World) : Spec := ⟨w.arrays.map w.heap.cell, w.sources.map w.heap.cell⟩

/-- The full English property: the two worlds agree after every history. -/
def SharingInvisible : Prop := ∀ ops, (run World.init ops).view = ops.foldl Spec.step ⟨[], []⟩

/-! ## Where it fails -/

/-- **C89 fails, the source writes to its argument**: after a point current was built at the position held in a float array, moving the
point current overwrites the caller's array. -/
theorem moving_overwrites_argument (u v : Vec3) :
    let w := run World.init [.array [u], .build (some (.array 0)), .setLocation 0 v]
    w.location 0 = some v ∧ w.array 0 = some [v] := by
  simp [run, step, World.init, Heap.alloc, asarray, World.location, World.array, Heap.write]

/-- **C89 fails, two sources move together**: two point currents built at the same float array both move when one is moved. -/
theorem moving_one_moves_other (u v : Vec3) :
    let w := run World.init [.array [u], .build (some (.array 0)), .build (some (.array 0))]
    w.location 1 = some u ∧ (step w (.setLocation 0 v)).location 1 = some v := by
  simp [run, step, World.init, Heap.alloc, asarray, World.location, Heap.write]

theorem not_sharingInvisible : ¬ SharingInvisible := by
  intro h
  have h1 := h [.array [⟨.fin 0, .fin 0, .fin 0⟩], .build (some (.array 0)), .setLocation 0 ⟨.fin 1, .fin 0, .fin 0⟩]
  simp [run, step, World.init, Heap.alloc, asarray, Heap.write, World.view, Spec.step, Spec.value] at h1

/-! ## Where it holds -/

/-- An operation that passes no float array of the caller's. -/
def Op.Harmless : Op → Prop
  | .build (some (.array _)) => False
  | .setNodes _ (.array _) => False
  | _ => True

/-- All addresses in use are allocated and pairwise different. -/
structure Separated (w : World) : Prop where
  lt : ∀ a ∈ w.arrays ++ w.sources, a < w.heap.next
  distinct : (w.arrays ++ w.sources).Nodup

theorem separated_init : Separated World.init := ⟨by simp [World.init], by simp [World.init]⟩

/-- Writing to an address that a list of addresses does not contain. -/
theorem map_write_of_notMem {l : List ℕ} {c : ℕ → List Vec3} {a : ℕ} {v : List Vec3} (h : a ∉ l) :
    l.map (fun b => if b = a then v else c b) = l.map c :=
  List.map_congr_left fun b hb => if_neg (by rintro rfl; exact h hb)

/-- Writing to the address at a position of a list of different addresses. -/
theorem map_write_of_mem {l : List ℕ} {c : ℕ → List Vec3} {k : ℕ} {a : ℕ} {v : List Vec3} (hl : l.Nodup) (hk : l[k]? = some a) :
    l.map (fun b => if b = a then v else c b) = (l.map c).set k v := by
  obtain ⟨hlt, rfl⟩ := List.getElem?_eq_some_iff.1 hk
  apply List.ext_getElem
  · simp
  · intro j hj hj'
    simp only [List.length_map] at hj
    simp only [List.getElem_map, List.getElem_set]
    by_cases hkj : k = j
    · subst hkj; simp
    · have : l[j] ≠ l[k] := fun h => hkj (hl.getElem_inj_iff.1 h).symm
      simp [hkj, this]

theorem notMem_sources {w : World} (hw : Separated w) {a : ℕ} (ha : a ∈ w.arrays) : a ∉ w.sources :=
  fun h => (List.nodup_append.1 hw.distinct).2.2 a ha a h rfl

theorem notMem_arrays {w : World} (hw : Separated w) {a : ℕ} (ha : a ∈ w.sources) : a ∉ w.arrays :=
  fun h => (List.nodup_append.1 hw.distinct).2.2 a h a ha rfl

theorem next_notMem {w : World} (hw : Separated w) : w.heap.next ∉ w.arrays ∧ w.heap.next ∉ w.sources :=
  ⟨fun h => (lt_irrefl _ (hw.lt _ (List.mem_append_left _ h))), fun h => (lt_irrefl _ (hw.lt _ (List.mem_append_right _ h)))⟩

/-- One harmless operation. -/
theorem harmless_step (w : World) (hw : Separated w) (o : Op) (ho : o.Harmless) :
    Separated (step w o) ∧ (step w o).view = Spec.step w.view o := by
  obtain ⟨hna, hns⟩ := next_notMem hw
  obtain ⟨hda, hds, hdd⟩ := List.nodup_append.1 hw.distinct
  have hla : ∀ a ∈ w.arrays, a < w.heap.next := fun a h => hw.lt a (List.mem_append_left _ h)
  have hls : ∀ a ∈ w.sources, a < w.heap.next := fun a h => hw.lt a (List.mem_append_right _ h)
  cases o with
  | array v =>
    refine ⟨⟨?_, ?_⟩, ?_⟩
    · intro a ha
      simp only [step, Heap.alloc, List.mem_append, List.mem_singleton] at ha ⊢
      rcases ha with (ha | rfl) | ha
      · have := hla a ha; omega
      · omega
      · have := hls a ha; omega
    · simp only [step, Heap.alloc]
      rw [List.nodup_append, List.nodup_append]
      refine ⟨⟨hda, by simp, ?_⟩, hds, ?_⟩
      · rintro a ha b hb rfl
        simp only [List.mem_singleton] at hb
        exact hna (hb ▸ ha)
      · rintro a ha b hb rfl
        simp only [List.mem_append, List.mem_singleton] at ha
        rcases ha with ha | ha
        · exact hdd a ha a hb rfl
        · exact hns (ha ▸ hb)
    · simp only [step, Heap.alloc, World.view, Spec.step, List.map_append, List.map_cons, List.map_nil, if_true]
      rw [map_write_of_notMem hna, map_write_of_notMem hns]
  | write k v =>
    cases hk : w.arrays[k]? with
    | none =>
      have hlen : w.arrays.length ≤ k := by simpa using hk
      refine ⟨by simpa [step, hk] using hw, ?_⟩
      simp only [step, hk, World.view, Spec.step]
      rw [List.set_eq_of_length_le (by simpa using hlen)]
    | some a =>
      have hmem : a ∈ w.arrays := List.mem_of_getElem? hk
      refine ⟨⟨by simpa [step, hk, Heap.write] using hw.lt, by simpa [step, hk, Heap.write] using hw.distinct⟩, ?_⟩
      simp only [step, hk, World.view, Spec.step, Heap.write]
      rw [map_write_of_mem hda hk, map_write_of_notMem (notMem_sources hw hmem)]
  | build loc =>
    have key : ∀ rows, Separated ⟨(w.heap.alloc rows).2, w.arrays, w.sources ++ [w.heap.next]⟩ ∧
        World.view ⟨(w.heap.alloc rows).2, w.arrays, w.sources ++ [w.heap.next]⟩ =
          { w.view with sources := w.view.sources ++ [rows] } := by
      intro rows
      refine ⟨⟨?_, ?_⟩, ?_⟩
      · intro a ha
        simp only [Heap.alloc, List.mem_append, List.mem_singleton] at ha ⊢
        rcases ha with ha | ha | rfl
        · have := hla a ha; omega
        · have := hls a ha; omega
        · omega
      · simp only
        rw [List.nodup_append, List.nodup_append]
        refine ⟨hda, ⟨hds, by simp, ?_⟩, ?_⟩
        · rintro a ha b hb rfl
          simp only [List.mem_singleton] at hb
          exact hns (hb ▸ ha)
        · rintro a ha b hb rfl
          simp only [List.mem_append, List.mem_singleton] at hb
          rcases hb with hb | hb
          · exact hdd a ha a hb rfl
          · exact hna (hb ▸ ha)
      · simp only [Heap.alloc, World.view, List.map_append, List.map_cons, List.map_nil, if_true]
        rw [map_write_of_notMem hna, map_write_of_notMem hns]
    rcases loc with _ | ⟨k⟩ | ⟨rows⟩
    · exact key _
    · exact absurd ho id
    · exact key rows
  | setNodes i x =>
    cases x with
    | array k => exact absurd ho id
    | fresh rows =>
      cases hi : w.sources[i]? with
      | none =>
        have hlen : w.sources.length ≤ i := by simpa using hi
        refine ⟨by simpa [step, hi] using hw, ?_⟩
        simp only [step, hi, World.view, Spec.step, Spec.value]
        rw [List.set_eq_of_length_le (by simpa using hlen)]
      | some a =>
        refine ⟨⟨?_, ?_⟩, ?_⟩
        · intro b hb
          simp only [step, hi, asarray, Heap.alloc, List.mem_append] at hb ⊢
          rcases hb with hb | hb
          · have := hla b hb; omega
          · rcases List.mem_or_eq_of_mem_set hb with hb | rfl
            · have := hls b hb; omega
            · omega
        · simp only [step, hi, asarray, Heap.alloc]
          rw [List.nodup_append]
          refine ⟨hda, hds.set hns, ?_⟩
          rintro b hb c hc rfl
          rcases List.mem_or_eq_of_mem_set hc with hc | rfl
          · exact hdd b hb b hc rfl
          · exact hna hb
        · simp only [step, hi, asarray, Heap.alloc, World.view, Spec.step, Spec.value, List.map_set, if_true]
          rw [map_write_of_notMem hna, map_write_of_notMem hns]
  | setLocation i v =>
    cases hi : w.sources[i]? with
    | none =>
      refine ⟨by simpa [step, hi] using hw, ?_⟩
      simp [step, hi, World.view, Spec.step]
    | some a =>
      have hmem : a ∈ w.sources := List.mem_of_getElem? hi
      cases hc : w.heap.cell a with
      | nil =>
        refine ⟨by simpa [step, hi, hc] using hw, ?_⟩
        simp [step, hi, hc, World.view, Spec.step]
      | cons r rest =>
        refine ⟨⟨by simpa [step, hi, hc, Heap.write] using hw.lt, by simpa [step, hi, hc, Heap.write] using hw.distinct⟩, ?_⟩
        simp only [step, hi, hc, World.view, Spec.step, Heap.write, List.getElem?_map, Option.map_some]
        rw [map_write_of_mem hds hi, map_write_of_notMem (notMem_arrays hw hmem)]

/-- For every history in which positions are passed as lists, tuples, integer arrays or not at all, sharing is invisible: moving a point
current moves that point current and nothing else.  Missing from the full statement: float arrays passed as positions or nodes. -/
theorem sharing_invisible_partial (ops : List Op) (h : ∀ o ∈ ops, o.Harmless) :
    (run World.init ops).view = ops.foldl Spec.step ⟨[], []⟩ := by
  have key : ∀ (ops : List Op) (w : World), Separated w → (∀ o ∈ ops, o.Harmless) → (run w ops).view = ops.foldl Spec.step w.view := by
    intro ops
    induction ops with
    | nil => intro w _ _; rfl
    | cons o ops ih =>
      intro w hw ho
      obtain ⟨h1, h2⟩ := harmless_step w hw o (ho o List.mem_cons_self)
      have := ih (step w o) h1 fun o' ho' => ho o' (List.mem_cons_of_mem _ ho')
      rw [h2] at this
      exact this
  exact key ops World.init separated_init h

/-- In every world, an assigned location reads back if the source has a node at all. -/
theorem location_reads_back (w : World) (i : ℕ) (v u : Vec3) (h : w.location i = some u) :
    (step w (.setLocation i v)).location i = some v := by
  unfold World.location at h ⊢
  cases hi : w.sources[i]? with
  | none => rw [hi] at h; cases h
  | some a =>
    rw [hi] at h
    cases hc : w.heap.cell a with
    | nil => simp [hc] at h
    | cons r rest => simp [step, hi, hc, Heap.write]

/-- A harmless history that does something. -/
example : ∀ o ∈ ([.array [⟨.fin 1, .fin 2, .fin 3⟩], .build none, .build (some (.fresh [⟨.fin 0, .fin 3, .fin 4⟩])),
    .setLocation 0 ⟨.fin 1, .fin 2, .fin 3⟩, .setNodes 1 (.fresh []), .write 0 []] : List Op), o.Harmless := by
  simp [Op.Harmless]

end Verif.PointAliasing
