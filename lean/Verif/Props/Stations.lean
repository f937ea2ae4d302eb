import Verif.Model.Stations
import Verif.Props.Utils

/-!
# C150: stations as lists, tuples and arrays of any kind of number
-/

namespace Verif.Stations

open Verif.Utils (stackLast checkXyzDim checkXyzDim_array checkXyzDim_tuple_rejects)

/-! ### Specification -/

/-- The number a Python object is, if it is a real number. -/
noncomputable def Atom.number : Atom → Option PyFloat
  | .bool b => some (.fin (if b then 1 else 0))
  | .int n => some (.fin n)
  | .float v => some v
  | _ => Option.none

/-- `c` holds the objects `a`. -/
def Coords.Holds (c : Coords) (a : NArr Atom) : Prop := c = .list a ∨ ∃ k, c = .array k a

/-- Types of arrays of numbers that are not complex, and of arrays of objects. -/
def Kind.Plain (k : Kind) : Prop := k ≠ .complex ∧ k ≠ .str

/-- The real part of the number a Python object is, if it is a number. -/
noncomputable def Atom.realPart : Atom → Option PyFloat
  | .complex z => some z.re
  | x => x.number

/-! ### Lemmas -/

theorem mem_indices {s i : List ℕ} : i ∈ indices s ↔ InShape s i := by
  induction s generalizing i with
  | nil => simp [indices, InShape]
  | cons n s ih =>
    rw [indices, List.mem_flatMap]
    constructor
    · rintro ⟨k, hk, h⟩
      obtain ⟨j, hj, rfl⟩ := List.mem_map.1 h
      exact .cons (List.mem_range.1 hk) (ih.1 hj)
    · intro h
      cases h with
      | cons hk hj => exact ⟨_, List.mem_range.2 hk, List.mem_map.2 ⟨_, ih.2 hj, rfl⟩⟩

variable {α : Type}

theorem convert_ok {f : α → Py PyFloat} {a : NArr α} {v : List ℕ → PyFloat} (h : ∀ i, InShape a.shape i → f (a.get i) = .ok (v i)) :
    ∃ b, convert f a = .ok b ∧ b.shape = a.shape ∧ ∀ i, InShape a.shape i → b.get i = v i := by
  have hn : ((indices a.shape).findSome? fun i => raised (f (a.get i))) = none := by
    rw [List.findSome?_eq_none_iff]
    intro i hi
    rw [h i (mem_indices.1 hi)]
    rfl
  unfold convert
  rw [hn]
  exact ⟨_, rfl, rfl, fun i hi => by simp only [h i hi]⟩

theorem convert_error {f : α → Py PyFloat} {a : NArr α} {i : List ℕ} (hi : InShape a.shape i) {e : PyErr} (he : f (a.get i) = .error e) :
    ∃ j e', InShape a.shape j ∧ f (a.get j) = .error e' ∧ convert f a = .error e' := by
  cases hs : (indices a.shape).findSome? fun i => raised (f (a.get i)) with
  | none =>
    rw [List.findSome?_eq_none_iff] at hs
    have := hs i (mem_indices.2 hi)
    rw [he] at this
    cases this
  | some e' =>
    obtain ⟨j, hj, h⟩ := List.exists_of_findSome?_eq_some hs
    refine ⟨j, e', mem_indices.1 hj, ?_, ?_⟩
    · revert h
      cases f (a.get j) <;> intro h <;> cases h
      rfl
    · unfold convert
      rw [hs]

variable [FloatGrammar]

theorem check_ok {x : Xyz} {dim : ℕ} {s : List ℕ} {b : NArr PyFloat} (h : x.asFloat = .ok b) (hb : b.shape = s ++ [dim]) : check x dim = .ok b := by
  unfold check
  rw [h]
  exact (checkXyzDim_array b dim).1 s hb

theorem check_error {x : Xyz} {dim : ℕ} {e : PyErr} (h : x.asFloat = .error e) : check x dim = .error e := by
  unfold check
  rw [h]
  rfl

theorem check_bind {x : Xyz} {dim : ℕ} {b : NArr PyFloat} (h : x.asFloat = .ok b) : check x dim = checkXyzDim (.array b) dim := by
  unfold check
  rw [h]
  rfl

theorem of_check {x : Xyz} {dim : ℕ} {b : NArr PyFloat} (h : check x dim = .ok b) : x.asFloat = .ok b := by
  cases hx : x.asFloat with
  | error e => rw [check_error hx] at h; cases h
  | ok b' =>
    rw [check_bind hx] at h
    unfold checkXyzDim at h
    simp only [bind, Except.bind, pure, Except.pure] at h
    split at h
    · cases h
    · split at h <;> cases h
      rfl


theorem toFloat_number {x : Atom} {v : PyFloat} (h : x.number = some v) : x.toFloat = .ok v := by
  cases x <;> simp_all [Atom.number, Atom.toFloat]

theorem castVia_number {x : Atom} {v : PyFloat} (h : x.number = some v) {k : Kind} (hk : k ≠ .str) : x.castVia k = .ok v := by
  cases x <;> cases k <;> simp_all [Atom.number, Atom.toFloat, Atom.castVia]

omit [FloatGrammar] in
theorem promote_number {x : Atom} {v : PyFloat} (h : x.number = some v) {k : Kind} (hk : k.Plain) : (x.promote k).number = some v := by
  cases x <;> cases k <;> simp_all [Atom.number, Atom.promote, Kind.Plain]

/-! ### One array -/

/-- **C150.** Numbers are read as they are, whether they come in nested lists or in arrays of booleans, integers, floats or objects. -/
theorem numbers {c : Coords} {a : NArr Atom} (hc : c.Holds a) (hk : ∀ k, c = .array k a → k ≠ .str) {v : List ℕ → PyFloat}
    (hv : ∀ i, InShape a.shape i → (a.get i).number = some (v i)) {s : List ℕ} {dim : ℕ} (hs : a.shape = s ++ [dim]) :
    ∃ b, check (.one c) dim = .ok b ∧ b.shape = s ++ [dim] ∧ ∀ i, InShape b.shape i → b.get i = v i := by
  have key : ∃ b, c.asFloat = .ok b ∧ b.shape = a.shape ∧ ∀ i, InShape a.shape i → b.get i = v i := by
    rcases hc with rfl | ⟨k, rfl⟩
    · exact convert_ok fun i hi => toFloat_number (hv i hi)
    · exact convert_ok fun i hi => castVia_number (hv i hi) (hk k rfl)
  obtain ⟨b, hb, hbs, hbv⟩ := key
  exact ⟨b, check_ok (s := s) hb (hbs.trans hs), hbs.trans hs, fun i hi => hbv i (hbs ▸ hi)⟩

/-- **C150.** Lists may hold text that reads as a number, and `None`, which becomes NaN.  They are accepted exactly if nothing in them is complex or text
that does not read as a number. -/
theorem list_iff {a : NArr Atom} {s : List ℕ} {dim : ℕ} (hs : a.shape = s ++ [dim]) :
    (∃ b, check (.one (.list a)) dim = .ok b) ↔
      ∀ i, InShape a.shape i → (∀ z, a.get i ≠ .complex z) ∧ ∀ t, a.get i = .str t → FloatGrammar.parse t ≠ none := by
  constructor
  · rintro ⟨b, hb⟩ i hi
    by_contra hbad
    have : ∃ e, (a.get i).toFloat = .error e := by
      cases hx : a.get i with
      | complex z => exact ⟨.typeError, rfl⟩
      | str t =>
        cases hp : FloatGrammar.parse t with
        | none => exact ⟨.valueError, by simp [Atom.toFloat, hp]⟩
        | some v => exact absurd ⟨by simp [hx], fun t' ht => by rw [hx] at ht; cases ht; simp [hp]⟩ hbad
      | _ => exact absurd ⟨by simp [hx], by simp [hx]⟩ hbad
    obtain ⟨e, he⟩ := this
    obtain ⟨j, e', -, -, h⟩ := convert_error hi he
    have := of_check hb
    simp only [Xyz.asFloat, Coords.asFloat, h] at this
    cases this
  · intro h
    have : ∀ i, ∃ v, InShape a.shape i → (a.get i).toFloat = .ok v := by
      intro i
      by_cases hi : InShape a.shape i
      · have hx := h i hi
        cases hx' : a.get i with
        | complex z => exact absurd hx' (hx.1 z)
        | str t =>
          cases hp : FloatGrammar.parse t with
          | none => exact absurd hp (hx.2 t hx')
          | some v => exact ⟨v, fun _ => by simp [Atom.toFloat, hp]⟩
        | _ => exact ⟨_, fun _ => rfl⟩
      · exact ⟨.nan, fun h => absurd h hi⟩
    choose v hv using this
    obtain ⟨b, hb, hbs, -⟩ := convert_ok (f := Atom.toFloat) (a := a) (v := v) fun i hi => hv i hi
    exact ⟨b, check_ok (s := s) (x := .one (.list a)) hb (hbs.trans hs)⟩

/-- **C150.** What lists and arrays of objects are read as, object by object. -/
theorem list_values {c : Coords} {a : NArr Atom} (hc : c = .list a ∨ c = .array .object a) {dim : ℕ} {b : NArr PyFloat}
    (hb : check (.one c) dim = .ok b) {i : List ℕ} (hi : InShape a.shape i) :
    (∀ v, (a.get i).number = some v → b.get i = v) ∧ (a.get i = .none → b.get i = .nan) ∧
      ∀ t, a.get i = .str t → FloatGrammar.parse t = some (b.get i) := by
  have e1 : c.asFloat = convert Atom.toFloat a := by
    rcases hc with rfl | rfl
    · rfl
    · simp only [Coords.asFloat]
      congr 1
  have h : convert Atom.toFloat a = .ok b := e1 ▸ of_check hb
  have hok : ∃ w, (a.get i).toFloat = .ok w := by
    cases hx : (a.get i).toFloat with
    | ok w => exact ⟨w, rfl⟩
    | error e =>
      obtain ⟨j, e', -, -, h'⟩ := convert_error hi hx
      rw [h] at h'
      cases h'
  have hget : (a.get i).toFloat = .ok (b.get i) := by
    unfold convert at h
    split at h
    · cases h
    · cases h
      obtain ⟨w, hw⟩ := hok
      simp only [hw]
  refine ⟨fun v hv => ?_, fun hv => ?_, fun t ht => ?_⟩
  · have := toFloat_number hv
    rw [this] at hget
    exact (Except.ok.inj hget).symm
  · rw [hv] at hget
    exact (Except.ok.inj hget).symm
  · rw [ht] at hget
    simp only [Atom.toFloat] at hget
    split at hget
    · next h => rw [h]; exact congrArg some (Except.ok.inj hget)
    · cases hget

/-- **C150.** Complex numbers are refused in lists and in arrays of objects. -/
theorem complex_refused_partial {c : Coords} {a : NArr Atom} (hc : c = .list a ∨ c = .array .object a) (dim : ℕ)
    {i : List ℕ} (hi : InShape a.shape i) {z : PyComplex} (hz : a.get i = .complex z) : ∃ e, check (.one c) dim = .error e := by
  have : ∃ e, c.asFloat = .error e := by
    rcases hc with rfl | rfl
    · obtain ⟨_, e, -, -, h⟩ := convert_error (f := Atom.toFloat) hi (by rw [hz]; rfl)
      exact ⟨e, h⟩
    · obtain ⟨_, e, -, -, h⟩ := convert_error (f := Atom.castVia .object) hi (by rw [hz]; rfl)
      exact ⟨e, h⟩
  obtain ⟨e, he⟩ := this
  exact ⟨e, check_error he⟩

/-- **C150.** But arrays of complex numbers are accepted, and their imaginary parts have no effect. -/
theorem complex_dropped {a : NArr Atom} {z : List ℕ → PyComplex} (hz : ∀ i, InShape a.shape i → a.get i = .complex (z i))
    {s : List ℕ} {dim : ℕ} (hs : a.shape = s ++ [dim]) :
    ∃ b, check (.one (.array .complex a)) dim = .ok b ∧ b.shape = s ++ [dim] ∧ ∀ i, InShape b.shape i → b.get i = (z i).re := by
  obtain ⟨b, hb, hbs, hbv⟩ := convert_ok (f := Atom.castVia .complex) (a := a) (v := fun i => (z i).re) fun i hi => by rw [hz i hi]; rfl
  exact ⟨b, check_ok (s := s) (x := .one (.array .complex a)) hb (hbs.trans hs), hbs.trans hs, fun i hi => hbv i (hbs ▸ hi)⟩

/-- **C150.** The refusals: lists that do not fit together, a last axis of the wrong length, a bare number. -/
theorem refusals (dim : ℕ) :
    check (.one .ragged) dim = .error .valueError ∧
    (∀ l, Coords.ragged ∈ l → check (.tuple l) dim = .error .valueError) ∧ check (.tuple []) dim = .error .valueError ∧
    (∀ (c : Coords) (a : NArr Atom) (s : List ℕ) (n : ℕ), c.Holds a → a.shape = s ++ [n] → n ≠ dim → ∃ e, check (.one c) dim = .error e) ∧
    ∀ (c : Coords) (a : NArr Atom), c.Holds a → a.shape = [] → ∃ e, check (.one c) dim = .error e := by
  have shp : ∀ {f : Atom → Py PyFloat} {a : NArr Atom} {b}, convert f a = .ok b → b.shape = a.shape := by
    intro f a b h
    unfold convert at h
    split at h <;> cases h
    rfl
  have cls : ∀ {c : Coords} {a : NArr Atom} {b}, c.Holds a → c.asFloat = .ok b → b.shape = a.shape := by
    rintro c a b (rfl | ⟨k, rfl⟩) h <;> exact shp h
  refine ⟨rfl, fun l hl => ?_, rfl, fun c a s n hc hs hn => ?_, fun c a hc hs => ?_⟩
  · have : (l.mapM fun c => (do
        let a ← c.entries
        pure (⟨a.shape, fun i => (c.kind, a.get i)⟩ : NArr (Kind × Atom)) : Py (NArr (Kind × Atom)))) = .error .valueError := by
      induction l with
      | nil => cases hl
      | cons c l ih =>
        rw [List.mapM_cons]
        rcases List.mem_cons.1 hl with h | h
        · rw [← h]; rfl
        · rw [ih h]
          cases c <;> rfl
    refine check_error ?_
    simp only [Xyz.asFloat, stackFloat, this]
    rfl
  · cases h : c.asFloat with
    | error e => exact ⟨e, check_error h⟩
    | ok b => exact ⟨_, (check_bind (x := .one c) h).trans <| (checkXyzDim_array b dim).2.1 s n ((cls hc h).trans hs) hn⟩
  · cases h : c.asFloat with
    | error e => exact ⟨e, check_error h⟩
    | ok b => exact ⟨_, (check_bind (x := .one c) h).trans <| (checkXyzDim_array b dim).2.2 ((cls hc h).trans hs)⟩

/-! ### Tuples -/

omit [FloatGrammar] in
theorem mapM_entries {l : List Coords} {as : List (NArr Atom)} (h : List.Forall₂ Coords.Holds l as) :
    (l.mapM fun c => (do
        let a ← c.entries
        pure (⟨a.shape, fun i => (c.kind, a.get i)⟩ : NArr (Kind × Atom)) : Py (NArr (Kind × Atom)))) =
      .ok (List.zipWith (fun c a => ⟨a.shape, fun i => (c.kind, a.get i)⟩) l as) := by
  induction h with
  | nil => rfl
  | cons hc _ ih =>
    rw [List.mapM_cons, ih]
    rcases hc with rfl | ⟨k, rfl⟩ <;> rfl

omit [FloatGrammar] in
theorem rank_join (a b : Kind) : (a.join b).rank = max a.rank b.rank := by
  unfold Kind.join
  split <;> omega

omit [FloatGrammar] in
theorem foldl_join (ks : List Kind) (k : Kind) (P : Kind → Prop) (hk : P k) (h : ∀ x ∈ ks, P x) : P (ks.foldl Kind.join k) := by
  induction ks generalizing k with
  | nil => exact hk
  | cons a ks ih =>
    refine ih _ ?_ fun x hx => h x (by simp [hx])
    unfold Kind.join
    split
    · exact h a (by simp)
    · exact hk

omit [FloatGrammar] in
theorem le_foldl_join (ks : List Kind) (k : Kind) : k.rank ≤ (ks.foldl Kind.join k).rank ∧ ∀ x ∈ ks, x.rank ≤ (ks.foldl Kind.join k).rank := by
  induction ks generalizing k with
  | nil => simp
  | cons a ks ih =>
    have h := ih (k.join a)
    rw [rank_join] at h
    refine ⟨(le_max_left _ _).trans h.1, fun x hx => ?_⟩
    rcases List.mem_cons.1 hx with rfl | hx
    · exact (le_max_right _ _).trans h.1
    · exact h.2 x hx

omit [FloatGrammar] in
theorem common_of (P : Kind → Prop) {ks : List Kind} (h0 : ks = [] → P .float) (h : ∀ k ∈ ks, P k) : P (commonKind ks) := by
  cases ks with
  | nil => exact h0 rfl
  | cons k ks => exact foldl_join ks k P (h k (by simp)) fun x hx => h x (by simp [hx])

omit [FloatGrammar] in
theorem le_common {ks : List Kind} {k : Kind} (h : k ∈ ks) : k.rank ≤ (commonKind ks).rank := by
  cases ks with
  | nil => cases h
  | cons k' ks =>
    rcases List.mem_cons.1 h with rfl | h
    · exact (le_foldl_join ks k).1
    · exact (le_foldl_join ks k').2 k h

/-- Stacking and conversion, object by object. -/
theorem stack_convert {l : List Coords} {as : List (NArr Atom)} (h : List.Forall₂ Coords.Holds l as) (hl : l ≠ []) {s : List ℕ} (hs : ∀ a ∈ as, a.shape = s) :
    ∃ q : NArr (Kind × Atom), (Xyz.tuple l).asFloat = convert (fun x => x.2.through x.1 (commonKind (l.map Coords.kind))) q ∧ q.shape = s ++ [l.length] ∧
      ∀ k (hk : k < l.length) (hk' : k < as.length) i, q.get (i ++ [k]) = ((l[k]).kind, (as[k]).get i) := by
  have hlen := h.length_eq
  set parts := List.zipWith (fun (c : Coords) (a : NArr Atom) => (⟨a.shape, fun i => (c.kind, a.get i)⟩ : NArr (Kind × Atom))) l as with hparts
  have hpl : parts.length = l.length := by simp [hparts, hlen]
  have hpe : parts ≠ [] := fun h => hl (List.length_eq_zero_iff.1 (by rw [← hpl, h]; rfl))
  have hps : ∀ p ∈ parts, p.shape = s := by
    intro p hp
    obtain ⟨k, hk, rfl⟩ := List.mem_iff_getElem.1 hp
    simp only [hparts, List.getElem_zipWith]
    exact hs _ (List.getElem_mem _)
  obtain ⟨q, hq, hqs, hqv⟩ := Utils.checkXyzDim_tuple parts s hps hpe
  have hst : stackLast parts = .ok q := by
    unfold checkXyzDim at hq
    simp only [bind, Except.bind, pure, Except.pure] at hq
    split at hq
    · cases hq
    · next a ha =>
      split at hq
      · cases hq
      · split at hq <;> cases hq
        exact ha
  refine ⟨q, ?_, hpl ▸ hqs, fun k hk hk' i => ?_⟩
  · simp only [Xyz.asFloat, stackFloat]
    rw [mapM_entries h]
    simp only [bind, Except.bind]
    rw [← hparts, hst]
  · rw [hqv k (hpl ▸ hk) i]
    simp only [hparts, List.getElem_zipWith]

/-- Stacking succeeds if every conversion does. -/
theorem stack_values {l : List Coords} {as : List (NArr Atom)} (h : List.Forall₂ Coords.Holds l as) (hl : l ≠ []) {s : List ℕ}
    (hs : ∀ a ∈ as, a.shape = s) {v : ℕ → List ℕ → PyFloat}
    (hv : ∀ k (hk : k < l.length) (hk' : k < as.length) i, InShape s i →
      ((as[k]).get i).through (l[k]).kind (commonKind (l.map Coords.kind)) = .ok (v k i)) :
    ∃ b, check (.tuple l) l.length = .ok b ∧ b.shape = s ++ [l.length] ∧
      ∀ k, k < l.length → ∀ i, InShape s i → b.get (i ++ [k]) = v k i := by
  have hlen := h.length_eq
  obtain ⟨q, hq, hqs, hqv⟩ := stack_convert h hl hs
  obtain ⟨b, hb, hbs, hbv⟩ := convert_ok (f := fun x : Kind × Atom => x.2.through x.1 (commonKind (l.map Coords.kind))) (a := q)
    (v := fun i => v (i.getLastD 0) i.dropLast) (by
      intro i hi
      rw [hqs] at hi
      obtain ⟨i', j, hi', hj, rfl⟩ : ∃ i' j, InShape s i' ∧ j < l.length ∧ i = i' ++ [j] := by
        have h1 := List.forall₂_take_append _ _ _ hi
        have h2 := List.forall₂_drop_append _ _ _ hi
        obtain ⟨j, hj, e⟩ : ∃ j, j < l.length ∧ List.drop s.length i = [j] := by
          generalize List.drop s.length i = w at h2
          cases h2 with
          | cons hj hn => cases hn; exact ⟨_, hj, rfl⟩
        exact ⟨_, j, h1, hj, by rw [← e, List.take_append_drop]⟩
      rw [hqv j hj (hlen ▸ hj) i']
      dsimp only
      rw [hv j hj (hlen ▸ hj) i' hi']
      simp)
  refine ⟨b, check_ok (s := s) (x := .tuple l) (hq.trans hb) (hbs.trans hqs), hbs.trans hqs, fun k hk i hi => ?_⟩
  have hin : InShape q.shape (i ++ [k]) := by
    rw [hqs]
    exact List.rel_append hi (.cons hk .nil)
  rw [hbv _ hin]
  simp

omit [FloatGrammar] in
theorem list_kind {a : NArr Atom} {P : Kind → Prop} (h0 : P .float) (h : ∀ i, InShape a.shape i → P (a.get i).kind) : P (Coords.list a).kind := by
  have hm : ∀ x ∈ (indices a.shape).map fun i => (a.get i).kind, P x := by
    intro x hx
    obtain ⟨i, hi, rfl⟩ := List.mem_map.1 hx
    exact h i (mem_indices.1 hi)
  simp only [Coords.kind]
  exact common_of P (fun _ => h0) hm

omit [FloatGrammar] in
theorem number_plain {x : Atom} {v : PyFloat} (h : x.number = some v) : x.kind.Plain := by
  cases x <;> simp_all [Atom.number, Atom.kind, Kind.Plain]

/-- **C150.** A tuple of coordinate arrays of numbers, each in nested lists or in an array of booleans, integers, floats or objects: entry `k` of a station is what
the `k`-th array holds there.  Arrays of different kinds may be mixed. -/
theorem tuple_numbers {l : List Coords} {as : List (NArr Atom)} (h : List.Forall₂ Coords.Holds l as) (hl : l ≠ []) {s : List ℕ} (hs : ∀ a ∈ as, a.shape = s)
    (hk : ∀ k a, Coords.array k a ∈ l → k.Plain) {v : ℕ → List ℕ → PyFloat}
    (hv : ∀ k (hk : k < as.length) i, InShape s i → ((as[k]).get i).number = some (v k i)) :
    ∃ b, check (.tuple l) l.length = .ok b ∧ b.shape = s ++ [l.length] ∧
      ∀ k, k < l.length → ∀ i, InShape s i → b.get (i ++ [k]) = v k i := by
  have hkind : ∀ k (hk : k < l.length), (l[k]).kind.Plain := by
    intro k hkl
    have hka : k < as.length := h.length_eq ▸ hkl
    have hh : (l[k]).Holds as[k] := (List.forall₂_iff_get.1 h).2 k hkl hka
    rcases hh with e | ⟨K, e⟩
    · rw [e]
      refine list_kind ⟨by simp, by simp⟩ fun i hi => number_plain (hv k hka i ?_)
      rwa [hs _ (List.getElem_mem hka)] at hi
    · rw [e]
      exact hk K _ (e ▸ List.getElem_mem hkl)
  have hK : (commonKind (l.map Coords.kind)).Plain := common_of _ (fun _ => ⟨by simp, by simp⟩) fun K hK => by
    obtain ⟨c, hc, rfl⟩ := List.mem_map.1 hK
    obtain ⟨k, hkl, rfl⟩ := List.mem_iff_getElem.1 hc
    exact hkind k hkl
  refine stack_values h hl hs fun k hk1 hk2 i hi => ?_
  have hp := hkind k hk1
  rw [Atom.through, if_neg hp.2]
  exact castVia_number (promote_number (hv k hk2 i hi) hp) hK.2

/-- An array of numbers, none of them of a later type than the array, or a list of numbers. -/
def Coords.Numeric (c : Coords) : Prop := ∀ k a, c = .array k a → k.rank ≤ Kind.complex.rank ∧ ∀ i, InShape a.shape i → (a.get i).kind.rank ≤ k.rank

omit [FloatGrammar] in
theorem realPart_rank {x : Atom} {v : PyFloat} (h : x.realPart = some v) : x.kind.rank ≤ Kind.complex.rank := by
  cases x <;> simp_all [Atom.realPart, Atom.number, Atom.kind, Kind.rank]

/-- **C150.** In a tuple complex coordinates are accepted, in lists as in arrays and also mixed with others, and only their real parts count. -/
theorem tuple_complex {l : List Coords} {as : List (NArr Atom)} (h : List.Forall₂ Coords.Holds l as) (hl : l ≠ []) {s : List ℕ} (hs : ∀ a ∈ as, a.shape = s)
    (hk : ∀ c ∈ l, c.Numeric) {v : ℕ → List ℕ → PyFloat}
    (hv : ∀ k (hk : k < as.length) i, InShape s i → ((as[k]).get i).realPart = some (v k i)) :
    ∃ b, check (.tuple l) l.length = .ok b ∧ b.shape = s ++ [l.length] ∧
      ∀ k, k < l.length → ∀ i, InShape s i → b.get (i ++ [k]) = v k i := by
  have hkind : ∀ k (hk : k < l.length) (hka : k < as.length), (l[k]).kind.rank ≤ Kind.complex.rank ∧
      ∀ i, InShape s i → ((as[k]).get i).kind.rank ≤ (l[k]).kind.rank := by
    intro k hkl hka
    have hh : (l[k]).Holds as[k] := (List.forall₂_iff_get.1 h).2 k hkl hka
    have hsh := hs _ (List.getElem_mem hka)
    rcases hh with e | ⟨K, e⟩
    · rw [e]
      refine ⟨list_kind (P := fun k => k.rank ≤ Kind.complex.rank) (by simp [Kind.rank]) fun i hi => realPart_rank (hv k hka i (hsh ▸ hi)), fun i hi => ?_⟩
      exact le_common (List.mem_map.2 ⟨i, mem_indices.2 (hsh ▸ hi), rfl⟩)
    · have := hk _ (List.getElem_mem hkl) K _ e
      rw [e]
      exact ⟨this.1, fun i hi => this.2 i (hsh ▸ hi)⟩
  have hK : (commonKind (l.map Coords.kind)).rank ≤ Kind.complex.rank :=
    common_of (fun k => k.rank ≤ Kind.complex.rank) (fun _ => by simp [Kind.rank]) fun K hK => by
      obtain ⟨c, hc, rfl⟩ := List.mem_map.1 hK
      obtain ⟨k, hkl, rfl⟩ := List.mem_iff_getElem.1 hc
      exact (hkind k hkl (h.length_eq ▸ hkl)).1
  refine stack_values h hl hs fun k hk1 hk2 i hi => ?_
  have h1 := (hkind k hk1 hk2).1
  have h2 := (hkind k hk1 hk2).2 i hi
  have h3 : (l[k]).kind.rank ≤ (commonKind (l.map Coords.kind)).rank := le_common (List.mem_map.2 ⟨_, List.getElem_mem hk1, rfl⟩)
  have h4 := hv k hk2 i hi
  generalize commonKind (l.map Coords.kind) = K at hK h3
  generalize (l[k]).kind = K₀ at h1 h2 h3
  generalize (as[k]).get i = x at h2 h4
  generalize v k i = w at h4
  cases x <;> simp only [Atom.realPart, Atom.number, reduceCtorEq, Option.some.injEq] at h4 <;> subst h4 <;>
    cases K₀ <;> simp [Kind.rank, Atom.kind] at h1 h2 h3 <;> cases K <;> simp [Kind.rank] at hK h3 <;>
    first | rfl | (next b => cases b <;> simp [Atom.through, Atom.promote, Atom.castVia, Atom.toFloat])

/-- **C150.** Complex coordinates are refused in a tuple if anything in it is text or `None`. -/
theorem tuple_complex_refused_partial {l : List Coords} {as : List (NArr Atom)} (h : List.Forall₂ Coords.Holds l as) {s : List ℕ} (hs : ∀ a ∈ as, a.shape = s)
    {c : Coords} (hc : c ∈ l) (ht : c.kind = .str ∨ c.kind = .object) {k : ℕ} (hk : k < as.length) {i : List ℕ} (hi : InShape s i) {z : PyComplex}
    (hz : (as[k]).get i = .complex z) (dim : ℕ) : ∃ e, check (.tuple l) dim = .error e := by
  have hlen := h.length_eq
  obtain ⟨q, hq, hqs, hqv⟩ := stack_convert h (List.ne_nil_of_mem hc) hs
  have hK : Kind.str.rank ≤ (commonKind (l.map Coords.kind)).rank :=
    le_trans (by rcases ht with e | e <;> simp [e, Kind.rank]) (le_common (List.mem_map.2 ⟨c, hc, rfl⟩))
  have hkl : k < l.length := hlen ▸ hk
  have he : ∃ e, (q.get (i ++ [k])).2.through (q.get (i ++ [k])).1 (commonKind (l.map Coords.kind)) = .error e := by
    rw [hqv k hkl hk i, hz]
    dsimp only
    generalize commonKind (l.map Coords.kind) = K at hK
    generalize (l[k]).kind = K₀
    cases K <;> simp [Kind.rank] at hK <;> cases K₀ <;> exact ⟨_, rfl⟩
  obtain ⟨e, he⟩ := he
  obtain ⟨_, e', -, -, h'⟩ := convert_error (f := fun x : Kind × Atom => x.2.through x.1 (commonKind (l.map Coords.kind))) (a := q) (i := i ++ [k])
    (by rw [hqs]; exact List.rel_append hi (.cons hkl .nil)) he
  exact ⟨e', check_error (hq.trans h')⟩

/-- **C150.** In a tuple with text (and without objects that are not numbers or text) everything goes through text: complex numbers are refused, and so are the
booleans of an array of booleans, which read `"True"` and `"False"`; whatever is refused, it is with `ValueError`. -/
theorem tuple_text {l : List Coords} {as : List (NArr Atom)} (h : List.Forall₂ Coords.Holds l as) {s : List ℕ} (hs : ∀ a ∈ as, a.shape = s)
    {c : Coords} (hc : c ∈ l) (ht : c.kind = .str) (ho : ∀ c ∈ l, c.kind ≠ .object) :
    (∀ (k : ℕ) (hk : k < l.length) (hk' : k < as.length) (i : List ℕ), InShape s i →
      ((l[k]).kind = .bool ∧ (∃ b, (as[k]).get i = .bool b) ∨ ∃ z, (as[k]).get i = .complex z) →
      ∀ dim, check (.tuple l) dim = .error .valueError) ∧
    ∀ e, check (.tuple l) l.length = .error e → e = .valueError := by
  obtain ⟨q, hq, hqs, hqv⟩ := stack_convert h (List.ne_nil_of_mem hc) hs
  have hK : commonKind (l.map Coords.kind) = .str := by
    have h1 : Kind.str.rank ≤ (commonKind (l.map Coords.kind)).rank := by
      have := le_common (List.mem_map.2 ⟨c, hc, rfl⟩ : c.kind ∈ l.map Coords.kind)
      rwa [ht] at this
    have h2 : commonKind (l.map Coords.kind) ≠ .object := by
      refine common_of (fun k => k ≠ .object) (fun _ => by simp) fun K hK => ?_
      obtain ⟨c', hc', rfl⟩ := List.mem_map.1 hK
      exact ho c' hc'
    generalize commonKind (l.map Coords.kind) = K at h1 h2
    cases K <;> simp_all [Kind.rank]
  rw [hK] at hq
  have hcast : ∀ (x : Atom) e, x.castVia .str = .error e → e = .valueError := by
    intro x e hx
    cases x with
    | str t =>
      simp only [Atom.castVia, Atom.toFloat] at hx
      split at hx <;> cases hx
      rfl
    | _ => simp [Atom.castVia, Atom.toFloat] at hx <;> exact hx.symm
  have hall : ∀ (x : Kind × Atom) e, x.2.through x.1 .str = .error e → e = .valueError := by
    intro x e hx
    unfold Atom.through at hx
    split at hx
    · exact hcast _ _ hx
    · exact hcast _ _ hx
  refine ⟨fun k hk hk' i hi hbad dim => ?_, fun e he => ?_⟩
  · have hE : ∃ e, (q.get (i ++ [k])).2.through (q.get (i ++ [k])).1 .str = .error e := by
      rw [hqv k hk hk' i]
      dsimp only
      rcases hbad with ⟨h1, b, h2⟩ | ⟨z, h2⟩
      · rw [h1, h2]; exact ⟨_, rfl⟩
      · rw [h2]
        generalize (l[k]).kind = K₀
        cases K₀ <;> exact ⟨_, rfl⟩
    obtain ⟨e, he⟩ := hE
    obtain ⟨j, e', -, hj, h'⟩ := convert_error (f := fun x : Kind × Atom => x.2.through x.1 .str) (a := q) (i := i ++ [k])
      (by rw [hqs]; exact List.rel_append hi (.cons hk .nil)) he
    rw [hall _ _ hj] at h'
    exact check_error (hq.trans h')
  · cases hx : (Xyz.tuple l).asFloat with
    | error e' =>
      rw [check_error hx] at he
      cases he
      rw [hq] at hx
      unfold convert at hx
      split at hx
      · next e'' hf =>
        obtain ⟨j, -, hj⟩ := List.exists_of_findSome?_eq_some hf
        cases hx
        cases hg : (q.get j).2.through (q.get j).1 .str with
        | error x =>
          simp only [hg, raised, Option.some.injEq] at hj
          exact hj ▸ hall _ _ hg
        | ok x => simp [hg, raised] at hj
      · cases hx
    | ok b =>
      have hbs : b.shape = s ++ [l.length] := by
        rw [hq] at hx
        unfold convert at hx
        split at hx <;> cases hx
        exact hqs
      rw [check_ok hx hbs] at he
      cases he

/-- Row `k` of an array, as a list. -/
def row (a : NArr Atom) (k : ℕ) (s : List ℕ) : Coords := .list ⟨s, fun i => a.get (k :: i)⟩

/-- **C150.** A tuple of stations is not a list of stations: three of them, each with three coordinates, are accepted but transposed, any other number is refused. -/
theorem tuple_of_stations {a : NArr Atom} {n : ℕ} {v : List ℕ → PyFloat} (hv : ∀ i, InShape [n, 3] i → (a.get i).number = some (v i)) :
    (n ≠ 3 → check (.tuple ((List.range n).map fun k => row a k [3])) 3 = .error .valueError) ∧
    (n = 3 → ∃ b, check (.tuple ((List.range n).map fun k => row a k [3])) 3 = .ok b ∧ b.shape = [3, 3] ∧
      ∀ j k, j < 3 → k < 3 → b.get [j, k] = v [k, j]) := by
  have hH : List.Forall₂ Coords.Holds ((List.range n).map fun k => row a k [3])
      ((List.range n).map fun k => (⟨[3], fun i => a.get (k :: i)⟩ : NArr Atom)) := by
    rw [List.forall₂_map_left_iff, List.forall₂_map_right_iff]
    exact List.forall₂_same.2 fun k _ => .inl rfl
  have main : n ≠ 0 → ∃ b, check (.tuple ((List.range n).map fun k => row a k [3])) ((List.range n).map fun k => row a k [3]).length = .ok b ∧
      b.shape = [3] ++ [((List.range n).map fun k => row a k [3]).length] ∧
      ∀ k, k < ((List.range n).map fun k => row a k [3]).length → ∀ i, InShape [3] i → b.get (i ++ [k]) = v (k :: i) := by
    intro hn
    refine tuple_numbers hH (by simpa using hn) (by simp) (by simp [row]) ?_
    intro k hk i hi
    simp only [List.length_map, List.length_range] at hk
    simp only [List.getElem_map, List.getElem_range]
    exact hv (k :: i) (.cons hk hi)
  constructor
  · intro hn
    rcases Nat.eq_zero_or_pos n with rfl | hpos
    · rfl
    · obtain ⟨b, hb, hbs, -⟩ := main hpos.ne'
      simp only [List.length_map, List.length_range] at hbs
      rw [check_bind (of_check hb)]
      exact (checkXyzDim_array b 3).2.1 [3] n hbs hn
  · rintro rfl
    obtain ⟨b, hb, hbs, hbv⟩ := main (by simp)
    refine ⟨b, hb, hbs, fun j k hj hk => ?_⟩
    exact hbv k (by simpa using hk) [j] (.cons hj .nil)

/-! ### Non-vacuity -/

/-- An integer, a boolean and a float in a list. -/
example : ∃ b, check (.one (.list ⟨[3], fun i => match i with | [0] => .int 2 | [1] => .bool true | _ => .float (.fin 0.5)⟩)) 3 = .ok b ∧
    b.shape = [3] ∧ b.get [0] = .fin 2 := by
  obtain ⟨b, hb, hs, hv⟩ := numbers (c := .list ⟨[3], fun i => match i with | [0] => .int 2 | [1] => .bool true | _ => .float (.fin 0.5)⟩)
    (.inl rfl) (by simp) (v := fun i => match i with | [0] => .fin 2 | [1] => .fin 1 | _ => .fin 0.5) (by
      intro i hi
      dsimp only
      split <;> simp [Atom.number]) (s := []) (dim := 3) rfl
  exact ⟨b, hb, hs, hv [0] (by rw [hs]; exact .cons (by norm_num) .nil)⟩

/-- A complex station in an array. -/
example : ∃ b, check (.one (.array .complex ⟨[3], fun _ => .complex ⟨.fin 1, .fin 2⟩⟩)) 3 = .ok b ∧ b.get [0] = .fin 1 := by
  obtain ⟨b, hb, hs, hv⟩ := complex_dropped (a := ⟨[3], fun _ => .complex ⟨.fin 1, .fin 2⟩⟩) (z := fun _ => ⟨.fin 1, .fin 2⟩) (fun _ _ => rfl) (s := []) (dim := 3) rfl
  exact ⟨b, hb, hv [0] (by rw [hs]; exact .cons (by norm_num) .nil)⟩

/-- Text beside an array of booleans. -/
example : check (.tuple [.array .bool ⟨[], fun _ => .bool true⟩, .list ⟨[], fun _ => .str "1"⟩]) 2 = .error .valueError :=
  (tuple_text (l := [.array .bool ⟨[], fun _ => .bool true⟩, .list ⟨[], fun _ => .str "1"⟩])
    (as := [⟨[], fun _ => .bool true⟩, ⟨[], fun _ => .str "1"⟩]) (.cons (.inr ⟨_, rfl⟩) (.cons (.inl rfl) .nil)) (s := [])
    (by simp) (c := .list ⟨[], fun _ => .str "1"⟩) (by simp) rfl
    (by simp [Coords.kind, indices, commonKind, Atom.kind])).1 0 (by simp) (by simp) [] .nil (.inl ⟨rfl, true, rfl⟩) 2

end Verif.Stations
