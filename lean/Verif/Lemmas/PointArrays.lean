import Verif.Model.StaticArrays
import Verif.Lemmas.Layout

/-!
# Arrays with the axes of the points, and operations between them

`At sh T a f`: the array `a` has the axes `sh` of the points followed by the axes `T`, and holds `f i c` at point `i` and
further index `c`.
-/

namespace Verif.PointArr

open NArr Spatial Utils Layout

variable {α β γ : Type} {sh T U : List ℕ}

/-- See the head of the file. -/
structure At (sh T : List ℕ) (a : NArr α) (f : List ℕ → List ℕ → α) : Prop where
  shape : a.shape = sh ++ T
  val : ∀ i, InShape sh i → ∀ c, InShape T c → a.get (i ++ c) = f i c

/-- The computation succeeds and its result has the property. -/
def Ok (m : Py α) (P : α → Prop) : Prop := ∃ a, m = .ok a ∧ P a

theorem Ok.bind {m : Py α} {P : α → Prop} {g : α → Py β} {Q : β → Prop} (h : Ok m P) (k : ∀ a, P a → Ok (g a) Q) :
    Ok (m >>= g) Q := by
  obtain ⟨a, rfl, ha⟩ := h
  exact k a ha

theorem Ok.pure {a : α} {P : α → Prop} (h : P a) : Ok (Pure.pure a : Py α) P := ⟨a, rfl, h⟩

theorem Ok.mono {m : Py α} {P Q : α → Prop} (h : Ok m P) (k : ∀ a, P a → Q a) : Ok m Q := by
  obtain ⟨a, e, ha⟩ := h
  exact ⟨a, e, k a ha⟩

/-- Reading of an index through broadcasting. -/
abbrev bidx (T c : List ℕ) : List ℕ := through T c

theorem bcastRev_append_same : ∀ {s t u : List ℕ} (w : List ℕ), s.length = t.length → bcastRev s t = some u →
    bcastRev (s ++ w) (t ++ w) = some (u ++ w)
  | [], [], u, w, _, h => by
    obtain rfl : [] = u := by simpa [bcastRev] using h
    simp only [List.nil_append]
    induction w with
    | nil => rfl
    | cons a w ih => simp [bcastRev, ih]
  | a :: s, b :: t, u, w, hl, h => by
    have hl' : s.length = t.length := by simpa using hl
    simp only [List.cons_append, bcastRev] at h ⊢
    split_ifs at h ⊢ <;>
    · obtain ⟨v, hv, rfl⟩ := Option.map_eq_some_iff.1 h
      rw [bcastRev_append_same w hl' hv]
      rfl

theorem bcastRev_append_left : ∀ {s t u : List ℕ} (w : List ℕ), t.length ≤ s.length → bcastRev s t = some u →
    bcastRev (s ++ w) t = some (u ++ w)
  | s, [], u, w, _, h => by
    rw [bcastRev_nil] at h ⊢
    obtain rfl := Option.some.inj h
    rfl
  | a :: s, b :: t, u, w, hl, h => by
    have hl' : t.length ≤ s.length := by simpa using hl
    simp only [List.cons_append, bcastRev] at h ⊢
    split_ifs at h ⊢ <;>
    · obtain ⟨v, hv, rfl⟩ := Option.map_eq_some_iff.1 h
      rw [bcastRev_append_left w hl' hv]
      rfl

theorem bcastRev_comm : ∀ s t : List ℕ, bcastRev s t = bcastRev t s
  | [], t => (bcastRev_nil t).symm
  | a :: s, [] => rfl
  | a :: s, b :: t => by
    simp only [bcastRev, bcastRev_comm s t]
    by_cases h : a = b
    · simp [h]
    · by_cases h1 : a = 1 <;> by_cases h2 : b = 1 <;> simp_all [eq_comm]

theorem bcastIndexRev_drop : ∀ {s i : List ℕ} (j : List ℕ), s.length ≤ i.length →
    bcastIndexRev s (i ++ j) = bcastIndexRev s i
  | [], _, _, _ => rfl
  | n :: s, k :: i, j, h => by simp [bcastIndexRev, bcastIndexRev_drop (s := s) (i := i) j (by simpa using h)]

theorem bcastRev_length : ∀ {s t u : List ℕ}, bcastRev s t = some u → u.length = max s.length t.length
  | [], t, u, h => by obtain rfl := Option.some.inj h; simp
  | a :: s, [], u, h => by obtain rfl := Option.some.inj h; simp
  | a :: s, b :: t, u, h => by
    simp only [bcastRev] at h
    split_ifs at h <;>
    · obtain ⟨v, hv, rfl⟩ := Option.map_eq_some_iff.1 h
      simp [bcastRev_length hv]

/-- Reading at a point of an array with the axes of the points. -/
theorem At.read {a : NArr α} {f : List ℕ → List ℕ → α} (ha : At sh T a f) {i c : List ℕ} (hi : InShape sh i)
    (hc : c.length = T.length) (hb : InShape T (bidx T c)) :
    a.get (bcastIndexRev a.shape.reverse (i ++ c).reverse).reverse = f i (bidx T c) := by
  rw [ha.shape, List.reverse_append, List.reverse_append, bcastIndexRev_append _ _ (by simp [hc]),
    Dipole.bcastIndexRev_self (Dipole.inShape_reverse hi), List.reverse_append, List.reverse_reverse]
  exact ha.val i hi _ hb

/-- An operation between two arrays that both have the axes of the points. -/
theorem At.zip {V : List ℕ} {a : NArr α} {b : NArr β} {f : List ℕ → List ℕ → α} {g : List ℕ → List ℕ → β} (op : α → β → γ)
    (ha : At sh T a f) (hb : At sh U b g) (hl : T.length = U.length) (hV : bcastRev T.reverse U.reverse = some V.reverse)
    (h1 : ∀ c, InShape V c → InShape T (bidx T c)) (h2 : ∀ c, InShape V c → InShape U (bidx U c)) :
    Ok (zipWith op a b) fun r => At sh V r fun i c => op (f i (bidx T c)) (g i (bidx U c)) := by
  have hs : bcastShape a.shape b.shape = .ok (sh ++ V) := by
    unfold bcastShape
    rw [ha.shape, hb.shape, List.reverse_append, List.reverse_append,
      bcastRev_append_same _ (by simpa using hl) hV]
    simp
  have hV' : V.length = T.length := by
    have := bcastRev_length hV
    simpa [hl] using this
  refine ⟨_, by rw [zipWith, hs]; rfl, rfl, fun i hi c hc => ?_⟩
  have hcl := inShape_length hc
  simp only [broadcastTo]
  rw [ha.read hi (by omega) (h1 c hc), hb.read hi (by omega) (h2 c hc)]

/-- Reading at a point of an array without the axes of the points. -/
theorem read_const (b : NArr β) {i c : List ℕ} (h : b.shape.length ≤ c.length) :
    b.get (bcastIndexRev b.shape.reverse (i ++ c).reverse).reverse = b.get (bidx b.shape c) := by
  rw [List.reverse_append, bcastIndexRev_drop _ (by simpa using h)]
  rfl

/-- An operation with an array that has no axes of points. -/
theorem At.zipConst {V : List ℕ} {a : NArr α} {b : NArr β} {f : List ℕ → List ℕ → α} (op : α → β → γ)
    (ha : At sh T a f) (hl : b.shape.length ≤ T.length) (hV : bcastRev T.reverse b.shape.reverse = some V.reverse)
    (h1 : ∀ c, InShape V c → InShape T (bidx T c)) :
    Ok (zipWith op a b) fun r => At sh V r fun i c => op (f i (bidx T c)) (b.get (bidx b.shape c)) := by
  have hs : bcastShape a.shape b.shape = .ok (sh ++ V) := by
    unfold bcastShape
    rw [ha.shape, List.reverse_append, bcastRev_append_left _ (by simpa using hl) hV]
    simp
  have hV' : V.length = T.length := by
    have := bcastRev_length hV
    simp only [List.length_reverse] at this
    omega
  refine ⟨_, by rw [zipWith, hs]; rfl, rfl, fun i hi c hc => ?_⟩
  have hcl := inShape_length hc
  simp only [broadcastTo]
  rw [ha.read hi (by omega) (h1 c hc), read_const _ (by omega)]

theorem constZip {V : List ℕ} {a : NArr α} {b : NArr β} {f : List ℕ → List ℕ → α} (op : β → α → γ)
    (ha : At sh T a f) (hl : b.shape.length ≤ T.length) (hV : bcastRev T.reverse b.shape.reverse = some V.reverse)
    (h1 : ∀ c, InShape V c → InShape T (bidx T c)) :
    Ok (zipWith op b a) fun r => At sh V r fun i c => op (b.get (bidx b.shape c)) (f i (bidx T c)) := by
  have hs : bcastShape b.shape a.shape = .ok (sh ++ V) := by
    unfold bcastShape
    rw [bcastRev_comm, ha.shape, List.reverse_append, bcastRev_append_left _ (by simpa using hl) hV]
    simp
  have hV' : V.length = T.length := by
    have := bcastRev_length hV
    simp only [List.length_reverse] at this
    omega
  refine ⟨_, by rw [zipWith, hs]; rfl, rfl, fun i hi c hc => ?_⟩
  have hcl := inShape_length hc
  simp only [broadcastTo]
  rw [ha.read hi (by omega) (h1 c hc), read_const _ (by omega)]

/-! ## Numbers, vectors, and vectors of length one -/

/-- One number for each point. -/
def Sc (sh : List ℕ) (a : NArr α) (f : List ℕ → α) : Prop := a.shape = sh ∧ ∀ i, InShape sh i → a.get i = f i

/-- One number for each point, with a further axis of length one. -/
def Kp (sh : List ℕ) (a : NArr α) (f : List ℕ → α) : Prop := a.shape = sh ++ [1] ∧ ∀ i, InShape sh i → a.get (i ++ [0]) = f i

/-- One vector for each point. -/
def Vc (sh : List ℕ) (a : NArr α) (f : List ℕ → V3 α) : Prop := a.shape = sh ++ [3] ∧ ∀ i, InShape sh i → vecAt a i = f i

theorem inShape_nil {c : List ℕ} : InShape [] c ↔ c = [] := by
  constructor
  · intro h; cases h; rfl
  · rintro rfl; exact .nil

theorem inShape_one {n : ℕ} {c : List ℕ} : InShape [n] c ↔ ∃ k, c = [k] ∧ k < n := by
  constructor
  · intro h
    cases h with
    | cons h t => cases t; exact ⟨_, rfl, h⟩
  · rintro ⟨k, rfl, h⟩; exact .cons h .nil

theorem inShape_two {n m : ℕ} {c : List ℕ} : InShape [n, m] c ↔ ∃ k l, c = [k, l] ∧ k < n ∧ l < m := by
  constructor
  · intro h
    cases h with
    | cons h t => obtain ⟨l, rfl, hl⟩ := inShape_one.1 t; exact ⟨_, _, rfl, h, hl⟩
  · rintro ⟨k, l, rfl, h, h'⟩; exact .cons h (.cons h' .nil)

theorem vecAt_eq {a : NArr α} {i : List ℕ} {v : V3 α} : vecAt a i = v ↔ ∀ c, c < 3 → a.get (i ++ [c]) = entry v c := by
  constructor
  · rintro rfl c hc
    interval_cases c <;> rfl
  · intro h
    simp only [vecAt]
    rw [h 0 (by norm_num), h 1 (by norm_num), h 2 (by norm_num)]
    rfl

theorem Vc.at {a : NArr α} {f : List ℕ → V3 α} (h : Vc sh a f) : At sh [3] a fun i c => entry (f i) (c.headD 0) :=
  ⟨h.1, fun i hi c hc => by obtain ⟨k, rfl, hk⟩ := inShape_one.1 hc; exact vecAt_eq.1 (h.2 i hi) k hk⟩

theorem Kp.at {a : NArr α} {f : List ℕ → α} (h : Kp sh a f) : At sh [1] a fun i _ => f i :=
  ⟨h.1, fun i hi c hc => by obtain ⟨k, rfl, hk⟩ := inShape_one.1 hc
                            obtain rfl : k = 0 := Nat.lt_one_iff.1 hk
                            exact h.2 i hi⟩

theorem Sc.at {a : NArr α} {f : List ℕ → α} (h : Sc sh a f) : At sh [] a fun i _ => f i :=
  ⟨by simpa using h.1, fun i hi c hc => by obtain rfl := inShape_nil.1 hc; simpa using h.2 i hi⟩

theorem At.vc {a : NArr α} {f : List ℕ → List ℕ → α} (h : At sh [3] a f) : Vc sh a fun i => ⟨f i [0], f i [1], f i [2]⟩ :=
  ⟨h.shape, fun i hi => by
    simp only [vecAt]
    rw [h.val i hi [0] (inShape_one.2 ⟨0, rfl, by norm_num⟩), h.val i hi [1] (inShape_one.2 ⟨1, rfl, by norm_num⟩),
      h.val i hi [2] (inShape_one.2 ⟨2, rfl, by norm_num⟩)]⟩

theorem At.kp {a : NArr α} {f : List ℕ → List ℕ → α} (h : At sh [1] a f) : Kp sh a fun i => f i [0] :=
  ⟨h.shape, fun i hi => h.val i hi [0] (inShape_one.2 ⟨0, rfl, by norm_num⟩)⟩

theorem At.sc {a : NArr α} {f : List ℕ → List ℕ → α} (h : At sh [] a f) : Sc sh a fun i => f i [] :=
  ⟨by simpa using h.shape, fun i hi => by simpa using h.val i hi [] .nil⟩

theorem At.congr {a : NArr α} {f g : List ℕ → List ℕ → α} (h : At sh T a f)
    (e : ∀ i, InShape sh i → ∀ c, InShape T c → f i c = g i c) : At sh T a g :=
  ⟨h.shape, fun i hi c hc => (h.val i hi c hc).trans (e i hi c hc)⟩

theorem Vc.congr {a : NArr α} {f g : List ℕ → V3 α} (h : Vc sh a f) (e : ∀ i, InShape sh i → f i = g i) : Vc sh a g :=
  ⟨h.1, fun i hi => (h.2 i hi).trans (e i hi)⟩

theorem Sc.congr {a : NArr α} {f g : List ℕ → α} (h : Sc sh a f) (e : ∀ i, InShape sh i → f i = g i) : Sc sh a g :=
  ⟨h.1, fun i hi => (h.2 i hi).trans (e i hi)⟩

variable {a : NArr α} {b : NArr β}

theorem Sc.map {f : List ℕ → α} (g : α → β) (h : Sc sh a f) : Sc sh (a.mapA g) fun i => g (f i) :=
  ⟨h.1, fun i hi => congrArg g (h.2 i hi)⟩

theorem Kp.map {f : List ℕ → α} (g : α → β) (h : Kp sh a f) : Kp sh (a.mapA g) fun i => g (f i) :=
  ⟨h.1, fun i hi => congrArg g (h.2 i hi)⟩

theorem Vc.map {f : List ℕ → V3 α} (g : α → β) (h : Vc sh a f) : Vc sh (a.mapA g) fun i => (f i).map g :=
  ⟨h.1, fun i hi => by beta_reduce; rw [← h.2 i hi]; rfl⟩

theorem At.map {f : List ℕ → List ℕ → α} (g : α → β) (h : At sh T a f) : At sh T (a.mapA g) fun i c => g (f i c) :=
  ⟨h.shape, fun i hi c hc => congrArg g (h.val i hi c hc)⟩

theorem bidx_same {n : ℕ} (c : ℕ) (hc : c < n) : bidx [n] [c] = [c] := by
  by_cases h : n = 1
  · subst h
    obtain rfl : c = 0 := by omega
    rfl
  · simp [bidx, through, bcastIndexRev, h]

theorem h33 : ∀ c, InShape [3] c → InShape [3] (bidx [3] c) := by
  intro c hc
  obtain ⟨k, rfl, hk⟩ := inShape_one.1 hc
  rw [bidx_same k hk]
  exact hc

theorem h31 : ∀ c, InShape [3] c → InShape [1] (bidx [1] c) := by
  intro c hc
  obtain ⟨k, rfl, hk⟩ := inShape_one.1 hc
  exact inShape_one.2 ⟨0, rfl, by norm_num⟩

theorem Sc.zip {f : List ℕ → α} {g : List ℕ → β} (op : α → β → γ) (ha : Sc sh a f) (hb : Sc sh b g) :
    Ok (zipWith op a b) fun r => Sc sh r fun i => op (f i) (g i) :=
  (ha.at.zip (V := []) op hb.at rfl rfl (fun _ _ => inShape_nil.2 rfl) fun _ _ => inShape_nil.2 rfl).mono fun _ h => h.sc

/-- Componentwise operation on two vectors. -/
def map2 (op : α → β → γ) (u : V3 α) (v : V3 β) : V3 γ := ⟨op u.x v.x, op u.y v.y, op u.z v.z⟩

theorem Vc.zip {f : List ℕ → V3 α} {g : List ℕ → V3 β} (op : α → β → γ) (ha : Vc sh a f) (hb : Vc sh b g) :
    Ok (zipWith op a b) fun r => Vc sh r fun i => map2 op (f i) (g i) :=
  (ha.at.zip (V := [3]) op hb.at rfl rfl h33 h33).mono fun _ h => h.vc

theorem Vc.zipKp {f : List ℕ → V3 α} {g : List ℕ → β} (op : α → β → γ) (ha : Vc sh a f) (hb : Kp sh b g) :
    Ok (zipWith op a b) fun r => Vc sh r fun i => (f i).map (op · (g i)) :=
  (ha.at.zip (V := [3]) op hb.at rfl rfl h33 h31).mono fun _ h => h.vc

theorem Kp.zipVc {f : List ℕ → α} {g : List ℕ → V3 β} (op : α → β → γ) (ha : Kp sh a f) (hb : Vc sh b g) :
    Ok (zipWith op a b) fun r => Vc sh r fun i => (g i).map (op (f i)) :=
  (ha.at.zip (V := [3]) op hb.at rfl rfl h31 h33).mono fun _ h => h.vc

theorem Vc.zipArr {f : List ℕ → V3 ℝ} {a : NArr ℝ} (op : ℝ → ℝ → γ) (ha : Vc sh a f) (v : V3 ℝ) :
    Ok (zipWith op a (arr3 v)) fun r => Vc sh r fun i => map2 op (f i) v :=
  (ha.at.zipConst (V := [3]) op (by simp [arr3, NArr.ofList]) rfl h33).mono fun _ h => h.vc

theorem Vc.norm {f : List ℕ → V3 ℝ} {a : NArr ℝ} (h : Vc sh a f) : Sc sh a.norm fun i => (f i).len := by
  refine ⟨by simp [NArr.norm, Dipole.normLast, h.1], fun i hi => ?_⟩
  beta_reduce
  rw [← h.2 i hi]
  simp only [NArr.norm, Dipole.normLast, h.1, List.getLastD_concat, V3.len, vecAt]
  congr 1
  simp [List.range_succ]
  ring

theorem Sc.newLast {f : List ℕ → α} (h : Sc sh a f) : Kp sh a.newLast f :=
  ⟨by simp [NArr.newLast, h.1], fun i hi => by simpa [NArr.newLast] using h.2 i hi⟩

theorem Vc.normKeep {f : List ℕ → V3 ℝ} {a : NArr ℝ} (h : Vc sh a f) : Kp sh (normKeep a) fun i => (f i).len := h.norm.newLast

theorem Vc.dot {f : List ℕ → V3 ℝ} {a : NArr ℝ} (h : Vc sh a f) (d : V3 ℝ) : Sc sh (a.dotRight d) fun i => (f i).dot d :=
  ⟨by simp [dotRight, h.1], fun i hi => by beta_reduce; rw [← h.2 i hi]; rfl⟩

theorem Vc.crossLeft {f : List ℕ → V3 ℝ} {a : NArr ℝ} (h : Vc sh a f) (d : V3 ℝ) :
    Vc sh (NArr.crossLeft d a) fun i => d.cross (f i) :=
  ⟨h.1, fun i hi => by beta_reduce; rw [← h.2 i hi]; simp [vecAt, NArr.crossLeft, crossComp, V3.cross]⟩

theorem Vc.col0 {f : List ℕ → V3 α} (h : Vc sh a f) : Sc sh (a.col 0) fun i => (f i).x :=
  ⟨by simp [col, h.1], fun i hi => by beta_reduce; rw [← h.2 i hi]; rfl⟩

theorem Vc.col1 {f : List ℕ → V3 α} (h : Vc sh a f) : Sc sh (a.col 1) fun i => (f i).y :=
  ⟨by simp [col, h.1], fun i hi => by beta_reduce; rw [← h.2 i hi]; rfl⟩

theorem Vc.col2 {f : List ℕ → V3 α} (h : Vc sh a f) : Sc sh (a.col 2) fun i => (f i).z :=
  ⟨by simp [col, h.1], fun i hi => by beta_reduce; rw [← h.2 i hi]; rfl⟩

theorem stackLast_ok {p : NArr α} {l : List (NArr α)} (h : ∀ q ∈ l, q.shape = p.shape) :
    stackLast (p :: l) = .ok ⟨p.shape ++ [l.length + 1], fun i => ((p :: l).getD (i.getLastD 0) p).get i.dropLast⟩ := by
  unfold stackLast
  simp only
  rw [if_pos h]

/-- Three arrays of numbers stacked along a new last axis. -/
theorem stack3 {p q r : NArr α} {f g h : List ℕ → α} (hp : Sc sh p f) (hq : Sc sh q g) (hr : Sc sh r h) :
    Ok (stackLast [p, q, r]) fun a => Vc sh a fun i => ⟨f i, g i, h i⟩ := by
  refine ⟨_, stackLast_ok (by simp [hp.1, hq.1, hr.1]), ?_, ?_⟩
  · simp [hp.1]
  · intro i hi
    simp [vecAt, hp.2 i hi, hq.2 i hi, hr.2 i hi]

/-- Two arrays of numbers stacked along a new last axis. -/
theorem stack2 {p q : NArr α} {f g : List ℕ → α} (hp : Sc sh p f) (hq : Sc sh q g) :
    Ok (stackLast [p, q]) fun a => a.shape = sh ++ [2] ∧ (∀ i, InShape sh i → a.get (i ++ [0]) = f i) ∧
      ∀ i, InShape sh i → a.get (i ++ [1]) = g i := by
  refine ⟨_, stackLast_ok (by simp [hp.1, hq.1]), ?_, ?_, ?_⟩
  · simp [hp.1]
  · intro i hi
    simp [hp.2 i hi]
  · intro i hi
    simp [hq.2 i hi]

/-- Three arrays of vectors stacked along a new last axis. -/
theorem stack33 {p q r : NArr α} {f g h : List ℕ → V3 α} (hp : Vc sh p f) (hq : Vc sh q g) (hr : Vc sh r h) :
    Ok (stackLast [p, q, r]) fun a => a.shape = sh ++ [3, 3] ∧ ∀ i, InShape sh i →
      vecAt a (i ++ [0]) = ⟨(f i).x, (g i).x, (h i).x⟩ ∧ vecAt a (i ++ [1]) = ⟨(f i).y, (g i).y, (h i).y⟩ ∧
      vecAt a (i ++ [2]) = ⟨(f i).z, (g i).z, (h i).z⟩ := by
  refine ⟨_, stackLast_ok (by simp [hp.1, hq.1, hr.1]), ?_, ?_⟩
  · simp [hp.1]
  · intro i hi
    have e1 := hp.2 i hi
    have e2 := hq.2 i hi
    have e3 := hr.2 i hi
    rw [← e1, ← e2, ← e3]
    simp [vecAt]

variable {xyz : XyzArg ℝ} {x : List ℕ → V3 ℝ}

theorem check (h : IsPoints xyz sh x) : Ok (checkXyzDim xyz 3) fun a => Vc sh a x := by
  obtain ⟨a, ha, hs, hv⟩ := points_check h
  exact ⟨a, ha, hs, fun i _ => hv i⟩

theorem check_array {a : NArr ℝ} (h : Vc sh a x) : checkXyzDim (.array a) 3 = .ok a := (checkXyzDim_array a 3).1 sh h.1

/-! ## Row-major order -/

theorem ravelC_lt : ∀ {s i : List ℕ}, InShape s i → ravelC s i < s.prod
  | [], _, h => by cases h; simp [ravelC]
  | n :: s, _, h => by
    cases h with
    | @cons k _ i _ hk hi =>
      have := ravelC_lt hi
      have h2 : k * s.prod + s.prod ≤ n * s.prod := by
        calc k * s.prod + s.prod = (k + 1) * s.prod := by ring
          _ ≤ n * s.prod := Nat.mul_le_mul_right _ hk
      simp only [ravelC, List.prod_cons]
      omega

theorem unravelC_ravelC : ∀ {s i : List ℕ}, InShape s i → unravelC s (ravelC s i) = i
  | [], _, h => by cases h; rfl
  | n :: s, _, h => by
    cases h with
    | @cons k _ i _ hk hi =>
      have h1 := ravelC_lt hi
      have h0 : 0 < s.prod := by omega
      simp only [ravelC, unravelC]
      rw [Nat.add_comm, Nat.add_mul_div_right _ _ h0, Nat.div_eq_of_lt h1, Nat.add_mul_mod_self_right, Nat.mod_eq_of_lt h1,
        unravelC_ravelC hi, Nat.zero_add]

theorem ravelC_append (n : ℕ) (c : ℕ) : ∀ {s i : List ℕ}, InShape s i → ravelC (s ++ [n]) (i ++ [c]) = ravelC s i * n + c
  | [], _, h => by cases h; simp [ravelC]
  | m :: s, _, h => by
    cases h with
    | @cons k _ i _ hk hi =>
      simp only [List.cons_append, ravelC, ravelC_append n c hi, List.prod_append, List.prod_cons, List.prod_nil]
      ring

/-- The rows of an array of points. -/
theorem toRows_get {a : NArr α} (hs : a.shape = sh ++ [3]) {i : List ℕ} (hi : InShape sh i) {c : ℕ} (hc : c < 3) :
    a.toRows.get [ravelC sh i, c] = a.get (i ++ [c]) := by
  have h1 : ravelC [sh.prod, 3] [ravelC sh i, c] = ravelC (sh ++ [3]) (i ++ [c]) := by
    rw [ravelC_append 3 c hi]
    simp [ravelC]
  simp only [toRows, NArr.reshape, hs, List.dropLast_concat]
  rw [h1, unravelC_ravelC (Dipole.inShape_append hi hc)]

theorem toRows_shape {a : NArr α} (hs : a.shape = sh ++ [3]) : a.toRows.shape = [sh.prod, 3] := by simp [toRows, NArr.reshape, hs]

theorem reshape_get {b : NArr α} (hb : b.shape = [sh.prod, 3]) {i : List ℕ} (hi : InShape sh i) {c : ℕ} (hc : c < 3) :
    (b.reshape (sh ++ [3])).get (i ++ [c]) = b.get [ravelC sh i, c] := by
  simp only [NArr.reshape, hb]
  rw [ravelC_append 3 c hi]
  simp only [unravelC, List.prod_cons, List.prod_nil, mul_one, Nat.div_one]
  rw [show (ravelC sh i * 3 + c) / 3 = ravelC sh i by omega, show (ravelC sh i * 3 + c) % 3 = c by omega]

/-- Turning all the points of an array, through the array of its rows. -/
theorem rotate_rows {a : NArr ℝ} {b : NArr ℝ} {f : List ℕ → V3 ℝ} (m : M3 ℝ) (hb : b.shape = [sh.prod, 3])
    (h : ∀ i, InShape sh i → ∀ c, c < 3 → b.get [ravelC sh i, c] = entry (f i) c) (ha : a.shape = sh ++ [3]) :
    Vc sh ((applyRows m b).reshape a.shape) fun i => m.mulVec (f i) := by
  rw [ha]
  refine ⟨rfl, fun i hi => vecAt_eq.2 fun c hc => ?_⟩
  rw [reshape_get (by simp [applyRows, hb]) hi hc]
  have e : (⟨b.get [ravelC sh i, 0], b.get [ravelC sh i, 1], b.get [ravelC sh i, 2]⟩ : V3 ℝ) = f i := by
    rw [h i hi 0 (by norm_num), h i hi 1 (by norm_num), h i hi 2 (by norm_num)]
    rfl
  simp [applyRows, e]

theorem rows_getElem {a : NArr α} (hs : a.shape = sh ++ [3]) {i : List ℕ} (hi : InShape sh i) :
    a.rows[ravelC sh i]? = some (vecAt a i) := by
  have h := ravelC_lt hi
  simp only [rows, hs, List.dropLast_concat]
  rw [List.getElem?_map, List.getElem?_range h]
  simp only [Option.map_some, Option.some.injEq]
  refine vecAt_eq.2 fun c hc => ?_
  have := toRows_get hs hi hc
  simp only [List.cons_append, List.nil_append]
  rw [this]
  exact vecAt_eq.1 rfl c hc

/-! ## Two arrays of points of different shapes -/

theorem bcast_in : ∀ {s t u i : List ℕ}, bcastRev s t = some u → InShape u i → InShape s (bcastIndexRev s i)
  | [], _, _, _, _, _ => .nil
  | a :: s, [], u, i, h, hi => by
    rw [bcastRev_nil] at h
    obtain rfl := Option.some.inj h
    rw [Dipole.bcastIndexRev_self hi]
    exact hi
  | a :: s, b :: t, u, i, h, hi => by
    simp only [bcastRev] at h
    split_ifs at h with h1 h2 h3 <;> simp only [Option.map_eq_some_iff] at h <;> obtain ⟨w, hw, rfl⟩ := h <;>
      obtain _ | ⟨hk, ht⟩ := hi <;> simp only [bcastIndexRev] <;> refine .cons ?_ (bcast_in hw ht) <;> split_ifs <;> omega

theorem bcastShape_rev {s t u : List ℕ} (h : bcastShape s t = .ok u) : bcastRev s.reverse t.reverse = some u.reverse := by
  unfold bcastShape at h
  split at h
  · rename_i r hr
    obtain rfl := Except.ok.inj h
    simpa using hr
  · exact absurd h (by simp)

theorem through_left {s t u i : List ℕ} (h : bcastShape s t = .ok u) (hi : InShape u i) : InShape s (through s i) := by
  have := Dipole.inShape_reverse (bcast_in (bcastShape_rev h) (Dipole.inShape_reverse hi))
  simpa [through] using this

theorem through_right {s t u i : List ℕ} (h : bcastShape s t = .ok u) (hi : InShape u i) : InShape t (through t i) := by
  have e := bcastShape_rev h
  rw [bcastRev_comm] at e
  have := Dipole.inShape_reverse (bcast_in e (Dipole.inShape_reverse hi))
  simpa [through] using this

theorem through_concat (s i : List ℕ) {k : ℕ} (hk : k < 3) : through (s ++ [3]) (i ++ [k]) = through s i ++ [k] := by
  simp [through, bcastIndexRev]

theorem bcastShape_concat (s t : List ℕ) : bcastShape (s ++ [3]) (t ++ [3]) = (bcastShape s t).map (· ++ [3]) := by
  simp only [bcastShape, List.reverse_append, List.reverse_cons, List.reverse_nil, List.nil_append, List.singleton_append, bcastRev,
    if_true]
  cases bcastRev s.reverse t.reverse <;> simp [Except.map]

theorem zip_error {a : NArr α} {b : NArr β} (op : α → β → γ) {e : PyErr} (h : bcastShape a.shape b.shape = .error e) :
    zipWith op a b = .error e := by
  unfold zipWith
  rw [h]
  rfl

theorem Sc.zipAny {s t u : List ℕ} {a : NArr α} {b : NArr β} {f : List ℕ → α} {g : List ℕ → β} (op : α → β → γ) (ha : Sc s a f)
    (hb : Sc t b g) (h : bcastShape s t = .ok u) :
    Ok (zipWith op a b) fun r => Sc u r fun i => op (f (through s i)) (g (through t i)) := by
  unfold zipWith
  rw [ha.1, hb.1, h]
  refine ⟨_, rfl, rfl, fun i hi => ?_⟩
  beta_reduce
  rw [← ha.2 _ (through_left h hi), ← hb.2 _ (through_right h hi)]
  simp only [broadcastTo, ha.1, hb.1, through]

theorem Vc.zipAny {s t u : List ℕ} {a : NArr α} {b : NArr β} {f : List ℕ → V3 α} {g : List ℕ → V3 β} (op : α → β → γ) (ha : Vc s a f)
    (hb : Vc t b g) (h : bcastShape s t = .ok u) :
    Ok (zipWith op a b) fun r => Vc u r fun i => map2 op (f (through s i)) (g (through t i)) := by
  unfold zipWith
  rw [ha.1, hb.1, bcastShape_concat, h]
  refine ⟨_, rfl, rfl, fun i hi => ?_⟩
  beta_reduce
  rw [← ha.2 _ (through_left h hi), ← hb.2 _ (through_right h hi)]
  have e (v : List ℕ) (k : ℕ) (hk : k < 3) : (bcastIndexRev (v ++ [3]).reverse (i ++ [k]).reverse).reverse = through v i ++ [k] :=
    through_concat v i hk
  simp only [vecAt, broadcastTo, ha.1, hb.1, map2, e _ 0 (by norm_num), e _ 1 (by norm_num), e _ 2 (by norm_num)]

end Verif.PointArr
