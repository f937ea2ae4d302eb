import Verif.Model.FieldArrays
import Verif.Props.Utils
import Verif.Props.DipoleGeometry

/-!
# Arrays that broadcast to one common shape

`Den F sh k r o a f` says that the array `a` broadcasts to the shape `F ++ sh ++ [3]` (axes of the parameters, axes of the
points, components) and that its value there, at parameter `p`, point `i` and component `c`, is `f p i c`.  The three flags
say which of these groups of axes `a` has at full length.
-/

namespace Verif.Layout

open NArr Spatial Utils

variable {α β γ : Type}

/-- The shape `s` broadcasts to the shape `t` (both last axis first). -/
def BTo : List ℕ → List ℕ → Prop
  | [], _ => True
  | _ :: _, [] => False
  | a :: s, b :: t => (a = b ∨ a = 1) ∧ BTo s t

theorem BTo.refl : ∀ s : List ℕ, BTo s s
  | [] => trivial
  | _ :: s => ⟨.inl rfl, BTo.refl s⟩

theorem BTo.trans : ∀ {s t u : List ℕ}, BTo s t → BTo t u → BTo s u
  | [], _, _, _, _ => trivial
  | _ :: _, _ :: _, _ :: _, ⟨h, h'⟩, ⟨k, k'⟩ => ⟨by
      rcases h with rfl | rfl
      · exact k
      · exact .inr rfl, BTo.trans h' k'⟩

theorem BTo.antisymm : ∀ {s t : List ℕ}, BTo s t → BTo t s → s = t
  | [], [], _, _ => rfl
  | _ :: _, _ :: _, ⟨h, h'⟩, ⟨k, k'⟩ => by
    rw [BTo.antisymm h' k']
    rcases h with rfl | rfl
    · rfl
    · rcases k with rfl | rfl <;> rfl

theorem bcastRev_nil (s : List ℕ) : bcastRev s [] = some s := by cases s <;> rfl

theorem bcastIndexRev_idem : ∀ (s i : List ℕ), bcastIndexRev s (bcastIndexRev s i) = bcastIndexRev s i
  | [], _ => rfl
  | n :: s, [] => by simp [bcastIndexRev, bcastIndexRev_idem s]
  | n :: s, k :: i => by by_cases h : n = 1 <;> simp [bcastIndexRev, bcastIndexRev_idem s, h]

/-- Two shapes that broadcast to a third broadcast to each other. -/
theorem bcastRev_of_bTo : ∀ {s t T : List ℕ}, BTo s T → BTo t T →
    ∃ u, bcastRev s t = some u ∧ BTo u T ∧ BTo s u ∧ BTo t u ∧
      ∀ i, bcastIndexRev s (bcastIndexRev u i) = bcastIndexRev s i ∧ bcastIndexRev t (bcastIndexRev u i) = bcastIndexRev t i
  | [], t, T, _, h => ⟨t, rfl, h, trivial, BTo.refl t, fun i => ⟨rfl, bcastIndexRev_idem t i⟩⟩
  | a :: s, [], T, h, _ => ⟨a :: s, rfl, h, BTo.refl _, trivial, fun i => ⟨bcastIndexRev_idem _ i, rfl⟩⟩
  | a :: s, b :: t, c :: T, ⟨h, h'⟩, ⟨k, k'⟩ => by
    obtain ⟨u, hu, h1, h2, h3, h4⟩ := bcastRev_of_bTo h' k'
    by_cases e : a = b
    · subst e
      refine ⟨a :: u, by simp [bcastRev, hu], ⟨h, h1⟩, ⟨.inl rfl, h2⟩, ⟨.inl rfl, h3⟩, ?_⟩
      rintro (_ | ⟨j, i⟩)
      · simp [bcastIndexRev, h4]
      · by_cases e1 : a = 1 <;> simp [bcastIndexRev, h4, e1]
    · by_cases e1 : a = 1
      · refine ⟨b :: u, by simp [bcastRev, hu, e1], ⟨k, h1⟩, ⟨.inr e1, h2⟩, ⟨.inl rfl, h3⟩, ?_⟩
        rintro (_ | ⟨j, i⟩)
        · simp [bcastIndexRev, h4]
        · by_cases e2 : b = 1 <;> simp [bcastIndexRev, h4, e1, e2]
      · have e2 : b = 1 := by
          rcases h with rfl | h
          · rcases k with rfl | k
            · exact absurd rfl e
            · exact k
          · exact absurd h e1
        refine ⟨a :: u, by simp [bcastRev, hu, e1, e2], ⟨h, h1⟩, ⟨.inl rfl, h2⟩, ⟨.inr e2, h3⟩, ?_⟩
        rintro (_ | ⟨j, i⟩)
        · simp [bcastIndexRev, h4]
        · simp [bcastIndexRev, h4, e1, e2]

/-- See the head of the file. -/
structure Den (F sh : List ℕ) (k r o : Bool) (a : NArr α) (f : List ℕ → List ℕ → ℕ → α) : Prop where
  bto : BTo a.shape.reverse (F ++ sh ++ [3]).reverse
  hk : k = true → BTo (F ++ List.replicate (sh.length + 1) 1).reverse a.shape.reverse
  hr : r = true → BTo (sh ++ [1]).reverse a.shape.reverse
  ho : o = true → BTo [3] a.shape.reverse
  val : ∀ p, InShape F p → ∀ i, InShape sh i → ∀ c, c < 3 →
    a.get (bcastIndexRev a.shape.reverse (p ++ i ++ [c]).reverse).reverse = f p i c

/-- The computation succeeds with an array as in `Den`. -/
def DenP (F sh : List ℕ) (k r o : Bool) (a : Py (NArr α)) (f : List ℕ → List ℕ → ℕ → α) : Prop :=
  ∃ b, a = .ok b ∧ Den F sh k r o b f

variable {F sh : List ℕ} {k r o k' r' o' : Bool}

theorem ok_bind (a : α) (g : α → Py β) : ((.ok a : Py α) >>= g) = g a := rfl

theorem DenP.bind {a : Py (NArr α)} {f : List ℕ → List ℕ → ℕ → α} {g : NArr α → Py (NArr β)} {h : List ℕ → List ℕ → ℕ → β}
    (ha : DenP F sh k r o a f) (hg : ∀ b, Den F sh k r o b f → DenP F sh k' r' o' (g b) h) :
    DenP F sh k' r' o' (a >>= g) h := by
  obtain ⟨b, rfl, hb⟩ := ha
  exact hg b hb

theorem Den.map {a : NArr α} {f : List ℕ → List ℕ → ℕ → α} (g : α → β) (ha : Den F sh k r o a f) :
    Den F sh k r o (a.mapA g) (fun p i c => g (f p i c)) :=
  ⟨ha.bto, ha.hk, ha.hr, ha.ho, fun p hp i hi c hc => congrArg g (ha.val p hp i hi c hc)⟩

theorem Den.zip {a : NArr α} {b : NArr β} {f : List ℕ → List ℕ → ℕ → α} {g : List ℕ → List ℕ → ℕ → β} (op : α → β → γ)
    (ha : Den F sh k r o a f) (hb : Den F sh k' r' o' b g) :
    DenP F sh (k || k') (r || r') (o || o') (zipWith op a b) (fun p i c => op (f p i c) (g p i c)) := by
  obtain ⟨u, hu, h1, h2, h3, h4⟩ := bcastRev_of_bTo ha.bto hb.bto
  refine ⟨⟨u.reverse, fun i => op ((a.broadcastTo u.reverse).get i) ((b.broadcastTo u.reverse).get i)⟩, ?_, ?_⟩
  · simp only [zipWith, bcastShape, hu]
    rfl
  · refine ⟨by simpa using h1, ?_, ?_, ?_, ?_⟩
    · intro h
      simp only [List.reverse_reverse]
      rcases Bool.or_eq_true _ _ ▸ h with h | h
      · exact (ha.hk h).trans h2
      · exact (hb.hk h).trans h3
    · intro h
      simp only [List.reverse_reverse]
      rcases Bool.or_eq_true _ _ ▸ h with h | h
      · exact (ha.hr h).trans h2
      · exact (hb.hr h).trans h3
    · intro h
      simp only [List.reverse_reverse]
      rcases Bool.or_eq_true _ _ ▸ h with h | h
      · exact (ha.ho h).trans h2
      · exact (hb.ho h).trans h3
    · intro p hp i hi c hc
      simp only [broadcastTo, List.reverse_reverse, (h4 _).1, (h4 _).2]
      rw [ha.val p hp i hi c hc, hb.val p hp i hi c hc]

theorem BTo.append : ∀ {s t s' t' : List ℕ}, s.length = t.length → BTo s t → BTo s' t' → BTo (s ++ s') (t ++ t')
  | [], [], _, _, _, _, h => h
  | _ :: _, _ :: _, _, _, hl, ⟨h, h'⟩, k => ⟨h, BTo.append (by simpa using hl) h' k⟩

theorem BTo.prefix : ∀ {s t : List ℕ} (t' : List ℕ), BTo s t → BTo s (t ++ t')
  | [], _, _, _ => trivial
  | _ :: _, _ :: _, t', ⟨h, h'⟩ => ⟨h, BTo.prefix t' h'⟩

theorem BTo.ones : ∀ (t : List ℕ), BTo (List.replicate t.length 1) t
  | [] => trivial
  | _ :: t => ⟨.inr rfl, BTo.ones t⟩

theorem bcastIndexRev_append : ∀ {s i : List ℕ} (s' i' : List ℕ), s.length = i.length →
    bcastIndexRev (s ++ s') (i ++ i') = bcastIndexRev s i ++ bcastIndexRev s' i'
  | [], [], _, _, _ => rfl
  | _ :: s, _ :: i, s', i', h => by simp [bcastIndexRev, bcastIndexRev_append (s := s) (i := i) s' i' (by simpa using h)]

theorem bcastIndexRev_ones : ∀ (n : ℕ) (i : List ℕ), bcastIndexRev (List.replicate n 1) i = List.replicate n 0
  | 0, _ => rfl
  | n + 1, [] => by simp [List.replicate_succ, bcastIndexRev, bcastIndexRev_ones n]
  | n + 1, _ :: i => by simp [List.replicate_succ, bcastIndexRev, bcastIndexRev_ones n]

theorem inShape_length {s i : List ℕ} (h : InShape s i) : i.length = s.length := List.Forall₂.length_eq h

theorem rev_shape (F sh : List ℕ) (n : ℕ) : (F ++ sh ++ [n]).reverse = (sh ++ [n]).reverse ++ F.reverse := by simp

/-- The values of an array of parameters, with axes appended. -/
theorem den_param (q : NArr α) (hq : q.shape = F) {n : ℕ} (hn : n = sh.length + 1) :
    Den F sh true false false (appendNdim q n) (fun p _ _ => q.get p) := by
  subst hq hn
  have hs : (appendNdim q (sh.length + 1)).shape.reverse = List.replicate (sh ++ [3]).reverse.length 1 ++ q.shape.reverse := by
    rw [(appendNdim_spec q _).1]
    simp
  refine ⟨?_, ?_, by simp, by simp, ?_⟩
  · rw [hs, rev_shape]
    exact BTo.append (by simp) (BTo.ones _) (BTo.refl _)
  · intro _
    rw [(appendNdim_spec q _).1]
    exact BTo.refl _
  · intro p hp i hi c hc
    rw [hs, show (p ++ i ++ [c]).reverse = (i ++ [c]).reverse ++ p.reverse by simp,
      bcastIndexRev_append _ _ (by simp [inShape_length hi]), bcastIndexRev_ones,
      Dipole.bcastIndexRev_self (Dipole.inShape_reverse hp)]
    rw [List.reverse_append, List.reverse_reverse, List.reverse_replicate]
    have := (appendNdim_spec q (sh.length + 1)).2 p
    simpa using this

/-- An array with the axes of the points and one further axis of length one. -/
theorem den_points (a : NArr α) (ha : a.shape = sh ++ [1]) : Den F sh false true false a (fun _ i _ => a.get (i ++ [0])) := by
  refine ⟨?_, by simp, ?_, by simp, ?_⟩
  · rw [ha, rev_shape, List.reverse_append, List.reverse_append]
    exact BTo.prefix _ ⟨.inr rfl, BTo.refl _⟩
  · intro _
    rw [ha]
    exact BTo.refl _
  · intro p hp i hi c hc
    rw [ha, show (p ++ i ++ [c]).reverse = ([c] ++ i.reverse) ++ p.reverse by simp, List.reverse_append]
    have := bcastIndexRev_append (s := [1].reverse ++ sh.reverse) (i := [c] ++ i.reverse) [] p.reverse (by simp [inShape_length hi])
    rw [List.append_nil] at this
    rw [this]
    simp [bcastIndexRev, Dipole.bcastIndexRev_self (Dipole.inShape_reverse hi)]

/-- An array of vectors. -/
theorem den_vectors (a : NArr α) (ha : a.shape = sh ++ [3]) : Den F sh false true true a (fun _ i c => a.get (i ++ [c])) := by
  refine ⟨?_, by simp, ?_, ?_, ?_⟩
  · rw [ha, rev_shape, List.reverse_append]
    exact BTo.prefix _ ⟨.inl rfl, BTo.refl _⟩
  · intro _
    rw [ha, List.reverse_append, List.reverse_append]
    exact ⟨.inr rfl, BTo.refl _⟩
  · intro _
    rw [ha, List.reverse_append]
    exact ⟨.inl rfl, trivial⟩
  · intro p hp i hi c hc
    rw [ha, show (p ++ i ++ [c]).reverse = ([c] ++ i.reverse) ++ p.reverse by simp, List.reverse_append]
    have := bcastIndexRev_append (s := [3].reverse ++ sh.reverse) (i := [c] ++ i.reverse) [] p.reverse (by simp [inShape_length hi])
    rw [List.append_nil] at this
    rw [this]
    simp [bcastIndexRev, Dipole.bcastIndexRev_self (Dipole.inShape_reverse hi)]

/-- Component `c` of a vector. -/
def comp (v : V3 α) : ℕ → α
  | 0 => v.x
  | 1 => v.y
  | _ => v.z

/-- One vector. -/
theorem den_vector (v : V3 ℝ) : Den F sh false false true (arr3 v) (fun _ _ c => comp v c) := by
  have hs : (arr3 v).shape = [3] := rfl
  refine ⟨?_, by simp, by simp, ?_, ?_⟩
  · rw [hs, rev_shape, List.reverse_append, List.append_assoc]
    exact BTo.prefix _ ⟨.inl rfl, trivial⟩
  · intro _
    rw [hs]
    exact BTo.refl _
  · intro p hp i hi c hc
    rw [hs, List.reverse_append]
    simp only [List.reverse_cons, List.reverse_nil, List.nil_append, List.cons_append, bcastIndexRev]
    interval_cases c <;> rfl

/-- An array that has all the axes at full length. -/
theorem Den.done {a : NArr α} {f : List ℕ → List ℕ → ℕ → α} (h : Den F sh true true true a f) :
    a.shape = F ++ sh ++ [3] ∧ ∀ p, InShape F p → ∀ i, InShape sh i → vecAt a (p ++ i) = ⟨f p i 0, f p i 1, f p i 2⟩ := by
  have e : a.shape.reverse = (F ++ sh ++ [3]).reverse := by
    obtain ⟨u, hu, h1, -⟩ := bcastRev_of_bTo (h.hr rfl) (h.ho rfl)
    have hu' : u = (sh ++ [3]).reverse := by
      simp only [List.reverse_append, List.reverse_cons, List.reverse_nil, List.nil_append, List.cons_append, bcastRev,
        bcastRev_nil] at hu
      simpa using hu.symm
    subst hu'
    refine BTo.antisymm h.bto ?_
    have hk := h.hk rfl
    generalize a.shape.reverse = t at h1 hk
    have key : ∀ (s G t : List ℕ), BTo s t → BTo (List.replicate s.length 1 ++ G) t → BTo (s ++ G) t := by
      intro s
      induction s with
      | nil => intro G t _ h; exact h
      | cons x s ih =>
        intro G t h1 h2
        match t with
        | y :: t => exact ⟨h1.1, ih G t h1.2 h2.2⟩
    have := key (sh ++ [3]).reverse F.reverse t h1 (by simpa using hk)
    simpa using this
  have e' : a.shape = F ++ sh ++ [3] := List.reverse_injective e
  refine ⟨e', fun p hp i hi => ?_⟩
  have v : ∀ c, c < 3 → a.get (p ++ i ++ [c]) = f p i c := by
    intro c hc
    rw [← h.val p hp i hi c hc, e]
    have hin : InShape (F ++ sh ++ [3]) (p ++ i ++ [c]) := Dipole.inShape_append (List.rel_append hp hi) hc
    rw [Dipole.bcastIndexRev_self (Dipole.inShape_reverse hin), List.reverse_reverse]
  simp only [vecAt]
  rw [v 0 (by norm_num), v 1 (by norm_num), v 2 (by norm_num)]

theorem Den.congr {a : NArr α} {f g : List ℕ → List ℕ → ℕ → α} (h : Den F sh k r o a f)
    (e : ∀ p, InShape F p → ∀ i, InShape sh i → ∀ c, c < 3 → f p i c = g p i c) : Den F sh k r o a g :=
  ⟨h.bto, h.hk, h.hr, h.ho, fun p hp i hi c hc => (h.val p hp i hi c hc).trans (e p hp i hi c hc)⟩

/-- Without parameters the axes of the points and the components suffice. -/
theorem Den.done_points {a : NArr α} {f : List ℕ → List ℕ → ℕ → α} (h : Den [] sh k true true a f) :
    a.shape = sh ++ [3] ∧ ∀ i, InShape sh i → vecAt a i = ⟨f [] i 0, f [] i 1, f [] i 2⟩ := by
  have h' : Den [] sh true true true a f := by
    refine ⟨h.bto, fun _ => ?_, h.hr, h.ho, h.val⟩
    refine BTo.trans ?_ (h.hr rfl)
    have := BTo.ones (sh ++ [1]).reverse
    simpa using this
  have := h'.done
  exact ⟨this.1, fun i hi => this.2 [] .nil i hi⟩

variable {xyz : XyzArg ℝ} {x : List ℕ → V3 ℝ}

theorem points_check (h : IsPoints xyz sh x) :
    ∃ a, checkXyzDim xyz 3 = .ok a ∧ a.shape = sh ++ [3] ∧ ∀ i, vecAt a i = x i := by
  rcases h with ⟨a, rfl, ha, hx⟩ | ⟨a, b, c, rfl, ha, hb, hc, hx⟩
  · exact ⟨a, (checkXyzDim_array a 3).1 sh ha, ha, fun i => (hx i).symm⟩
  · obtain ⟨d, hd, hs, hv⟩ := checkXyzDim_tuple [a, b, c] sh (by simp [ha, hb, hc]) (by simp)
    refine ⟨d, hd, hs, fun i => ?_⟩
    rw [hx]
    simp only [vecAt]
    rw [hv 0 (by simp), hv 1 (by simp), hv 2 (by simp)]
    rfl

theorem comp_vecAt {a : NArr α} {i : List ℕ} {c : ℕ} (hc : c < 3) : a.get (i ++ [c]) = comp (vecAt a i) c := by
  interval_cases c <;> rfl

/-- The distance and the unit vector from the source, as every dipole method computes them. -/
theorem separation {a : NArr ℝ} (ha : a.shape = sh ++ [3]) (hx : ∀ i, vecAt a i = x i) (l : V3 ℝ) :
    ∃ v, zipWith (· - ·) a (arr3 l) = .ok v ∧ (normKeep v).shape = sh ++ [1] ∧
      (∀ F, Den F sh false true false (normKeep v) (fun _ i _ => (x i - l).len)) ∧
      ∃ h, zipWith (· / ·) v (normKeep v) = .ok h ∧ h.shape = sh ++ [3] ∧
        ∀ i, InShape sh i → vecAt h i = (x i - l).map (· / (x i - l).len) := by
  obtain ⟨v, hv, hs, hr⟩ := Dipole.vectorDistance_rows (s := ⟨l, l⟩) ha
  have hn : (normKeep v).shape = sh ++ [1] := by simp [normKeep, newLast, Dipole.normLast, hs]
  have hd : ∀ F, Den F sh false true false (normKeep v) (fun _ i _ => (x i - l).len) := by
    intro F
    refine (den_points _ hn).congr fun p hp i hi c hc => ?_
    rw [← hx i, ← hr i hi]
    simp only [normKeep, newLast, List.dropLast_concat, Dipole.normLast, hs, List.getLastD_concat, V3.len, vecAt]
    congr 1
    simp [List.range_succ]
    ring
  refine ⟨v, hv, hn, hd, ?_⟩
  obtain ⟨h, hh, hden⟩ := Den.zip (· / ·) (den_vectors (F := []) v hs) (hd [])
  refine ⟨h, hh, hden.done_points.1, fun i hi => ?_⟩
  rw [hden.done_points.2 i hi, ← hx i, ← hr i hi]
  rfl

variable {h : NArr ℝ} {u : List ℕ → V3 ℝ}

theorem den_unit (hs : h.shape = sh ++ [3]) (hu : ∀ i, InShape sh i → vecAt h i = u i) :
    Den F sh false true true h (fun _ i c => comp (u i) c) :=
  (den_vectors h hs).congr fun p hp i hi c hc => by rw [comp_vecAt hc, hu i hi]

theorem den_dot (hs : h.shape = sh ++ [3]) (hu : ∀ i, InShape sh i → vecAt h i = u i) (d : V3 ℝ) :
    Den F sh false true false (h.dotRight d).newLast (fun _ i _ => (u i).dot d) :=
  (den_points _ (by simp [newLast, dotRight, hs])).congr fun p hp i hi c hc => by
    rw [← hu i hi]
    simp [newLast, dotRight, V3.dot, vecAt]

theorem crossComp_comp (a b : V3 ℝ) {c : ℕ} (hc : c < 3) : crossComp a b c = comp (a.cross b) c := by
  interval_cases c <;> rfl

theorem den_crossLeft (hs : h.shape = sh ++ [3]) (hu : ∀ i, InShape sh i → vecAt h i = u i) (d : V3 ℝ) :
    Den F sh false true true (crossLeft d h) (fun _ i c => comp (d.cross (u i)) c) :=
  (den_vectors _ (by simp [crossLeft, hs])).congr fun p hp i hi c hc => by
    rw [← hu i hi]
    simp only [crossLeft, List.dropLast_concat, List.getLastD_concat]
    exact crossComp_comp _ _ hc

theorem den_crossRight (hs : h.shape = sh ++ [3]) (hu : ∀ i, InShape sh i → vecAt h i = u i) (d : V3 ℝ) :
    Den F sh false true true (crossRight h d) (fun _ i c => comp ((u i).cross d) c) :=
  (den_vectors _ (by simp [crossRight, hs])).congr fun p hp i hi c hc => by
    rw [← hu i hi]
    simp only [crossRight, List.dropLast_concat, List.getLastD_concat]
    exact crossComp_comp _ _ hc

theorem den_third {a : NArr ℝ} (ha : a.shape = sh ++ [3]) (hx : ∀ i, vecAt a i = x i) :
    Den F sh false true false (thirdKeep a) (fun _ i _ => (x i).z) :=
  (den_points _ (by simp [thirdKeep, ha])).congr fun p hp i hi c hc => by
    rw [← hx i]
    simp [thirdKeep, vecAt]

theorem DenP.congr {a : Py (NArr α)} {f g : List ℕ → List ℕ → ℕ → α} (h : DenP F sh k r o a f)
    (e : ∀ p, InShape F p → ∀ i, InShape sh i → ∀ c, c < 3 → f p i c = g p i c) : DenP F sh k r o a g := by
  obtain ⟨b, hb, hd⟩ := h
  exact ⟨b, hb, hd.congr e⟩

/-- What a whole method has to satisfy. -/
theorem DenP.holds {q : NArr ℝ} {m : Py (NArr α)} {g : ℝ → V3 ℝ → V3 α}
    (hm : DenP q.shape sh true true true m (fun p i c => comp (g (q.get p) (x i)) c)) :
    ∃ r, m = .ok r ∧ HoldsPairs q sh x g r := by
  obtain ⟨b, hb, hd⟩ := hm
  exact ⟨b, hb, hd.done.1, fun p hp i hi => hd.done.2 p hp i hi⟩

/-- Methods that multiply the result of another one. -/
theorem holds_map {q : NArr ℝ} {m : Py (NArr α)} {g : ℝ → V3 ℝ → V3 α} (f : α → β)
    (h : ∃ r, m = .ok r ∧ HoldsPairs q sh x g r) :
    ∃ r, (m >>= fun b => pure (b.mapA f)) = .ok r ∧ HoldsPairs q sh x (fun q x => (g q x).map f) r := by
  obtain ⟨r, rfl, hs, hv⟩ := h
  refine ⟨r.mapA f, rfl, hs, fun p hp i hi => ?_⟩
  show _ = (g (q.get p) (x i)).map f
  rw [← hv p hp i hi]
  rfl

end Verif.Layout
