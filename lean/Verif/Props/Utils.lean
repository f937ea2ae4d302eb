import Verif.Lemmas.Arrays

/-! # C01–C05: array utilities -/

namespace Verif.Utils

open NArr

variable {α : Type}

/-! ## Specification -/

/-- Column-major position of the multi-index `(i0, i1, i2, …)` in shape `(s0, s1, …)`:
`i0 + s0 (i1 + s1 (i2 + …))`. -/
def fpos : List ℕ → List ℕ → ℕ
  | n :: s, k :: i => k + n * fpos s i
  | _, _ => 0

/-! ## C01 -/

theorem fpos_lt : ∀ (s i : List ℕ), InShape s i → fpos s i < s.prod
  | _, _, .nil => by simp [fpos]
  | _, _, .cons (a := k) (b := n) (l₁ := i) (l₂ := s) h1 h2 => by
    have ih := fpos_lt s i h2
    simp only [fpos, List.prod_cons]
    calc k + n * fpos s i < n + n * fpos s i := by omega
      _ = n * (fpos s i + 1) := by ring
      _ ≤ n * s.prod := Nat.mul_le_mul_left _ ih

theorem unravelF_fpos : ∀ (s i : List ℕ), InShape s i → unravelF s (fpos s i) = i
  | _, _, .nil => rfl
  | _, _, .cons (a := k) (b := n) (l₁ := i) (l₂ := s) h1 h2 => by
    have ih := unravelF_fpos s i h2
    simp only [fpos, unravelF]
    have hn : 0 < n := by omega
    rw [Nat.add_mul_mod_self_left, Nat.mod_eq_of_lt h1, Nat.add_mul_div_left _ _ hn,
      Nat.div_eq_of_lt h1, zero_add, ih]

theorem fpos_unravelF : ∀ (s : List ℕ) (k : ℕ), k < s.prod → fpos s (unravelF s k) = k
  | [], k, h => by simp at h; simp [fpos, h]
  | n :: s, k, h => by
    rw [List.prod_cons] at h
    have ih := fpos_unravelF s (k / n) (Nat.div_lt_of_lt_mul h)
    simp only [unravelF, fpos, ih]
    exact Nat.mod_add_div k n

/-- **C01.** `mkvc(x, n)` for `n ∈ {1,2,3}`: the shape is `(size,)` followed by `n - 1` ones, and the element of `x`
at multi-index `i` sits at the column-major position of `i`. -/
theorem mkvc_spec (x : NArr α) (n : ℕ) (h1 : 1 ≤ n) (h3 : n ≤ 3) :
    ∃ y, mkvc (.ndarray x) n = .ok (some y) ∧ y.shape = x.shape.prod :: List.replicate (n - 1) 1 ∧
      ∀ i, InShape x.shape i → y.get (fpos x.shape i :: List.replicate (n - 1) 0) = x.get i := by
  have hn : n = 1 ∨ n = 2 ∨ n = 3 := by omega
  rcases hn with rfl | rfl | rfl
  · refine ⟨_, rfl, rfl, fun i hi => ?_⟩
    simp [flattenF, unravelF_fpos _ _ hi]
  · refine ⟨_, rfl, rfl, fun i hi => ?_⟩
    simp [flattenF, newLast, unravelF_fpos _ _ hi]
  · refine ⟨_, rfl, rfl, fun i hi => ?_⟩
    simp [flattenF, newLast, List.replicate, unravelF_fpos _ _ hi]

/-- **C01.** The position map is a bijection between in-range multi-indices and `0, …, size - 1`: every element appears
exactly once. -/
theorem mkvc_bijection (s : List ℕ) :
    (∀ i, InShape s i → fpos s i < s.prod) ∧
    (∀ i j, InShape s i → InShape s j → fpos s i = fpos s j → i = j) ∧
    (∀ k, k < s.prod → ∃ i, InShape s i ∧ fpos s i = k) :=
  ⟨fpos_lt s, fun i j hi hj h => by rw [← unravelF_fpos s i hi, h, unravelF_fpos s j hj],
    fun k hk => ⟨_, unravelF_inShape s k hk, fpos_unravelF s k hk⟩⟩

/-- **C01.** Any other `n_dims` returns `None`; an `np.matrix` is treated as the array it holds; anything that is not
an array raises `AssertionError`. -/
theorem mkvc_other (x : NArr α) (n : ℤ) :
    (n ≠ 1 → n ≠ 2 → n ≠ 3 → mkvc (.ndarray x) n = .ok none) ∧
      mkvc (.matrix x) n = mkvc (.ndarray x) n ∧
      mkvc (.other : Arg α) n = .error .assertionError := by
  refine ⟨fun h1 h2 h3 => by simp [mkvc, h1, h2, h3], rfl, rfl⟩

/-- Non-vacuity: in a `2 × 3` array the element `(1, 2)` goes to position `1 + 2*2 = 5`. -/
example : InShape [2, 3] [1, 2] ∧ fpos [2, 3] [1, 2] = 5 :=
  ⟨.cons (by norm_num) (.cons (by norm_num) .nil), rfl⟩

/-! ## C02 -/

/-- One-dimensional arrays. -/
def IsVec (x : NArr α) (n : ℕ) : Prop := x.shape = [n]

theorem vec_flatten (x : NArr α) (n : ℕ) (h : IsVec x n) (k : ℕ) (hk : k < n) :
    x.flattenF.shape = [n] ∧ x.flattenF.get [k] = x.get [k] := by
  unfold IsVec at h
  constructor
  · simp [flattenF, size, h]
  · simp [flattenF, h, unravelF, Nat.mod_eq_of_lt hk]

theorem mkvc1 (x : NArr α) : mkvc! (.ndarray x) 1 = .ok x.flattenF := rfl
theorem mkvc2 (x : NArr α) : mkvc! (.ndarray x) 2 = .ok x.flattenF.newLast := rfl
theorem mkvc3 (x : NArr α) : mkvc! (.ndarray x) 3 = .ok x.flattenF.newLast.newLast := rfl

theorem bcast_two (n1 n2 : ℕ) : bcastShape [n2] [n1, 1] = .ok [n1, n2] := by
  simp only [bcastShape, List.reverse_cons, List.reverse_nil, List.nil_append, List.cons_append,
    bcastRev]
  by_cases h : n2 = 1
  · subst h; simp
  · simp [h]

theorem bcast_three (n1 n2 n3 : ℕ) : bcastShape [n2, n3] [n1, 1, 1] = .ok [n1, n2, n3] := by
  simp only [bcastShape, List.reverse_cons, List.reverse_nil, List.nil_append, List.cons_append,
    bcastRev]
  by_cases h : n2 = 1 <;> by_cases h' : n3 = 1 <;> simp [h, h']

theorem if_one_index {n k : ℕ} (h : k < n) : (if n = 1 then 0 else k) = k := by
  split
  · omega
  · rfl

theorem flat2 {i1 i2 n1 n2 : ℕ} (h1 : i1 < n1) (h2 : i2 < n2) :
    unravelF [n1, n2] (i1 + n1 * i2) = [i1, i2] :=
  unravelF_fpos [n1, n2] [i1, i2] (.cons h1 (.cons h2 .nil))

theorem flat3 {i1 i2 i3 n1 n2 n3 : ℕ} (h1 : i1 < n1) (h2 : i2 < n2) (h3 : i3 < n3) :
    unravelF [n1, n2, n3] (i1 + n1 * (i2 + n2 * i3)) = [i1, i2, i3] :=
  unravelF_fpos [n1, n2, n3] [i1, i2, i3] (.cons h1 (.cons h2 (.cons h3 .nil)))

/-- What the broadcast arrays hold (two vectors). -/
theorem grid2_entries (x1 x2 : NArr α) (n1 n2 : ℕ) (h1 : IsVec x1 n1) (h2 : IsVec x2 n2) (i1 i2 : ℕ)
    (hi1 : i1 < n1) (hi2 : i2 < n2) :
    (x1.flattenF.newLast.broadcastTo [n1, n2]).get [i1, i2] = x1.get [i1] ∧
      (x2.flattenF.broadcastTo [n1, n2]).get [i1, i2] = x2.get [i2] := by
  have hf1 : x1.flattenF.get [i1] = x1.get [i1] := (vec_flatten x1 n1 h1 i1 hi1).2
  have hf2 : x2.flattenF.get [i2] = x2.get [i2] := (vec_flatten x2 n2 h2 i2 hi2).2
  have s1 : x1.flattenF.newLast.shape = [n1, 1] := by
    unfold IsVec at h1; simp [newLast, flattenF, size, h1]
  have s2 : x2.flattenF.shape = [n2] := by unfold IsVec at h2; simp [flattenF, size, h2]
  constructor
  · rw [← hf1, broadcastTo, s1]
    simp [bcastIndexRev, if_one_index hi1, newLast]
  · rw [← hf2, broadcastTo, s2]
    simp [bcastIndexRev, if_one_index hi2]

/-- What the broadcast arrays hold (three vectors). -/
theorem grid3_entries (x1 x2 x3 : NArr α) (n1 n2 n3 : ℕ) (h1 : IsVec x1 n1) (h2 : IsVec x2 n2)
    (h3 : IsVec x3 n3) (i1 i2 i3 : ℕ) (hi1 : i1 < n1) (hi2 : i2 < n2) (hi3 : i3 < n3) :
    (x1.flattenF.newLast.newLast.broadcastTo [n1, n2, n3]).get [i1, i2, i3] = x1.get [i1] ∧
      (x2.flattenF.newLast.broadcastTo [n1, n2, n3]).get [i1, i2, i3] = x2.get [i2] ∧
      (x3.flattenF.broadcastTo [n1, n2, n3]).get [i1, i2, i3] = x3.get [i3] := by
  have hf1 : x1.flattenF.get [i1] = x1.get [i1] := (vec_flatten x1 n1 h1 i1 hi1).2
  have hf2 : x2.flattenF.get [i2] = x2.get [i2] := (vec_flatten x2 n2 h2 i2 hi2).2
  have hf3 : x3.flattenF.get [i3] = x3.get [i3] := (vec_flatten x3 n3 h3 i3 hi3).2
  have s1 : x1.flattenF.newLast.newLast.shape = [n1, 1, 1] := by
    unfold IsVec at h1; simp [newLast, flattenF, size, h1]
  have s2 : x2.flattenF.newLast.shape = [n2, 1] := by
    unfold IsVec at h2; simp [newLast, flattenF, size, h2]
  have s3 : x3.flattenF.shape = [n3] := by unfold IsVec at h3; simp [flattenF, size, h3]
  refine ⟨?_, ?_, ?_⟩
  · rw [← hf1, broadcastTo, s1]
    simp [bcastIndexRev, if_one_index hi1, newLast]
  · rw [← hf2, broadcastTo, s2]
    simp [bcastIndexRev, if_one_index hi2, newLast]
  · rw [← hf3, broadcastTo, s3]
    simp [bcastIndexRev, if_one_index hi3]

theorem broadcast2_eq (x1 x2 : NArr α) (n1 n2 : ℕ) (h1 : IsVec x1 n1) (h2 : IsVec x2 n2) :
    broadcast2 x2.flattenF x1.flattenF.newLast =
      .ok (x2.flattenF.broadcastTo [n1, n2], x1.flattenF.newLast.broadcastTo [n1, n2]) := by
  have s1 : x1.flattenF.newLast.shape = [n1, 1] := by
    unfold IsVec at h1; simp [newLast, flattenF, size, h1]
  have s2 : x2.flattenF.shape = [n2] := by unfold IsVec at h2; simp [flattenF, size, h2]
  simp only [broadcast2, s1, s2, bcast_two, bind, Except.bind, pure, Except.pure]

theorem broadcast3_eq (x1 x2 x3 : NArr α) (n1 n2 n3 : ℕ) (h1 : IsVec x1 n1) (h2 : IsVec x2 n2)
    (h3 : IsVec x3 n3) :
    broadcast3 x3.flattenF x2.flattenF.newLast x1.flattenF.newLast.newLast =
      .ok (x3.flattenF.broadcastTo [n1, n2, n3], x2.flattenF.newLast.broadcastTo [n1, n2, n3],
        x1.flattenF.newLast.newLast.broadcastTo [n1, n2, n3]) := by
  have s1 : x1.flattenF.newLast.newLast.shape = [n1, 1, 1] := by
    unfold IsVec at h1; simp [newLast, flattenF, size, h1]
  have s2 : x2.flattenF.newLast.shape = [n2, 1] := by
    unfold IsVec at h2; simp [newLast, flattenF, size, h2]
  have s3 : x3.flattenF.shape = [n3] := by unfold IsVec at h3; simp [flattenF, size, h3]
  simp only [broadcast3, s1, s2, s3, bcast_two, bcast_three, bind, Except.bind, pure, Except.pure]

/-- **C02.** Two vectors, `vector=True`: `n1 n2` rows; row `i1 + n1 i2` is `(x1[i1], x2[i2])`.  The vectors may be
given as separate arguments or in a list. -/
theorem ndgrid_two (x1 x2 : NArr α) (n1 n2 : ℕ) (h1 : IsVec x1 n1) (h2 : IsVec x2 n2)
    (a : GridArgs α) (ha : a.vectors = .ok [.ndarray x1, .ndarray x2]) :
    ∃ m, ndgrid a true = .ok (.array m) ∧ m.shape = [n1 * n2, 2] ∧
      ∀ i1 i2, i1 < n1 → i2 < n2 →
        m.get [i1 + n1 * i2, 0] = x1.get [i1] ∧ m.get [i1 + n1 * i2, 1] = x2.get [i2] := by
  refine ⟨stackColumns (x1.flattenF.newLast.broadcastTo [n1, n2]).flattenF
    [(x2.flattenF.broadcastTo [n1, n2]).flattenF], ?_, ?_, ?_⟩
  · simp only [ndgrid, ha, bind, Except.bind, mkvc1, mkvc2, broadcast2_eq x1 x2 n1 n2 h1 h2]
    rfl
  · simp [stackColumns, broadcastTo, flattenF, size]
  · intro i1 i2 hi1 hi2
    obtain ⟨e1, e2⟩ := grid2_entries x1 x2 n1 n2 h1 h2 i1 i2 hi1 hi2
    have hf := flat2 hi1 hi2
    rw [← e1, ← e2]
    constructor
    · change (x1.flattenF.newLast.broadcastTo [n1, n2]).get (unravelF [n1, n2] (i1 + n1 * i2)) = _
      rw [hf]
    · change (x2.flattenF.broadcastTo [n1, n2]).get (unravelF [n1, n2] (i1 + n1 * i2)) = _
      rw [hf]

/-- **C02.** Three vectors, `vector=True`: `n1 n2 n3` rows; row `i1 + n1 (i2 + n2 i3)` is
`(x1[i1], x2[i2], x3[i3])`. -/
theorem ndgrid_three (x1 x2 x3 : NArr α) (n1 n2 n3 : ℕ) (h1 : IsVec x1 n1) (h2 : IsVec x2 n2)
    (h3 : IsVec x3 n3) (a : GridArgs α)
    (ha : a.vectors = .ok [.ndarray x1, .ndarray x2, .ndarray x3]) :
    ∃ m, ndgrid a true = .ok (.array m) ∧ m.shape = [n1 * (n2 * n3), 3] ∧
      ∀ i1 i2 i3, i1 < n1 → i2 < n2 → i3 < n3 →
        m.get [i1 + n1 * (i2 + n2 * i3), 0] = x1.get [i1] ∧
        m.get [i1 + n1 * (i2 + n2 * i3), 1] = x2.get [i2] ∧
        m.get [i1 + n1 * (i2 + n2 * i3), 2] = x3.get [i3] := by
  refine ⟨stackColumns (x1.flattenF.newLast.newLast.broadcastTo [n1, n2, n3]).flattenF
    [(x2.flattenF.newLast.broadcastTo [n1, n2, n3]).flattenF,
      (x3.flattenF.broadcastTo [n1, n2, n3]).flattenF], ?_, ?_, ?_⟩
  · simp only [ndgrid, ha, bind, Except.bind, mkvc1, mkvc2, mkvc3,
      broadcast3_eq x1 x2 x3 n1 n2 n3 h1 h2 h3]
    rfl
  · simp [stackColumns, broadcastTo, flattenF, size]
  · intro i1 i2 i3 hi1 hi2 hi3
    obtain ⟨e1, e2, e3⟩ := grid3_entries x1 x2 x3 n1 n2 n3 h1 h2 h3 i1 i2 i3 hi1 hi2 hi3
    have hf := flat3 hi1 hi2 hi3
    rw [← e1, ← e2, ← e3]
    refine ⟨?_, ?_, ?_⟩
    · change (x1.flattenF.newLast.newLast.broadcastTo [n1, n2, n3]).get
        (unravelF [n1, n2, n3] (i1 + n1 * (i2 + n2 * i3))) = _
      rw [hf]
    · change (x2.flattenF.newLast.broadcastTo [n1, n2, n3]).get
        (unravelF [n1, n2, n3] (i1 + n1 * (i2 + n2 * i3))) = _
      rw [hf]
    · change (x3.flattenF.broadcastTo [n1, n2, n3]).get
        (unravelF [n1, n2, n3] (i1 + n1 * (i2 + n2 * i3))) = _
      rw [hf]

/-- **C02.** `vector=False`: one array per vector, of the grid shape, whose entry at `(i1, i2)` is the vector's. -/
theorem ndgrid_two_arrays (x1 x2 : NArr α) (n1 n2 : ℕ) (h1 : IsVec x1 n1) (h2 : IsVec x2 n2)
    (a : GridArgs α) (ha : a.vectors = .ok [.ndarray x1, .ndarray x2]) :
    ∃ X1 X2, ndgrid a false = .ok (.tuple [X1, X2]) ∧ X1.shape = [n1, n2] ∧ X2.shape = [n1, n2] ∧
      ∀ i1 i2, i1 < n1 → i2 < n2 → X1.get [i1, i2] = x1.get [i1] ∧ X2.get [i1, i2] = x2.get [i2] := by
  refine ⟨x1.flattenF.newLast.broadcastTo [n1, n2], x2.flattenF.broadcastTo [n1, n2], ?_, rfl, rfl,
    fun i1 i2 => grid2_entries x1 x2 n1 n2 h1 h2 i1 i2⟩
  simp only [ndgrid, ha, bind, Except.bind, mkvc1, mkvc2, broadcast2_eq x1 x2 n1 n2 h1 h2]
  rfl

/-- **C02.** `vector=False` with three vectors. -/
theorem ndgrid_three_arrays (x1 x2 x3 : NArr α) (n1 n2 n3 : ℕ) (h1 : IsVec x1 n1) (h2 : IsVec x2 n2)
    (h3 : IsVec x3 n3) (a : GridArgs α)
    (ha : a.vectors = .ok [.ndarray x1, .ndarray x2, .ndarray x3]) :
    ∃ X1 X2 X3, ndgrid a false = .ok (.tuple [X1, X2, X3]) ∧ X1.shape = [n1, n2, n3] ∧
      X2.shape = [n1, n2, n3] ∧ X3.shape = [n1, n2, n3] ∧
      ∀ i1 i2 i3, i1 < n1 → i2 < n2 → i3 < n3 → X1.get [i1, i2, i3] = x1.get [i1] ∧
        X2.get [i1, i2, i3] = x2.get [i2] ∧ X3.get [i1, i2, i3] = x3.get [i3] := by
  refine ⟨x1.flattenF.newLast.newLast.broadcastTo [n1, n2, n3],
    x2.flattenF.newLast.broadcastTo [n1, n2, n3], x3.flattenF.broadcastTo [n1, n2, n3], ?_, rfl, rfl, rfl,
    fun i1 i2 i3 => grid3_entries x1 x2 x3 n1 n2 n3 h1 h2 h3 i1 i2 i3⟩
  simp only [ndgrid, ha, bind, Except.bind, mkvc1, mkvc2, mkvc3,
      broadcast3_eq x1 x2 x3 n1 n2 n3 h1 h2 h3]
  rfl

/-- **C02.** The keyword `vector` is optional and means `True`; anything but a `bool` for it and any other keyword are refused, before the
vectors are looked at. -/
theorem ndgrid_keywords (a : GridArgs α) :
    ndgridCall a [] = ndgrid a true ∧ (∀ b, ndgridCall a [("vector", .bool b)] = ndgrid a b) ∧
    (∀ kw, ("vector", KwVal.other) ∈ kw → (kw.map Prod.fst).Nodup → ndgridCall a kw = .error .assertionError) ∧
    (∀ kw k v, (k, v) ∈ kw → k ≠ "vector" → ndgridCall a kw = .error .assertionError) := by
  refine ⟨rfl, fun b => rfl, fun kw h hn => ?_, fun kw k v h hk => ?_⟩
  · have : kw.lookup "vector" = some .other := by
      induction kw with
      | nil => simp at h
      | cons x xs ih =>
        rw [List.map_cons, List.nodup_cons] at hn
        rcases List.mem_cons.1 h with rfl | h'
        · simp [List.lookup]
        · have hx : x.1 ≠ "vector" := fun e => hn.1 (e ▸ List.mem_map.2 ⟨_, h', rfl⟩)
          rw [List.lookup]
          have : ("vector" == x.1) = false := by simpa using fun e => hx e.symm
          rw [this]
          exact ih h' hn.2
    simp [ndgridCall, this]
  · have hm : (k, v) ∈ kw.filter fun kv => kv.1 ≠ "vector" := by simp [h, hk]
    have hl : (kw.filter fun kv => kv.1 ≠ "vector").length ≠ 0 := by
      intro e
      rw [List.length_eq_zero_iff] at e
      rw [e] at hm
      simp at hm
    simp only [ndgridCall]
    split
    · rfl
    · rw [if_pos hl]

/-- **C02.** One array is returned unchanged; an empty list or more than three arrays give `None`; a non-array raises
`AssertionError`; no argument at all raises `IndexError`. -/
theorem ndgrid_other (a : GridArgs α) (v : Bool) :
    (∀ x, a.vectors = .ok [.ndarray x] → ndgrid a v = .ok (.array x)) ∧
    (∀ xs, a.vectors = .ok xs → (∀ x ∈ xs, x.isArray = true) → xs.length = 0 ∨ 3 < xs.length →
      ndgrid a v = .ok .none) ∧
    (∀ xs, a.vectors = .ok xs → (∃ x ∈ xs, x.isArray = false) → ndgrid a v = .error .assertionError) ∧
    ndgrid (.args [] : GridArgs α) v = .error .indexError := by
  refine ⟨fun x h => ?_, fun xs h hx hl => ?_, fun xs h hx => ?_, rfl⟩
  · simp [ndgrid, h, bind, Except.bind, Arg.isArray, pure, Except.pure]
  · have hall : xs.all Arg.isArray = true := List.all_eq_true.2 hx
    simp only [ndgrid, h, bind, Except.bind, hall]
    match xs, hl with
    | [], _ => rfl
    | x0 :: _ :: _ :: _ :: _, _ => cases x0 <;> rfl
    | [_], hl => simp at hl
    | [_, _], hl => simp at hl
    | [_, _, _], hl => simp at hl
  · have hall : xs.all Arg.isArray = false := by
      obtain ⟨x, hx1, hx2⟩ := hx
      rw [List.all_eq_false]; exact ⟨x, hx1, by simp [hx2]⟩
    simp [ndgrid, h, bind, Except.bind, hall]

/-- Non-vacuity: both ways of passing two vectors. -/
example (x y : NArr α) : (GridArgs.list [.ndarray x, .ndarray y] []).vectors = .ok [.ndarray x, .ndarray y] ∧
    (GridArgs.args [.ndarray x, .ndarray y]).vectors = .ok [.ndarray x, .ndarray y] := ⟨rfl, rfl⟩
example : IsVec (NArr.ofList [1, 2, 3] 0) 3 := rfl

/-! ## C03 -/

/-- **C03.** For an array: returned as it is exactly when the last axis has length `dim`; `ValueError` otherwise;
`IndexError` for a 0-d array. -/
theorem checkXyzDim_array (a : NArr α) (dim : ℕ) :
    (∀ s, a.shape = s ++ [dim] → checkXyzDim (.array a) dim = .ok a) ∧
    (∀ s n, a.shape = s ++ [n] → n ≠ dim → checkXyzDim (.array a) dim = .error .valueError) ∧
    (a.shape = [] → checkXyzDim (.array a) dim = .error .indexError) := by
  refine ⟨fun s h => ?_, fun s n h hn => ?_, fun h => ?_⟩
  · simp [checkXyzDim, h, bind, Except.bind, pure, Except.pure]
  · simp [checkXyzDim, h, bind, Except.bind, pure, Except.pure, hn]
  · simp [checkXyzDim, h, bind, Except.bind, pure, Except.pure]

/-- **C03.** A tuple of `dim` arrays of one shape is stacked: component `k` becomes `[..., k]`. -/
theorem checkXyzDim_tuple (l : List (NArr α)) (s : List ℕ) (hs : ∀ a ∈ l, a.shape = s) (hl : l ≠ []) :
    ∃ b, checkXyzDim (.tuple l) l.length = .ok b ∧ b.shape = s ++ [l.length] ∧
      ∀ k (hk : k < l.length) i, b.get (i ++ [k]) = (l[k]).get i := by
  match l, hl with
  | a :: as, _ =>
    have ha : a.shape = s := hs a (by simp)
    have hst : stackLast (a :: as) = .ok ⟨a.shape ++ [as.length + 1],
        fun i => ((a :: as).getD (i.getLastD 0) a).get i.dropLast⟩ := by
      rw [stackLast, if_pos]
      intro b hb
      rw [hs b (by simp [hb]), ha]
    refine ⟨⟨a.shape ++ [as.length + 1],
        fun i => ((a :: as).getD (i.getLastD 0) a).get i.dropLast⟩, ?_, ?_, ?_⟩
    · simp only [checkXyzDim, hst, bind, Except.bind]
      simp [pure, Except.pure]
    · simp [ha]
    · intro k hk i
      simp [List.getElem?_eq_getElem hk]

/-- **C03.** A tuple of another length is rejected with `ValueError`, and so is a tuple of differently shaped arrays or
an empty tuple. -/
theorem checkXyzDim_tuple_rejects (l : List (NArr α)) (dim : ℕ)
    (h : l = [] ∨ (∃ a ∈ l, ∃ b ∈ l, a.shape ≠ b.shape) ∨ l.length ≠ dim) :
    checkXyzDim (.tuple l) dim = .error .valueError := by
  match l with
  | [] => rfl
  | a :: as =>
    by_cases hs : ∀ b ∈ as, b.shape = a.shape
    · have hst : stackLast (a :: as) = .ok ⟨a.shape ++ [as.length + 1],
          fun i => ((a :: as).getD (i.getLastD 0) a).get i.dropLast⟩ := by
        rw [stackLast, if_pos hs]
      have hall : ∀ b ∈ a :: as, b.shape = a.shape := by
        intro b hb
        rcases List.mem_cons.1 hb with rfl | hb
        · rfl
        · exact hs b hb
      have hd : as.length + 1 ≠ dim := by
        rcases h with h | ⟨b, hb, c, hc, hne⟩ | h
        · simp at h
        · exact absurd ((hall b hb).trans (hall c hc).symm) hne
        · simpa using h
      simp [checkXyzDim, hst, bind, Except.bind, hd]
    · simp [checkXyzDim, stackLast, hs, bind, Except.bind]

/-- **C03.** Applying the check to its own result changes nothing. -/
theorem checkXyzDim_idem (x : XyzArg α) (dim : ℕ) (a : NArr α) (h : checkXyzDim x dim = .ok a) :
    checkXyzDim (.array a) dim = .ok a := by
  have : ∀ b : NArr α, (match b.shape.getLast? with
      | none => (.error .indexError : Py (NArr α))
      | some n => if n ≠ dim then .error .valueError else pure b) = .ok a →
      checkXyzDim (.array a) dim = .ok a := by
    intro b hb
    split at hb
    · cases hb
    · rename_i n hn
      split at hb
      · cases hb
      · rename_i hd
        injection hb with hb; subst hb
        simp only [checkXyzDim, bind, Except.bind, pure, Except.pure, hn]
        rw [if_neg hd]
  cases x with
  | array b => exact this b h
  | tuple l =>
    simp only [checkXyzDim, bind, Except.bind] at h
    cases hst : stackLast l with
    | error e => rw [hst] at h; cases h
    | ok b => rw [hst] at h; exact this b h

/-- Non-vacuity. -/
example : ∃ a : NArr ℕ, a.shape = [5, 2] ++ [3] := ⟨⟨[5, 2, 3], fun _ => 0⟩, rfl⟩

/-! ## C04 -/

/-- **C04.** `append_ndim(arr, n)` adds `n` trailing axes of length one and keeps the values. -/
theorem appendNdim_spec (a : NArr α) (n : ℕ) :
    (appendNdim a n).shape = a.shape ++ List.replicate n 1 ∧
      ∀ i, (appendNdim a n).get (i ++ List.replicate n 0) = a.get i :=
  ⟨appendNdim_shape a n, fun i => appendNdim_get a n i _ (by simp)⟩

/-- **C04.** It composes additively. -/
theorem appendNdim_add (a : NArr α) (m n : ℕ) :
    appendNdim (appendNdim a m) n = appendNdim a (m + n) := by
  induction m generalizing a with
  | zero => simp [appendNdim]
  | succ m ih => rw [Nat.succ_add]; exact ih a.newLast

/-- **C04.** Any elementwise operation of `append_ndim(f, xyz.ndim)` with `xyz`, for 1-d `f`, never fails to
broadcast; the result has shape `(nf,) + xyz.shape` and entry `(k, j...)` uses only `f[k]` and `xyz[j...]`. -/
theorem appendNdim_broadcast {β γ : Type} (op : α → β → γ) (f : NArr α) (nf : ℕ) (hf : f.shape = [nf])
    (xyz : NArr β) :
    ∃ r, NArr.zipWith op (appendNdim f xyz.ndim) xyz = .ok r ∧ r.shape = nf :: xyz.shape ∧
      ∀ k j, k < nf → InShape xyz.shape j → r.get (k :: j) = op (f.get [k]) (xyz.get j) := by
  have hs : (appendNdim f xyz.ndim).shape = nf :: List.replicate xyz.ndim 1 := by
    rw [appendNdim_shape, hf]; rfl
  have hrev : (nf :: List.replicate xyz.ndim 1).reverse =
      List.replicate xyz.shape.reverse.length 1 ++ [nf] := by
    simp [NArr.ndim, List.reverse_replicate]
  have hb : bcastShape (appendNdim f xyz.ndim).shape xyz.shape = .ok (nf :: xyz.shape) := by
    rw [hs, bcastShape, hrev, bcastRev_ones]; simp
  refine ⟨⟨nf :: xyz.shape, fun i => op (((appendNdim f xyz.ndim).broadcastTo (nf :: xyz.shape)).get i)
    ((xyz.broadcastTo (nf :: xyz.shape)).get i)⟩, ?_, rfl, ?_⟩
  · simp only [NArr.zipWith, hb, bind, Except.bind, pure, Except.pure]
  · intro k j hk hj
    have hj' := InShape.reverse hj
    simp only [broadcastTo, hs]
    congr 1
    · rw [hrev, List.reverse_cons, bcastIndexRev_ones _ _ _ _ (InShape.length hj')
        (.cons hk .nil)]
      have : (List.replicate xyz.shape.reverse.length 0 ++ [k]).reverse =
          [k] ++ List.replicate xyz.ndim 0 := by simp [NArr.ndim, List.reverse_replicate]
      rw [this]
      exact appendNdim_get f xyz.ndim [k] _ (by simp)
    · rw [List.reverse_cons, bcastIndexRev_drop _ _ _ hj', List.reverse_reverse]

/-- **C04.** For a 0-d `f` the shape of `xyz` is kept. -/
theorem appendNdim_broadcast_scalar {β γ : Type} (op : α → β → γ) (f : NArr α) (hf : f.shape = [])
    (xyz : NArr β) :
    ∃ r, NArr.zipWith op (appendNdim f xyz.ndim) xyz = .ok r ∧ r.shape = xyz.shape ∧
      ∀ j, InShape xyz.shape j → r.get j = op (f.get []) (xyz.get j) := by
  have hs : (appendNdim f xyz.ndim).shape = List.replicate xyz.ndim 1 := by
    rw [appendNdim_shape, hf]; rfl
  have hrev : (List.replicate xyz.ndim 1).reverse =
      List.replicate xyz.shape.reverse.length 1 ++ [] := by
    simp [NArr.ndim, List.reverse_replicate]
  have hb : bcastShape (appendNdim f xyz.ndim).shape xyz.shape = .ok xyz.shape := by
    rw [hs, bcastShape, hrev, bcastRev_ones]; simp
  refine ⟨⟨xyz.shape, fun i => op (((appendNdim f xyz.ndim).broadcastTo xyz.shape).get i)
    ((xyz.broadcastTo xyz.shape).get i)⟩, ?_, rfl, ?_⟩
  · simp only [NArr.zipWith, hb, bind, Except.bind, pure, Except.pure]
  · intro j hj
    have hj' := InShape.reverse hj
    change op _ _ = op _ _
    congr 1
    · simp only [broadcastTo, hs]
      have := bcastIndexRev_ones xyz.shape.reverse.length [] j.reverse [] (InShape.length hj') .nil
      rw [hrev, ← List.append_nil j.reverse, this]
      have e : (List.replicate xyz.shape.reverse.length 0 ++ []).reverse =
          [] ++ List.replicate xyz.ndim 0 := by simp [NArr.ndim, List.reverse_replicate]
      rw [e]
      exact appendNdim_get f xyz.ndim [] _ (by simp)
    · exact broadcastTo_self_get xyz j hj

/-- Non-vacuity: three frequencies against a `5 × 3` grid. -/
example : ∃ (f : NArr ℕ) (xyz : NArr ℕ), f.shape = [3] ∧ xyz.shape = [5, 3] ∧ InShape xyz.shape [4, 2] :=
  ⟨⟨[3], fun _ => 0⟩, ⟨[5, 3], fun _ => 0⟩, rfl, rfl, .cons (by norm_num) (.cons (by norm_num) .nil)⟩

/-! ## C05 -/

/-- The keys whose value is the object `False`, in order. -/
def falseKeys (m : List (String × Dep)) : List String :=
  (m.filter (fun p => decide (p.2 = .pyFalse))).map Prod.fst

theorem missing_eq (m : List (String × Dep)) : missing m = falseKeys m := by
  induction m with
  | nil => rfl
  | cons p m ih =>
    obtain ⟨k, d⟩ := p
    by_cases h : d = .pyFalse
    · simp [missing, falseKeys, h, ih]
    · simp [missing, falseKeys, h, ih]

/-- **C05.** If no dependency is `False` the decorated function is the original. -/
theorem requires_present {A R : Type} (m : List (String × Dep)) (name : String) (f : Fn A R)
    (h : ∀ p ∈ m, p.2 ≠ .pyFalse) : requires m name f = f := by
  have : missing m = [] := by
    rw [missing_eq, falseKeys, List.map_eq_nil_iff, List.filter_eq_nil_iff]
    intro p hp; simpa using h p hp
  simp [requires, this]

/-- **C05.** If some dependency is `False`, every call returns `None` and prints exactly the missing keys in order,
whatever the original function is (so it is never run). -/
theorem requires_missing {A R : Type} (m : List (String × Dep)) (name : String) (f : Fn A R)
    (h : ∃ p ∈ m, p.2 = .pyFalse) (args : A) :
    requires m name f args = ([.missing (falseKeys m), .notRunning name], none) := by
  have : missing m ≠ [] := by
    rw [missing_eq, falseKeys, Ne, List.map_eq_nil_iff, List.filter_eq_nil_iff]
    obtain ⟨p, hp, hf⟩ := h
    intro hc; exact hc p hp (by simpa using hf)
  rw [requires, if_neg this, missing_eq]

/-- Non-vacuity: one missing and one present module. -/
example : ∃ p ∈ [("pandas", Dep.other "module"), ("cartopy", Dep.pyFalse)], p.2 = Dep.pyFalse :=
  ⟨("cartopy", Dep.pyFalse), by simp, rfl⟩

end Verif.Utils
