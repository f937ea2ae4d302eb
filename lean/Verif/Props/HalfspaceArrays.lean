import Verif.Props.FieldArrays
import Verif.Model.HalfspaceArrays

/-!
# Property C99: arrays of frequencies or times and arrays of points, on and above a half-space
-/

namespace Verif

open NArr Layout Utils Spatial

variable {sh F : List ℕ} {α β γ : Type}

/-- The index into the squeezed array: the entries on axes of length one are left out. -/
def dropOnes : List ℕ → List ℕ → List ℕ
  | 1 :: s, _ :: i => dropOnes s i
  | _ :: s, k :: i => k :: dropOnes s i
  | _, _ => []

theorem unsqueeze_dropOnes : ∀ {s i : List ℕ}, InShape s i → unsqueezeIndex s (dropOnes s i) = i
  | _, _, .nil => rfl
  | 1 :: s, k :: i, .cons h t => by
    rw [dropOnes, unsqueezeIndex, unsqueeze_dropOnes t, Nat.lt_one_iff.1 h]
  | 0 :: s, k :: i, .cons h t => absurd h (by simp)
  | (n + 2) :: s, k :: i, .cons h t => by
    rw [dropOnes, unsqueezeIndex, unsqueeze_dropOnes t] <;> simp

/-- `np.squeeze` leaves out the axes of length one and keeps every entry. -/
theorem squeeze_keeps (a : NArr α) : a.squeeze.shape = a.shape.filter (· ≠ 1) ∧
    ∀ i, InShape a.shape i → a.squeeze.get (dropOnes a.shape i) = a.get i :=
  ⟨rfl, fun i hi => by show a.get _ = _; rw [unsqueeze_dropOnes hi]⟩

theorem squeeze_noOnes (a : NArr α) (h : 1 ∉ a.shape) : a.squeeze.Same a := by
  have hs : a.squeeze.shape = a.shape := by
    show a.shape.filter _ = _
    rw [List.filter_eq_self]
    intro x hx
    simp only [ne_eq, decide_eq_true_eq]
    rintro rfl
    exact h hx
  refine ⟨hs, fun i hi => ?_⟩
  rw [hs] at hi
  have key : ∀ {s i : List ℕ}, InShape s i → 1 ∉ s → unsqueezeIndex s i = i := by
    intro s i hi
    induction hi with
    | nil => intro _; rfl
    | @cons k n i s h t ih =>
      intro h1
      simp only [List.mem_cons, not_or] at h1
      rw [unsqueezeIndex, ih h1.2]
      exact fun e => h1.1 e.symm
  show a.get _ = _
  rw [key hi h]

theorem bcastRev_ones (G : List ℕ) : ∀ t : List ℕ, bcastRev (List.replicate t.length 1 ++ G) t = some (t ++ G)
  | [] => by simp [bcastRev_nil]
  | n :: t => by
    simp only [List.length_cons, List.replicate_succ, List.cons_append, bcastRev, bcastRev_ones G t]
    by_cases h : 1 = n
    · subst h
      simp
    · simp [h]

/-- An array of parameters with enough axes of length one, and an array of the shape of the points. -/
theorem pair_zip {k : NArr α} {b : NArr β} {q : List ℕ → α} (op : α → β → γ) (hk : k.shape = F ++ List.replicate sh.length 1)
    (hv : ∀ p, InShape F p → k.get (p ++ List.replicate sh.length 0) = q p) (hb : b.shape = sh) :
    ∃ r, zipWith op k b = .ok r ∧ r.shape = F ++ sh ∧
      ∀ p, InShape F p → ∀ i, InShape sh i → r.get (p ++ i) = op (q p) (b.get i) := by
  have hrev : k.shape.reverse = List.replicate sh.reverse.length 1 ++ F.reverse := by simp [hk]
  refine ⟨⟨(sh.reverse ++ F.reverse).reverse, fun i => op ((k.broadcastTo (sh.reverse ++ F.reverse).reverse).get i)
    ((b.broadcastTo (sh.reverse ++ F.reverse).reverse).get i)⟩, ?_, ?_, ?_⟩
  · simp only [zipWith, bcastShape, hrev, hb, bcastRev_ones]
    rfl
  · show (sh.reverse ++ F.reverse).reverse = _
    simp
  · intro p hp i hi
    have hl := inShape_length hi
    have e1 : (k.broadcastTo (sh.reverse ++ F.reverse).reverse).get (p ++ i) = q p := by
      simp only [broadcastTo, hrev, List.reverse_append]
      rw [bcastIndexRev_append _ _ (by simp [hl]), Layout.bcastIndexRev_ones, Dipole.bcastIndexRev_self (Dipole.inShape_reverse hp)]
      simp only [List.reverse_append, List.reverse_reverse, List.reverse_replicate, List.length_reverse]
      exact hv p hp
    have e2 : (b.broadcastTo (sh.reverse ++ F.reverse).reverse).get (p ++ i) = b.get i := by
      simp only [broadcastTo, hb, List.reverse_append]
      have := bcastIndexRev_append (s := sh.reverse) (i := i.reverse) [] p.reverse (by simp [hl])
      rw [List.append_nil] at this
      rw [this, Dipole.bcastIndexRev_self (Dipole.inShape_reverse hi)]
      simp [bcastIndexRev]
    show op _ _ = _
    rw [e1, e2]

theorem vecAt_stack3 (a b c : NArr α) (i : List ℕ) : vecAt (stack3 a b c) i = ⟨a.get i, b.get i, c.get i⟩ := by
  simp [vecAt, stack3]

/-- Two arrays of one shape. -/
theorem same_zip {a : NArr α} {b : NArr β} (op : α → β → γ) (ha : a.shape = sh) (hb : b.shape = sh) :
    ∃ r, zipWith op a b = .ok r ∧ r.shape = sh ∧ ∀ i, InShape sh i → r.get i = op (a.get i) (b.get i) := by
  obtain ⟨u, hu, h1, h2, h3, -⟩ := bcastRev_of_bTo (BTo.refl sh.reverse) (BTo.refl sh.reverse)
  have hus : u = sh.reverse := BTo.antisymm h1 h2
  subst hus
  refine ⟨⟨sh, fun i => op ((a.broadcastTo sh).get i) ((b.broadcastTo sh).get i)⟩, ?_, rfl, fun i hi => ?_⟩
  · simp only [zipWith, bcastShape, ha, hb, hu, List.reverse_reverse]
    rfl
  · show op (a.get _) (b.get _) = _
    rw [ha, hb, Dipole.bcastIndexRev_self (Dipole.inShape_reverse hi), List.reverse_reverse]

/-- Subtracting a horizontal location from an array of shape `(..., 2)`. -/
theorem sub_location {a : NArr ℝ} (ha : a.shape = sh ++ [2]) (l : V3 ℝ) :
    ∃ r, zipWith (· - ·) a (arr2 l) = .ok r ∧ r.shape = sh ++ [2] ∧
      ∀ i, InShape sh i → r.get (i ++ [0]) = a.get (i ++ [0]) - l.x ∧ r.get (i ++ [1]) = a.get (i ++ [1]) - l.y := by
  have h2 : (arr2 l).shape = [2] := rfl
  have hb : bcastShape (sh ++ [2]) [2] = .ok (sh ++ [2]) := by simp [bcastShape, bcastRev, bcastRev_nil]
  refine ⟨⟨sh ++ [2], fun i => (a.broadcastTo (sh ++ [2])).get i - ((arr2 l).broadcastTo (sh ++ [2])).get i⟩, ?_, rfl, ?_⟩
  · simp only [zipWith, ha, h2, hb]
    rfl
  · intro i hi
    have key : ∀ k, k < 2 → (a.broadcastTo (sh ++ [2])).get (i ++ [k]) = a.get (i ++ [k]) := by
      intro k hk
      simp only [broadcastTo, ha]
      rw [Dipole.bcastIndexRev_self (Dipole.inShape_reverse (Dipole.inShape_append hi hk)), List.reverse_reverse]
    constructor
    · show _ - _ = _
      rw [key 0 (by norm_num)]
      simp [broadcastTo, bcastIndexRev, arr2, NArr.ofList]
    · show _ - _ = _
      rw [key 1 (by norm_num)]
      simp [broadcastTo, bcastIndexRev, arr2, NArr.ofList]

theorem newSeconds_spec {a : NArr α} {n : ℕ} : ∀ {s : List ℕ} (m : ℕ), a.shape = n :: s →
    ∃ b, a.newSeconds m = .ok b ∧ b.shape = n :: (List.replicate m 1 ++ s) ∧
      ∀ k i, b.get (k :: (List.replicate m 0 ++ i)) = a.get (k :: i) := by
  intro s m
  induction m generalizing a s with
  | zero => intro h; exact ⟨a, rfl, by simp [h], by simp⟩
  | succ m ih =>
    intro h
    obtain ⟨b, hb, hs, hv⟩ := ih (a := ⟨n :: 1 :: s, fun i => a.get (i.headD 0 :: i.drop 2)⟩) (s := 1 :: s) rfl
    refine ⟨b, ?_, ?_, ?_⟩
    · rw [newSeconds]
      simp only [newSecond, h]
      exact hb
    · rw [hs, List.replicate_succ', List.append_assoc]
      rfl
    · intro k i
      rw [List.replicate_succ', List.append_assoc, List.singleton_append, hv]
      simp

theorem newSeconds_scalar {a : NArr α} (ha : a.shape = []) (m : ℕ) : a.newSeconds (m + 1) = .error .indexError := by
  rw [newSeconds]
  simp [newSecond, ha, bind, Except.bind]

/-! ## Harmonic magnetic dipole on a half-space -/

namespace FdemArr

variable {iv kv : ℕ → ℂ → ℂ} {mu0 : ℝ} {field : String} {xy : NArr ℝ} {n m : ℕ}

/-- The horizontal position `i` of an array of points. -/
def flatAt (xy : NArr ℝ) (i : List ℕ) : V3 ℝ := ⟨xy.get (i ++ [0]), xy.get (i ++ [1]), 0⟩

theorem half_core (s : HalfDipole) (hxy : xy.shape = sh ++ [n]) (hn : 2 ≤ n) {k : NArr ℂ}
    (hk : (s.k mu0).newSeconds sh.length = .ok k) (hks : k.shape = s.frequency.shape ++ List.replicate sh.length 1)
    (hkv : ∀ p, InShape s.frequency.shape p → k.get (p ++ List.replicate sh.length 0) = (s.k mu0).get p) :
    ∃ r, s.magneticField iv kv mu0 xy field = .ok r.squeeze ∧
      HoldsPairs s.frequency sh (flatAt xy) (fun f x => (s.at f).magneticField iv kv mu0 x field) r := by
  have h1 : xy.firstTwo = .ok ⟨sh ++ [2], xy.get⟩ := by simp [firstTwo, hxy, hn]
  obtain ⟨d, hd, hds, hdv⟩ := sub_location (a := ⟨sh ++ [2], xy.get⟩) rfl s.location
  obtain ⟨p, hp, hps, hpv⟩ := same_zip (sh := sh) (a := d.column 0) (b := d.column 1) Prod.mk (by simp [column, hds]) (by simp [column, hds])
  obtain ⟨e, he, hes, hev⟩ := pair_zip (fun k (p : ℝ × ℝ) => Fdem.halfEm iv kv k s.orientation p.1 p.2 field) hks hkv hps
  refine ⟨(stack3 (e.mapA V3.x) (e.mapA V3.y) (e.mapA V3.z)).mapA (((s.moment / (4 * Real.pi) : ℝ) : ℂ) * ·), ?_, ?_, ?_⟩
  · have hnd : (Dipole.normLast d).ndim = sh.length := by simp [ndim, Dipole.normLast, hds]
    simp only [HalfDipole.magneticField, h1, hd, hp, hnd, hk, he, ok_bind]
    rfl
  · simp [mapA, stack3, hes]
  · intro q hq i hi
    have : vecAt (stack3 (e.mapA V3.x) (e.mapA V3.y) (e.mapA V3.z)) (q ++ i) = e.get (q ++ i) := by
      rw [vecAt_stack3]; rfl
    have key : e.get (q ++ i) = Fdem.halfEm iv kv ((s.k mu0).get q) s.orientation (xy.get (i ++ [0]) - s.location.x)
        (xy.get (i ++ [1]) - s.location.y) field := by
      rw [hev q hq i hi, hpv i hi]
      simp only [column]
      rw [(hdv i hi).1, (hdv i hi).2]
    have e2 : vecAt ((stack3 (e.mapA V3.x) (e.mapA V3.y) (e.mapA V3.z)).mapA (((s.moment / (4 * Real.pi) : ℝ) : ℂ) * ·)) (q ++ i) =
        (vecAt (stack3 (e.mapA V3.x) (e.mapA V3.y) (e.mapA V3.z)) (q ++ i)).map (((s.moment / (4 * Real.pi) : ℝ) : ℂ) * ·) := rfl
    rw [e2, this, key]
    rfl

/-- **C99.** For any number of frequencies in an array and an array of points with at least two columns, the result is the squeezed
array of the fields of all pairs. -/
theorem HalfDipole.magneticField_pairs (s : HalfDipole) (hf : s.frequency.shape = [m]) (hxy : xy.shape = sh ++ [n]) (hn : 2 ≤ n) :
    ∃ r, s.magneticField iv kv mu0 xy field = .ok r.squeeze ∧
      HoldsPairs s.frequency sh (flatAt xy) (fun f x => (s.at f).magneticField iv kv mu0 x field) r := by
  obtain ⟨k, hk, hks, hkv⟩ := newSeconds_spec (a := s.k mu0) (n := m) (s := []) sh.length hf
  refine half_core s hxy hn hk (by simp [hks, hf]) fun p hp => ?_
  rw [hf] at hp
  obtain ⟨j, rfl⟩ : ∃ j, p = [j] := List.length_eq_one_iff.1 (by simpa using inShape_length hp)
  have := hkv j []
  simpa using this

/-- **C99.** One point, given as an array with one axis: the frequency may be a plain number. -/
theorem HalfDipole.magneticField_one (s : HalfDipole) (hxy : xy.shape = [n]) (hn : 2 ≤ n) :
    ∃ r, s.magneticField iv kv mu0 xy field = .ok r.squeeze ∧
      HoldsPairs s.frequency [] (flatAt xy) (fun f x => (s.at f).magneticField iv kv mu0 x field) r := by
  refine half_core s (sh := []) (by simp [hxy]) hn (k := s.k mu0) rfl (by simp [HalfDipole.k, mapA]) fun p hp => ?_
  simp

/-- **C99.** A frequency that is a plain number, with an array of points that has more than one axis, raises `IndexError`. -/
theorem HalfDipole.magneticField_scalar_raises (s : HalfDipole) (hf : s.frequency.shape = []) (hxy : xy.shape = sh ++ [n]) (hn : 2 ≤ n)
    (hsh : sh ≠ []) : s.magneticField iv kv mu0 xy field = .error .indexError := by
  have h1 : xy.firstTwo = .ok ⟨sh ++ [2], xy.get⟩ := by simp [firstTwo, hxy, hn]
  obtain ⟨d, hd, hds, hdv⟩ := sub_location (a := ⟨sh ++ [2], xy.get⟩) rfl s.location
  obtain ⟨j, hj⟩ : ∃ j, sh.length = j + 1 := Nat.exists_eq_succ_of_ne_zero (by simpa using hsh)
  have hnd : (Dipole.normLast d).ndim = j + 1 := by simp [ndim, Dipole.normLast, hds, hj]
  simp only [HalfDipole.magneticField, h1, hd, hnd, ok_bind]
  rw [newSeconds_scalar (by simp [HalfDipole.k, mapA, hf])]
  rfl

/-- **C99.** Points without axes raise `IndexError`; points with no columns at all raise `ValueError`. -/
theorem HalfDipole.magneticField_refuses (s : HalfDipole) :
    (xy.shape = [] → s.magneticField iv kv mu0 xy field = .error .indexError) ∧
    (xy.shape = sh ++ [0] → s.magneticField iv kv mu0 xy field = .error .valueError) := by
  refine ⟨fun h => ?_, fun h => ?_⟩
  · simp [HalfDipole.magneticField, firstTwo, h, bind, Except.bind]
  · have h2 : (arr2 s.location).shape = [2] := rfl
    simp [HalfDipole.magneticField, firstTwo, h, bind, Except.bind, zipWith, h2, bcastShape, bcastRev]

/-- When no axis has length one, nothing is squeezed. -/
theorem HalfDipole.magneticField_unsqueezed (s : HalfDipole) (hf : s.frequency.shape = [m]) (hm : m ≠ 1) (hxy : xy.shape = sh ++ [n])
    (hn : 2 ≤ n) (hsh : 1 ∉ sh) : ∃ r, s.magneticField iv kv mu0 xy field = .ok r ∧
      HoldsPairs s.frequency sh (flatAt xy) (fun f x => (s.at f).magneticField iv kv mu0 x field) r := by
  obtain ⟨r, hr, hs, hv⟩ := s.magneticField_pairs (iv := iv) (kv := kv) (mu0 := mu0) (field := field) hf hxy hn
  have h1 : 1 ∉ r.shape := by
    rw [hs, hf]
    simp only [List.mem_append, List.mem_singleton, not_or]
    exact ⟨⟨fun h => hm h.symm, hsh⟩, by norm_num⟩
  obtain ⟨e1, e2⟩ := squeeze_noOnes r h1
  refine ⟨_, hr, e1.trans hs, fun p hp i hi => ?_⟩
  rw [← hv p hp i hi]
  have key : ∀ c, c < 3 → r.squeeze.get (p ++ i ++ [c]) = r.get (p ++ i ++ [c]) := by
    intro c hc
    refine e2 _ ?_
    rw [e1, hs]
    exact Dipole.inShape_append (List.rel_append hp hi) hc
  simp only [vecAt]
  rw [key 0 (by norm_num), key 1 (by norm_num), key 2 (by norm_num)]

/-! ## Harmonic magnetic dipole over layers -/

variable {filter : List Fdem.Tap} {xyz : NArr ℝ}

theorem sum_range_getD (g : Fdem.Tap → ℂ) : ∀ l : List Fdem.Tap,
    ((List.range l.length).map fun j => g (l.getD j ⟨0, 0, 0⟩)).sum = (l.map g).sum
  | [] => rfl
  | t :: l => by
    rw [List.length_cons, List.range_succ_eq_map, List.map_cons, List.sum_cons, List.map_cons, List.sum_cons, List.map_map]
    congr 1
    rw [← sum_range_getD g l]
    congr 1

theorem component_get (s : LayeredDipole) (x : ℕ → V3 ℝ) (c : V3 ℝ → ℝ) (f l : ℕ) :
    (s.component filter mu0 n x field c).get [f, l] =
      (let d := x l - s.location
       let offset := Real.sqrt (d.x ^ 2 + d.y ^ 2)
       let C := fun t : Fdem.Tap => Fdem.coefficients s.orientation d.x d.y offset (t.base / offset)
       let rTE := fun t : Fdem.Tap => (s.at f).rTE mu0 (t.base / offset) * Real.exp (-(t.base / offset) * ((x l).z + s.location.z))
       let em := ((filter.map fun t => (c (C t).1 : ℂ) * rTE t * t.j0).sum + (filter.map fun t => (c (C t).2 : ℂ) * rTE t * t.j1).sum) /
         (offset : ℂ)
       if field = "total" then em + ((3 * c d * (s.orientation.x * d.x + s.orientation.y * d.y + s.orientation.z * d.z) / d.len ^ 5 -
         c s.orientation / d.len ^ 3 : ℝ) : ℂ) else em) := by
  have hflat : ∀ j ∈ List.range filter.length,
      (l * filter.length + j) / filter.length = l ∧ (l * filter.length + j) % filter.length = j := by
    intro j hj
    have hj := List.mem_range.1 hj
    have h0 : 0 < filter.length := by omega
    constructor
    · rw [Nat.mul_comm, Nat.mul_add_div h0, Nat.div_eq_of_lt hj, Nat.add_zero]
    · rw [Nat.mul_comm, Nat.mul_add_mod, Nat.mod_eq_of_lt hj]
  have key : ∀ G : Fdem.Tap → ℝ → ℂ,
      ((List.range filter.length).map fun j => G (filter.getD j ⟨0, 0, 0⟩)
        ((filter.getD ((l * filter.length + j) % filter.length) ⟨0, 0, 0⟩).base /
          Real.sqrt ((x ((l * filter.length + j) / filter.length) - s.location).x ^ 2 +
            (x ((l * filter.length + j) / filter.length) - s.location).y ^ 2))).sum =
      (filter.map fun t => G t (t.base / Real.sqrt ((x l - s.location).x ^ 2 + (x l - s.location).y ^ 2))).sum := by
    intro G
    rw [← sum_range_getD]
    congr 1
    refine List.map_congr_left fun j hj => ?_
    rw [(hflat j hj).1, (hflat j hj).2]
  have k1 := key (fun t y => (c (Fdem.coefficients s.orientation (x l - s.location).x (x l - s.location).y
    (Real.sqrt ((x l - s.location).x ^ 2 + (x l - s.location).y ^ 2)) (t.base / Real.sqrt ((x l - s.location).x ^ 2 + (x l - s.location).y ^ 2))).1 : ℂ) *
    ((s.at f).rTE mu0 y * Real.exp (-(t.base / Real.sqrt ((x l - s.location).x ^ 2 + (x l - s.location).y ^ 2)) * ((x l).z + s.location.z))) * t.j0)
  have k2 := key (fun t y => (c (Fdem.coefficients s.orientation (x l - s.location).x (x l - s.location).y
    (Real.sqrt ((x l - s.location).x ^ 2 + (x l - s.location).y ^ 2)) (t.base / Real.sqrt ((x l - s.location).x ^ 2 + (x l - s.location).y ^ 2))).2 : ℂ) *
    ((s.at f).rTE mu0 y * Real.exp (-(t.base / Real.sqrt ((x l - s.location).x ^ 2 + (x l - s.location).y ^ 2)) * ((x l).z + s.location.z))) * t.j1)
  simp only [LayeredDipole.component, unflatten]
  simp only [← k1, ← k2]
  rfl

/-- **C99.** For any number of frequencies and an array of points of shape `(n, 3)`, none of them below the surface, the result is
the squeezed array of the fields of all pairs, each for the layer properties of its frequency. -/
theorem LayeredDipole.magneticField_pairs (s : LayeredDipole) (hx : xyz.shape = [n, 3]) (hz : ∀ l < n, 0 ≤ xyz.get [l, 2]) :
    ∃ r : NArr ℂ, s.magneticField filter mu0 xyz field = .ok r.squeeze ∧ r.shape = [s.nFreq, n, 3] ∧
      ∀ f l, vecAt r [f, l] = (s.at f).fieldAt filter mu0 (vecAt xyz [l]) field := by
  have hz' : ¬ ∃ l < n, xyz.get [l, 2] < 0 := by
    rintro ⟨l, hl, h⟩
    exact absurd (hz l hl) (not_le.2 h)
  set em := s.component filter mu0 n (fun l => ⟨xyz.get [l, 0], xyz.get [l, 1], xyz.get [l, 2]⟩) field with hem
  refine ⟨(stack3 (em V3.x) (em V3.y) (em V3.z)).mapA (((s.moment / (4 * Real.pi) : ℝ) : ℂ) * ·),
    by simp only [LayeredDipole.magneticField, hx, if_neg hz', lt_irrefl, if_false]; rfl, rfl, ?_⟩
  intro f l
  have e1 : ∀ a : NArr ℂ, vecAt (a.mapA (((s.moment / (4 * Real.pi) : ℝ) : ℂ) * ·)) [f, l] =
      ((s.moment / (4 * Real.pi) : ℝ) : ℂ) • vecAt a [f, l] := fun a => rfl
  rw [e1, vecAt_stack3, hem, component_get, component_get, component_get]
  simp only [Fdem.LayeredDipole.fieldAt, Fdem.transform]
  by_cases ht : field = "total"
  · simp only [if_pos ht]
    rfl
  · simp only [if_neg ht]
    rfl

theorem bcast_last {s t r : List ℕ} {m k : ℕ} (h : bcastShape (s ++ [m]) (t ++ [k]) = .ok r) :
    ∃ r', bcastShape s t = .ok r' ∧ (m = k ∧ r = r' ++ [k] ∨ m = 1 ∧ r = r' ++ [k] ∨ k = 1 ∧ r = r' ++ [m]) := by
  simp only [bcastShape, List.reverse_append, List.reverse_singleton, List.singleton_append, bcastRev] at h ⊢
  rcases hb : bcastRev s.reverse t.reverse with _ | q
  · simp only [hb, Option.map_none, ite_self] at h
    cases h
  · simp only [hb, Option.map_some] at h ⊢
    refine ⟨q.reverse, rfl, ?_⟩
    split_ifs at h with h1 h2 h3
    · exact .inl ⟨h1, by cases h; simp [h1]⟩
    · exact .inr (.inl ⟨h2, by cases h; simp⟩)
    · exact .inr (.inr ⟨h3, by cases h; simp⟩)

theorem bcast_cons {n : ℕ} {s t r : List ℕ} (h : bcastShape (n :: s) t = .ok r) : ∃ k q, r = k :: q := by
  rcases r with _ | ⟨k, q⟩
  · exfalso
    have h0 : ∀ x y : List ℕ, bcastRev x y = some [] → x = [] := by
      intro x y hxy
      rcases x with _ | ⟨i, x⟩
      · rfl
      · rcases y with _ | ⟨j, y⟩
        · simp [bcastRev] at hxy
        · simp only [bcastRev] at hxy
          split_ifs at hxy <;> simp at hxy
    simp only [bcastShape] at h
    split at h
    · rename_i q hq
      have : q = [] := by simpa using h
      subst this
      simpa using h0 _ _ hq
    · cases h
  · exact ⟨k, q, rfl⟩

theorem bcast_err {s t : List ℕ} {e : PyErr} (h : bcastShape s t = .error e) : e = .valueError := by
  simp only [bcastShape] at h
  split at h <;> cases h
  rfl

theorem slices_raise {nFilter a b c : ℕ} {rest : List ℕ} (s : LayeredDipole) (h1 : nFilter ≠ 1) (h3 : nFilter ≠ 3) (ho : s.orientation ≠ 0) :
    s.slices nFilter xyz a b (c :: rest) = .error (if b < 3 then .indexError else .valueError) := by
  obtain ⟨u, m, hu⟩ : ∃ u m, c :: rest = u ++ [m] := ⟨(c :: rest).dropLast, (c :: rest).getLast (by simp), by simp [List.dropLast_append_getLast]⟩
  unfold LayeredDipole.slices
  rw [hu]
  by_cases hb : b < 3
  · simp only [if_pos hb]
    rfl
  simp only [if_neg hb]
  split_ifs with hz
  · rfl
  rcases hd : bcastShape (a :: b :: (u ++ [m])) [3] with e | d
  · rw [bcast_err hd]; rfl
  have hd' : d = a :: b :: u ++ [3] := by
    obtain ⟨r', hr, hx⟩ := bcast_last (s := a :: b :: u) (t := []) hd
    have : r' = a :: b :: u := by
      have : bcastShape (a :: b :: u) [] = .ok (a :: b :: u) := by
        simp only [bcastShape]
        rcases hq : (a :: b :: u).reverse with _ | ⟨x, q⟩
        · simp at hq
        · simp only [List.reverse_nil, bcastRev]
          rw [← hq, List.reverse_reverse]
      rw [this] at hr
      cases hr
      rfl
    subst this
    rcases hx with ⟨rfl, h⟩ | ⟨-, h⟩ | ⟨h, -⟩
    · exact h
    · exact h
    · omega
  subst hd'
  have hoff : (a :: (b - 1) :: (a :: b :: u ++ [3]).drop 2).dropLast = a :: (b - 1) :: u := by
    show (a :: (b - 1) :: (u ++ [3])).dropLast = _
    rw [show a :: (b - 1) :: (u ++ [3]) = (a :: (b - 1) :: u) ++ [3] from rfl, List.dropLast_concat]
  simp only [Layout.ok_bind]
  rw [hoff]
  obtain ⟨v, k, hv⟩ : ∃ v k, (b - 1) :: u = v ++ [k] :=
    ⟨((b - 1) :: u).dropLast, ((b - 1) :: u).getLast (by simp), by simp [List.dropLast_append_getLast]⟩
  rw [hv]
  rcases hl : bcastShape [nFilter] (newSecond (a :: (v ++ [k]))) with e | lam
  · rw [bcast_err hl]; rfl
  obtain ⟨l', -, hlam⟩ := bcast_last (s := []) (t := a :: 1 :: v) hl
  have hk : (k = nFilter ∨ k = 1) ∧ lam = l' ++ [nFilter] := by
    rcases hlam with ⟨rfl, h⟩ | ⟨h, -⟩ | ⟨rfl, h⟩
    · exact ⟨.inl rfl, h⟩
    · exact absurd h h1
    · exact ⟨.inr rfl, h⟩
  obtain ⟨hk, rfl⟩ := hk
  simp only [Layout.ok_bind]
  rcases hdec : bcastShape (l' ++ [nFilter]) (newSecond (a :: (u ++ [m]))) with e | dec
  · rw [bcast_err hdec]; rfl
  simp only [Layout.ok_bind]
  rcases hr : bcastShape (s.nFreq :: (l' ++ [nFilter])) dec with e | r
  · rw [bcast_err hr]; rfl
  simp only [Layout.ok_bind]
  split_ifs with hin
  swap
  · rfl
  show (bcastShape (a :: (u ++ [3])) (a :: (v ++ [k])) >>= _) = _
  rcases hq : bcastShape (a :: (u ++ [3])) (a :: (v ++ [k])) with e | q
  · rw [bcast_err hq]; rfl
  obtain ⟨q', hq', hx⟩ := bcast_last (s := a :: u) (t := a :: v) hq
  obtain ⟨x, y, rfl⟩ := bcast_cons hq'
  have hq3 : q = (x :: y) ++ [3] := by
    rcases hx with ⟨h, -⟩ | ⟨h, -⟩ | ⟨-, h⟩
    · rcases hk with rfl | rfl
      · exact absurd h.symm h3
      · omega
    · omega
    · exact h
  subst hq3
  simp only [Layout.ok_bind]
  rcases hf : bcastShape (newSecond (x :: y ++ [3])) (l' ++ [nFilter]) with e | w
  · rw [bcast_err hf]; rfl
  exfalso
  obtain ⟨_, _, hx⟩ := bcast_last (s := x :: 1 :: y) (t := l') hf
  rcases hx with ⟨h, -⟩ | ⟨h, -⟩ | ⟨h, -⟩
  · exact h3 h.symm
  · omega
  · exact h1 h

/-- **C99.** Points with more than two axes are always refused (the filter has 101 abscissae, and the orientation is a unit vector). -/
theorem LayeredDipole.magneticField_grid (s : LayeredDipole) {a b c : ℕ} {rest : List ℕ} (hx : xyz.shape = a :: b :: c :: rest)
    (hf : filter.length = 101) (ho : s.orientation ≠ 0) :
    s.magneticField filter mu0 xyz field = .error (if b < 3 then .indexError else .valueError) := by
  unfold LayeredDipole.magneticField
  rw [hx]
  dsimp only
  rw [slices_raise s (by omega) (by omega) ho]
  rfl

/-- A grid of 2 by 4 points is refused. -/
example (s : LayeredDipole) (ho : s.orientation = ⟨0, 0, 1⟩) (hf : filter.length = 101) :
    s.magneticField filter mu0 ⟨[2, 4, 3], fun _ => 1⟩ field = .error .valueError := by
  rw [s.magneticField_grid rfl hf (by rw [ho]; intro h; simpa using congrArg V3.z h)]
  rfl

/-- **C99.** Points below the surface, a single point without its own axis, and rows that are not three long are refused. -/
theorem LayeredDipole.magneticField_refuses (s : LayeredDipole) :
    (∀ k, xyz.shape = [k] → s.magneticField filter mu0 xyz field = .error .indexError) ∧
    (∀ l < n, xyz.shape = [n, 3] → xyz.get [l, 2] < 0 → s.magneticField filter mu0 xyz field = .error .valueError) ∧
    (∀ k, xyz.shape = [n, k] → k < 3 → s.magneticField filter mu0 xyz field = .error .indexError) ∧
    (∀ k, xyz.shape = [n, k] → 3 < k → s.magneticField filter mu0 xyz field = .error .valueError) := by
  refine ⟨fun k h => ?_, fun l hl h hz => ?_, fun k h hk => ?_, fun k h hk => ?_⟩
  · simp [LayeredDipole.magneticField, h]
  · simp only [LayeredDipole.magneticField, h, lt_irrefl, if_false]
    rw [if_pos ⟨l, hl, hz⟩]
  · simp [LayeredDipole.magneticField, h, hk]
  · simp only [LayeredDipole.magneticField, h]
    rw [if_neg (by omega)]
    split_ifs <;> rfl

end FdemArr

/-! ## Transient vertical magnetic dipole on a half-space -/

namespace TdemArr

/-- Points of the surface given to a method: an array with two or three columns, or a tuple of two or three arrays; `x i` is the
point at position `i` (a third coordinate is not read). -/
def IsPlanar (xy : XyzArg ℝ) (sh : List ℕ) (x : List ℕ → ℝ × ℝ) : Prop :=
  (∃ a k, xy = .array a ∧ a.shape = sh ++ [k] ∧ (k = 2 ∨ k = 3) ∧ ∀ i, x i = (a.get (i ++ [0]), a.get (i ++ [1]))) ∨
  (∃ a b l, xy = .tuple (a :: b :: l) ∧ l.length ≤ 1 ∧ (∀ c ∈ a :: b :: l, c.shape = sh) ∧ ∀ i, x i = (a.get i, b.get i))

variable {xy : XyzArg ℝ} {x : List ℕ → ℝ × ℝ}

theorem planar_check (h : IsPlanar xy sh x) :
    ∃ a k, (k = 2 ∨ k = 3) ∧ checkXyzDim xy k = .ok a ∧ a.shape = sh ++ [k] ∧ (∀ m, m ≠ k → checkXyzDim xy m = .error .valueError) ∧
      ∀ i, x i = (a.get (i ++ [0]), a.get (i ++ [1])) := by
  rcases h with ⟨a, k, rfl, ha, hk, hx⟩ | ⟨a, b, l, rfl, hl, hs, hx⟩
  · exact ⟨a, k, hk, (checkXyzDim_array a k).1 sh ha, ha, fun m hm => (checkXyzDim_array a m).2.1 sh k ha hm.symm, hx⟩
  · obtain ⟨d, hd, hds, hv⟩ := checkXyzDim_tuple (a :: b :: l) sh hs (by simp)
    refine ⟨d, (a :: b :: l).length, ?_, hd, hds, fun m hm => checkXyzDim_tuple_rejects _ m (.inr (.inr hm.symm)), fun i => ?_⟩
    · simp only [List.length_cons]
      omega
    · rw [hx, hv 0 (by simp), hv 1 (by simp)]
      rfl

theorem planar_both (h : IsPlanar xy sh x) : ∃ a : NArr ℝ, a.shape = sh ++ [2] ∧ horizontal32 xy = .ok a ∧ horizontal23 xy = .ok a ∧
    ∀ i, x i = (a.get (i ++ [0]), a.get (i ++ [1])) := by
  obtain ⟨a, k, hk, hc, hs, hm, hx⟩ := planar_check h
  rcases hk with rfl | rfl
  · refine ⟨a, hs, ?_, ?_, hx⟩
    · simp only [horizontal32, hm 3 (by norm_num), hc]
    · simp only [horizontal23, hc]
  · refine ⟨⟨sh ++ [2], a.get⟩, rfl, ?_, ?_, hx⟩
    · simp only [horizontal32, hc, firstTwo, hs, List.getLast?_concat, List.dropLast_concat]
      rfl
    · simp only [horizontal23, hm 2 (by norm_num), hc, ok_bind, firstTwo, hs, List.getLast?_concat, List.dropLast_concat]
      rfl

/-- The array `r` holds the vectors for all pairs of a time and a point of the surface. -/
def HoldsPlanar (t : NArr ℝ) (sh : List ℕ) (x : List ℕ → ℝ × ℝ) (f : ℝ → ℝ → ℝ → V3 ℝ) (r : NArr ℝ) : Prop :=
  r.shape = t.shape ++ sh ++ [3] ∧
    ∀ p, InShape t.shape p → ∀ i, InShape sh i → vecAt r (p ++ i) = f (t.get p) (x i).1 (x i).2

variable {t : NArr ℝ}

theorem onSurface_pairs (f : ℝ → ℝ → ℝ → V3 ℝ) (h : IsPlanar xy sh x) :
    ∃ r, onSurface f t xy = .ok r ∧ HoldsPlanar t sh x f r := by
  obtain ⟨a, hs, h32, -, hx⟩ := planar_both h
  obtain ⟨p, hp, hps, hpv⟩ := same_zip (sh := sh) (a := a.column 0) (b := a.column 1) Prod.mk (by simp [column, hs]) (by simp [column, hs])
  have hnd : (Dipole.normLast a).ndim = sh.length := by simp [ndim, Dipole.normLast, hs]
  obtain ⟨e, he, hes, hev⟩ := pair_zip (F := t.shape) (k := appendNdim t sh.length) (q := t.get) (fun t (p : ℝ × ℝ) => f t p.1 p.2)
    (appendNdim_spec t _).1 (fun p _ => (appendNdim_spec t _).2 p) hps
  refine ⟨stack3 (e.mapA V3.x) (e.mapA V3.y) (e.mapA V3.z), ?_, ?_, ?_⟩
  · simp only [onSurface, h32, ok_bind, hnd, hp, he]
    rfl
  · simp [stack3, mapA, hes]
  · intro q hq i hi
    have : vecAt (stack3 (e.mapA V3.x) (e.mapA V3.y) (e.mapA V3.z)) (q ++ i) = e.get (q ++ i) := by
      rw [vecAt_stack3]; rfl
    rw [this, hev q hq i hi, hpv i hi, hx]
    rfl

theorem planar_map {f : ℝ → ℝ → ℝ → V3 ℝ} {m : Py (NArr ℝ)} (c : ℝ) (h : ∃ r, m = .ok r ∧ HoldsPlanar t sh x f r) :
    ∃ r, (m >>= fun b => pure (b.mapA (c * ·))) = .ok r ∧ HoldsPlanar t sh x (fun t x y => c • f t x y) r := by
  obtain ⟨r, rfl, hs, hv⟩ := h
  refine ⟨_, rfl, hs, fun p hp i hi => ?_⟩
  show _ = c • f _ _ _
  rw [← hv p hp i hi]
  rfl

/-- **C99.** The functions for a vertical dipole: all pairs of times and points. -/
theorem surface_functions_pairs (sigma mu moment : ℝ) (h : IsPlanar xy sh x) :
    (∃ r, dipoleField t xy sigma mu moment = .ok r ∧ HoldsPlanar t sh x (fun t x y => Tdem.dipoleField t x y sigma mu moment) r) ∧
    (∃ r, dipoleFlux t xy sigma mu moment = .ok r ∧ HoldsPlanar t sh x (fun t x y => Tdem.dipoleFlux t x y sigma mu moment) r) ∧
    (∃ r, dipoleFieldTimeDeriv t xy sigma mu moment = .ok r ∧
      HoldsPlanar t sh x (fun t x y => Tdem.dipoleFieldTimeDeriv t x y sigma mu moment) r) ∧
    (∃ r, dipoleFluxTimeDeriv t xy sigma mu moment = .ok r ∧
      HoldsPlanar t sh x (fun t x y => Tdem.dipoleFluxTimeDeriv t x y sigma mu moment) r) :=
  ⟨onSurface_pairs _ h, planar_map mu (onSurface_pairs _ h), onSurface_pairs _ h, planar_map mu (onSurface_pairs _ h)⟩

theorem half_pairs (s : HalfspaceDipole) (f : ℝ → ℝ → ℝ → V3 ℝ) (h : IsPlanar xy sh x) :
    ∃ r, (do
      let xy ← horizontal23 xy
      let dxy ← zipWith (· - ·) xy (arr2 s.location)
      onSurface f s.time (.array dxy)) = .ok r ∧ HoldsPlanar s.time sh x (fun t x y => f t (x - s.location.x) (y - s.location.y)) r := by
  obtain ⟨a, hs, -, h23, hx⟩ := planar_both h
  obtain ⟨d, hd, hds, hdv⟩ := sub_location hs s.location
  obtain ⟨r, hr, hrs, hrv⟩ := onSurface_pairs (t := s.time) (xy := .array d) (sh := sh) (x := fun i => (d.get (i ++ [0]), d.get (i ++ [1]))) f
    (.inl ⟨d, 2, rfl, hds, .inl rfl, fun _ => rfl⟩)
  refine ⟨r, ?_, hrs, fun p hp i hi => ?_⟩
  · simp only [h23, ok_bind, hd, hr]
  · rw [hrv p hp i hi, hx]
    simp only
    rw [(hdv i hi).1, (hdv i hi).2]

/-- **C99.** The methods of the vertical dipole: all pairs of times and points. -/
theorem HalfspaceDipole.pairs (s : HalfspaceDipole) (h : IsPlanar xy sh x) :
    (∃ r, s.magneticField xy = .ok r ∧ HoldsPlanar s.time sh x (fun t => (s.at t).magneticField) r) ∧
    (∃ r, s.magneticFluxDensity xy = .ok r ∧ HoldsPlanar s.time sh x (fun t => (s.at t).magneticFluxDensity) r) ∧
    (∃ r, s.magneticFieldTimeDerivative xy = .ok r ∧ HoldsPlanar s.time sh x (fun t => (s.at t).magneticFieldTimeDerivative) r) ∧
    (∃ r, s.magneticFluxTimeDerivative xy = .ok r ∧ HoldsPlanar s.time sh x (fun t => (s.at t).magneticFluxTimeDerivative) r) :=
  ⟨half_pairs s _ h, planar_map s.mu (half_pairs s _ h), half_pairs s _ h, planar_map s.mu (half_pairs s _ h)⟩

/-- **C99.** Every other argument is refused by all of them. -/
theorem planar_or_refused (xy : XyzArg ℝ) : (∃ sh x, IsPlanar xy sh x) ∨
    ((∃ e, horizontal32 xy = .error e) ∧ ∃ e, horizontal23 xy = .error e) := by
  by_cases h2 : ∃ a, checkXyzDim xy 2 = .ok a
  · left
    obtain ⟨a, ha⟩ := h2
    cases xy with
    | array b =>
      rcases List.eq_nil_or_concat b.shape with h | ⟨sh, n, h⟩
      · rw [(checkXyzDim_array b 2).2.2 h] at ha
        simp at ha
      · rw [List.concat_eq_append] at h
        by_cases hn : n = 2
        · exact ⟨sh, _, .inl ⟨b, n, rfl, h, .inl hn, fun _ => rfl⟩⟩
        · rw [(checkXyzDim_array b 2).2.1 sh n h hn] at ha
          simp at ha
    | tuple l =>
      by_cases h : l = [] ∨ (∃ a ∈ l, ∃ b ∈ l, a.shape ≠ b.shape) ∨ l.length ≠ 2
      · rw [checkXyzDim_tuple_rejects l 2 h] at ha
        simp at ha
      · push Not at h
        obtain ⟨-, h1, h2⟩ := h
        obtain ⟨a, b, rfl⟩ := List.length_eq_two.1 h2
        exact ⟨a.shape, _, .inr ⟨a, b, [], rfl, by simp, fun c hc => h1 c hc a (by simp), fun _ => rfl⟩⟩
  · by_cases h3 : ∃ a, checkXyzDim xy 3 = .ok a
    · left
      rcases points_or_refused xy with ⟨sh, x, hp⟩ | ⟨e, he⟩
      · rcases hp with ⟨a, rfl, ha, hx⟩ | ⟨a, b, c, rfl, ha, hb, hc, hx⟩
        · exact ⟨sh, _, .inl ⟨a, 3, rfl, ha, .inr rfl, fun _ => rfl⟩⟩
        · refine ⟨sh, _, .inr ⟨a, b, [c], rfl, by simp, ?_, fun _ => rfl⟩⟩
          simp [ha, hb, hc]
      · obtain ⟨a, ha⟩ := h3
        rw [he] at ha
        simp at ha
    · right
      obtain ⟨e2, he2⟩ : ∃ e, checkXyzDim xy 2 = .error e := by
        cases h : checkXyzDim xy 2 with
        | ok a => exact absurd ⟨a, h⟩ h2
        | error e => exact ⟨e, rfl⟩
      obtain ⟨e3, he3⟩ : ∃ e, checkXyzDim xy 3 = .error e := by
        cases h : checkXyzDim xy 3 with
        | ok a => exact absurd ⟨a, h⟩ h3
        | error e => exact ⟨e, rfl⟩
      constructor
      · simp only [horizontal32, he3]
        split
        · simp_all
        · exact ⟨_, he2⟩
        · exact ⟨_, rfl⟩
      · simp only [horizontal23, he2]
        split
        · simp_all
        · exact ⟨e3, by simp [he3, bind, Except.bind]⟩
        · exact ⟨_, rfl⟩

end TdemArr

/-- Three frequencies and a grid of four by five points: nothing is squeezed. -/
example (iv kv : ℕ → ℂ → ℂ) (mu0 : ℝ) (s : FdemArr.HalfDipole) (hf : s.frequency.shape = [3]) :
    ∃ r, s.magneticField iv kv mu0 ⟨[4, 5, 2], fun i => i.sum⟩ "total" = .ok r ∧ r.shape = [3, 4, 5, 3] := by
  obtain ⟨r, hr, hs, -⟩ := s.magneticField_unsqueezed (iv := iv) (kv := kv) (mu0 := mu0) (field := "total") hf (by norm_num)
    (xy := ⟨[4, 5, 2], fun i => i.sum⟩) (sh := [4, 5]) (n := 2) rfl le_rfl (by simp)
  exact ⟨r, hr, by simp [hs, hf]⟩

/-- One frequency and one point in arrays: three numbers. -/
example (iv kv : ℕ → ℂ → ℂ) (mu0 : ℝ) (s : FdemArr.HalfDipole) (hf : s.frequency.shape = [1]) :
    ∃ r, s.magneticField iv kv mu0 ⟨[1, 2], fun i => i.sum⟩ "total" = .ok r ∧ r.shape = [3] := by
  obtain ⟨r, hr, hs, -⟩ := s.magneticField_pairs (iv := iv) (kv := kv) (mu0 := mu0) (field := "total") hf
    (xy := ⟨[1, 2], fun i => i.sum⟩) (sh := [1]) (n := 2) rfl le_rfl
  exact ⟨_, hr, by simp [squeeze, hs, hf]⟩

example : TdemArr.IsPlanar (.tuple [⟨[7], fun i => i.sum⟩, ⟨[7], fun _ => 1⟩]) [7] (fun i => (i.sum, 1)) :=
  .inr ⟨_, _, [], rfl, by simp, by simp, fun _ => rfl⟩

end Verif
