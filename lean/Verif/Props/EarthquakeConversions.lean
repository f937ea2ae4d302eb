import Verif.Props.EarthquakeAttributes
import Mathlib.Tactic.IntervalCases

/-!
# C83: what each setter of the earthquake classes accepts, stores and raises

`lastAccepted` of C61 is stated through the setters' own conversions.  Here those conversions are pinned down one by one, for
every argument, together with the class of the exception that a refused argument raises and the untouched object it leaves.
-/

namespace Verif.Earthquake

open Classical

variable {D : Type} [FloatGrammar] [Conversions D]

/-! ## Specification -/

/-- The assignment `obj.a = v` is accepted and `obj.a` then reads `w`. -/
def Stores (s : Slots D) (a : IAttr) (v : Arg D) (w : Val D) : Prop :=
  (IAttr.set s (a, v)).2 = none ∧ a.get (IAttr.set s (a, v)).1 = .ok w

/-- The assignment `obj.a = v` raises `e` and leaves the object as it was. -/
def Refuses (s : Slots D) (a : IAttr) (v : Arg D) (e : PyErr) : Prop := IAttr.set s (a, v) = (s, some e)

/-- The same for `Oksar`. -/
def StoresO (s : Slots D) (a : OAttr) (v : Arg D) (w : Val D) : Prop :=
  (OAttr.set s (a, v)).2 = none ∧ a.get (OAttr.set s (a, v)).1 = .ok w

/-- The same for `Oksar`. -/
def RefusesO (s : Slots D) (a : OAttr) (v : Arg D) (e : PyErr) : Prop := OAttr.set s (a, v) = (s, some e)

/-- The integer obtained from `x` by dropping the fractional part. -/
def TruncatesTo (x : ℝ) (n : ℤ) : Prop := (0 ≤ x → n ≤ x ∧ x < n + 1) ∧ (x ≤ 0 → n - 1 < x ∧ x ≤ n)

omit [FloatGrammar] in
/-- `TruncatesTo` determines the integer. -/
theorem TruncatesTo.unique {x : ℝ} {m n : ℤ} (hm : TruncatesTo x m) (hn : TruncatesTo x n) : m = n := by
  rcases le_total 0 x with h | h
  · obtain ⟨a, b⟩ := hm.1 h
    obtain ⟨c, d⟩ := hn.1 h
    have h1 : (m : ℝ) < n + 1 := by linarith
    have h2 : (n : ℝ) < m + 1 := by linarith
    have h3 : m < n + 1 := by exact_mod_cast h1
    have h4 : n < m + 1 := by exact_mod_cast h2
    omega
  · obtain ⟨a, b⟩ := hm.2 h
    obtain ⟨c, d⟩ := hn.2 h
    have h1 : (m : ℝ) - 1 < n := by linarith
    have h2 : (n : ℝ) - 1 < m := by linarith
    have h3 : m - 1 < n := by exact_mod_cast h1
    have h4 : n - 1 < m := by exact_mod_cast h2
    omega

/-! ## Reduction to the conversions -/

omit [FloatGrammar] [Conversions D] in
private theorem sameSlot {a : IAttr} (h1 : a ≠ .local_rigidity) (h2 : a ≠ .event_date) : a.getSlot = a.setSlot := by
  cases a <;> simp_all [IAttr.getSlot, IAttr.setSlot]

private theorem stores_of {s : Slots D} {a : IAttr} {v : Arg D} {w : Val D} (h1 : a ≠ .local_rigidity)
    (h2 : a ≠ .event_date) (h : a.convert v = .ok w) : Stores s a v w := by
  have : IAttr.set s (a, v) = (s.write a.setSlot w, none) := by simp only [IAttr.set, h]
  refine ⟨by rw [this], ?_⟩
  rw [this, IAttr.get, sameSlot h1 h2]
  simp [Slots.read, Slots.write]

private theorem refuses_of {s : Slots D} {a : IAttr} {v : Arg D} {e : PyErr} (h : a.convert v = .error e) :
    Refuses s a v e := by
  simp only [Refuses, IAttr.set, h]

private theorem storesO_of {s : Slots D} {a : OAttr} {v : Arg D} {w : Val D} (h1 : a ≠ .V)
    (h : a.convert s v = .ok w) : StoresO s a v w := by
  have : OAttr.set s (a, v) = (s.write a.setSlot w, none) := by simp only [OAttr.set, h]
  have hs : a.getSlot = a.setSlot := by cases a <;> simp_all [OAttr.getSlot, OAttr.setSlot]
  refine ⟨by rw [this], ?_⟩
  rw [this, OAttr.get, hs]
  simp [Slots.read, Slots.write]

private theorem refusesO_of {s : Slots D} {a : OAttr} {v : Arg D} {e : PyErr} (h : a.convert s v = .error e) :
    RefusesO s a v e := by
  simp only [RefusesO, OAttr.set, h]

omit [FloatGrammar] [Conversions D] in
private theorem truncInt_fin (x : ℝ) : ∃ n, truncInt (.fin x) = some n ∧ TruncatesTo x n := by
  refine ⟨_, rfl, ?_⟩
  by_cases h : 0 ≤ x
  · rw [if_pos h]
    refine ⟨fun _ => ⟨Int.floor_le x, Int.lt_floor_add_one x⟩, fun h0 => ?_⟩
    have : x = 0 := le_antisymm h0 h
    subst this
    simp
  · rw [if_neg h]
    refine ⟨fun h0 => absurd h0 h, fun _ => ⟨?_, Int.le_ceil x⟩⟩
    have := Int.ceil_lt_add_one x
    linarith

omit [FloatGrammar] [Conversions D] in
private theorem truncInt_eq {x : PyFloat} {n : ℤ} : truncInt x = some n ↔ ∃ r, x = .fin r ∧ TruncatesTo r n := by
  constructor
  · intro h
    cases x with
    | fin r =>
      obtain ⟨m, hm, ht⟩ := truncInt_fin r
      rw [hm, Option.some.injEq] at h
      exact ⟨r, rfl, h ▸ ht⟩
    | _ => simp [truncInt] at h
  · rintro ⟨r, rfl, ht⟩
    obtain ⟨m, hm, ht'⟩ := truncInt_fin r
    rw [hm, ht'.unique ht]

omit [FloatGrammar] [Conversions D] in
private theorem truncInt_none {x : PyFloat} : truncInt x = none ↔ ∀ r, x ≠ .fin r := by
  cases x <;> simp [truncInt]

omit [FloatGrammar] in
/-- In a one-element array the zero index is the only one in range. -/
private theorem index_of_size_one {s i : List ℕ} (hs : s.prod = 1) (hi : InShape s i) : i = s.map fun _ => 0 := by
  induction s generalizing i with
  | nil => cases hi; rfl
  | cons n s ih =>
    rw [List.prod_cons] at hs
    obtain ⟨hn, hp⟩ := (⟨Nat.dvd_one.1 (hs ▸ Nat.dvd_mul_right _ _), Nat.dvd_one.1 (hs ▸ Nat.dvd_mul_left _ _)⟩ : n = 1 ∧ s.prod = 1)
    rcases i with _ | ⟨k, i⟩
    · cases hi
    · simp only [InShape, List.forall₂_cons] at hi
      have hk : k = 0 := by omega
      rw [List.map_cons, hk, ih hp hi.2]

/-! ## Numbers -/

/-- The number attributes store what `float` makes of the argument, and raise `TypeError` for everything else. -/
theorem float_attributes (s : Slots D) (a : IAttr) (ha : a ∈ [IAttr.ref_incidence, .scaling, .satellite_fringe_interval,
    .satellite_azimuth, .satellite_altitude, .local_earth_radius]) (v : Arg D) :
    (∀ o y, v = .obj o → o.toFloat = .ok y → Stores s a v (.float y)) ∧
    ((∀ o y, v = .obj o → o.toFloat ≠ .ok y) → Refuses s a v .typeError) := by
  have hc : ∀ v : Arg D, a.convert v = toFloatAttr v := by
    simp only [List.mem_cons, List.not_mem_nil, or_false] at ha
    rcases ha with rfl | rfl | rfl | rfl | rfl | rfl <;> exact fun _ => rfl
  have h1 : a ≠ .local_rigidity := by rintro rfl; simp at ha
  have h2 : a ≠ .event_date := by rintro rfl; simp at ha
  constructor
  · rintro o y rfl hy
    exact stores_of h1 h2 (by simp [hc, toFloatAttr, toFloatVal, hy])
  · intro h
    refine refuses_of ?_
    cases v with
    | date d => simp [hc, toFloatAttr, toFloatVal]
    | obj o =>
      cases hy : o.toFloat with
      | ok y => exact absurd hy (h o y rfl)
      | error e => simp [hc, toFloatAttr, toFloatVal, hy]

/-- What `float` makes of an argument: numbers as they are, strings by their grammar, arrays of exactly one element by
that element. -/
theorem float_of (o : Obj) (y : PyFloat) : o.toFloat = .ok y ↔
    o = .num y ∨ (∃ t, o = .str t ∧ FloatGrammar.parse t = some y) ∨
      ∃ a, o = .ndarray a ∧ a.size = 1 ∧ ∀ i, InShape a.shape i → a.get i = y := by
  have key : ∀ a : NArr PyFloat, a.size = 1 → (a.get (a.shape.map fun _ => 0) = y ↔ ∀ i, InShape a.shape i → a.get i = y) := by
    intro a h1
    constructor
    · intro h i hi
      rw [index_of_size_one h1 hi, h]
    · intro h
      refine h _ ?_
      have : ∀ l : List ℕ, l.prod = 1 → InShape l (l.map fun _ => 0) := by
        intro l hl
        induction l with
        | nil => exact List.Forall₂.nil
        | cons n l ih =>
          rw [List.prod_cons] at hl
          obtain ⟨hn, hp⟩ := (⟨Nat.dvd_one.1 (hl ▸ Nat.dvd_mul_right _ _), Nat.dvd_one.1 (hl ▸ Nat.dvd_mul_left _ _)⟩ : n = 1 ∧ l.prod = 1)
          exact List.Forall₂.cons (by simp [hn]) (ih hp)
      exact this _ h1
  cases o with
  | num x => simp [Obj.toFloat]
  | str t => cases h : FloatGrammar.parse t <;> simp [Obj.toFloat, h]
  | ndarray a =>
    by_cases h1 : a.size = 1
    · simp only [Obj.toFloat, h1, if_true, Except.ok.injEq, key a h1]
      simp [h1]
    · simp [Obj.toFloat, h1]
  | seq a => simp [Obj.toFloat]
  | none => simp [Obj.toFloat]
  | other => simp [Obj.toFloat]

/-- The rigidity setter accepts and refuses in the same way; that it cannot be read back is C61. -/
theorem local_rigidity_accepts (s : Slots D) (v : Arg D) :
    (∀ o y, v = .obj o → o.toFloat = .ok y → (IAttr.set s (.local_rigidity, v)).2 = none) ∧
    ((∀ o y, v = .obj o → o.toFloat ≠ .ok y) → Refuses s .local_rigidity v .typeError) := by
  constructor
  · rintro o y rfl hy
    simp [IAttr.set, IAttr.convert, toFloatAttr, toFloatVal, hy]
  · intro h
    refine refuses_of ?_
    cases v with
    | date d => simp [IAttr.convert, toFloatAttr, toFloatVal]
    | obj o =>
      cases hy : o.toFloat with
      | ok y => exact absurd hy (h o y rfl)
      | error e => simp [IAttr.convert, toFloatAttr, toFloatVal, hy]

/-! ## Strings -/

/-- The text attributes store `str(value)`; an argument whose `str` raises gives `TypeError`. -/
theorem text_attributes (s : Slots D) (a : IAttr) (ha : a ∈ [IAttr.title, .processed_by, .description, .satellite_name,
    .copyright, .data_source, .event_gcmt_id, .event_name, .event_country]) (v : Arg D) :
    (∀ t, Conversions.str v = some t → Stores s a v (.text t)) ∧
    (Conversions.str v = none → Refuses s a v .typeError) := by
  have hc : ∀ v : Arg D, a.convert v = toStrVal v := by
    simp only [List.mem_cons, List.not_mem_nil, or_false] at ha
    rcases ha with rfl | rfl | rfl | rfl | rfl | rfl | rfl | rfl | rfl <;> exact fun _ => rfl
  have h1 : a ≠ .local_rigidity := by rintro rfl; simp at ha
  have h2 : a ≠ .event_date := by rintro rfl; simp at ha
  exact ⟨fun t ht => stores_of h1 h2 (by simp [hc, toStrVal, ht]), fun ht => refuses_of (by simp [hc, toStrVal, ht])⟩

/-! ## The UTM zone -/

/-- The zone: a finite number truncates toward zero, an array of exactly one finite element likewise, a string is parsed as an
integer. -/
theorem zone_stores (s : Slots D) :
    (∀ (x : ℝ) (n : ℤ), TruncatesTo x n → Stores s .location_UTM_zone (.obj (.num (.fin x))) (.int n)) ∧
    (∀ (a : NArr PyFloat) (i : List ℕ) (x : ℝ) (n : ℤ), a.size = 1 → InShape a.shape i → a.get i = .fin x →
      TruncatesTo x n → Stores s .location_UTM_zone (.obj (.ndarray a)) (.int n)) ∧
    (∀ (t : String) (n : ℤ), Conversions.parseInt D t = some n →
      Stores s .location_UTM_zone (.obj (.str t)) (.int n)) := by
  refine ⟨?_, ?_, ?_⟩
  · intro x n h
    refine stores_of (by simp) (by simp) ?_
    simp [IAttr.convert, toIntVal, intOf, truncInt_eq.2 ⟨x, rfl, h⟩]
  · intro a i x n h1 hi hx h
    refine stores_of (by simp) (by simp) ?_
    rw [index_of_size_one h1 hi] at hx
    simp only [IAttr.convert, toIntVal, intOf, h1, if_true, hx, truncInt_eq.2 ⟨x, rfl, h⟩]
  · intro t n h
    exact stores_of (by simp) (by simp) (by simp [IAttr.convert, toIntVal, intOf, h])

/-- Everything else raises `TypeError`: infinities and NaN, strings that are no integers, arrays of another size or with a
non-finite element, lists, `None`, other objects and datetimes. -/
theorem zone_refuses (s : Slots D) :
    (∀ x : PyFloat, (∀ r, x ≠ .fin r) → Refuses s .location_UTM_zone (.obj (.num x)) .typeError) ∧
    (∀ a : NArr PyFloat, a.size ≠ 1 → Refuses s .location_UTM_zone (.obj (.ndarray a)) .typeError) ∧
    (∀ (a : NArr PyFloat) (i : List ℕ), a.size = 1 → InShape a.shape i → (∀ r, a.get i ≠ .fin r) →
      Refuses s .location_UTM_zone (.obj (.ndarray a)) .typeError) ∧
    (∀ t, Conversions.parseInt D t = none → Refuses s .location_UTM_zone (.obj (.str t)) .typeError) ∧
    (∀ a, Refuses s .location_UTM_zone (.obj (.seq a)) .typeError) ∧
    Refuses s .location_UTM_zone (.obj .none) .typeError ∧ Refuses s .location_UTM_zone (.obj .other) .typeError ∧
    ∀ d, Refuses s .location_UTM_zone (.date d) .typeError := by
  refine ⟨?_, ?_, ?_, ?_, ?_, ?_, ?_, ?_⟩
  · intro x h
    exact refuses_of (by simp [IAttr.convert, toIntVal, intOf, truncInt_none.2 h])
  · intro a h
    exact refuses_of (by simp [IAttr.convert, toIntVal, intOf, h])
  · intro a i h1 hi h
    rw [index_of_size_one h1 hi] at h
    exact refuses_of (by simp only [IAttr.convert, toIntVal, intOf, h1, if_true, truncInt_none.2 h])
  · intro t h
    exact refuses_of (by simp [IAttr.convert, toIntVal, intOf, h])
  · intro a
    exact refuses_of (by simp [IAttr.convert, toIntVal, intOf])
  · exact refuses_of (by simp [IAttr.convert, toIntVal, intOf])
  · exact refuses_of (by simp [IAttr.convert, toIntVal, intOf])
  · intro d
    exact refuses_of (by simp [IAttr.convert, toIntVal])

/-! ## The shape -/

omit [FloatGrammar] in
private theorem rows_ofList (l : List PyFloat) (f : NArr PyFloat → Option ℤ) (g : PyFloat → Option ℤ)
    (hfg : ∀ r : NArr PyFloat, r.shape = [] → f r = g (r.get [])) :
    (rows (NArr.ofList l .nan)).mapM f = l.mapM g := by
  have key : (rows (NArr.ofList l .nan)).map f = l.map g := by
    apply List.ext_getElem
    · simp [rows, NArr.ofList]
    · intro k h1 h2
      simp only [List.length_map] at h2
      simp only [rows, NArr.ofList, List.map_map, List.getElem_map, Function.comp_apply, List.getElem_range]
      rw [hfg _ (by simp)]
      simp [List.getD_eq_getElem?_getD, h2]
  have m : ∀ {α : Type} (f : α → Option ℤ) (l : List α), l.mapM f = (l.map f).mapM id := by
    intro α f l
    induction l with
    | nil => rfl
    | cons x l ih => simp only [List.map_cons, List.mapM_cons, ih, id]
  rw [m f, m g, key]

omit [FloatGrammar] in
private theorem intTuple_list (l : List PyFloat) :
    intTuple D (.seq (NArr.ofList l .nan)) = l.mapM truncInt ∧
      intTuple D (.ndarray (NArr.ofList l .nan)) = l.mapM truncInt := by
  constructor
  · have : (NArr.ofList l PyFloat.nan).shape.length = 1 := rfl
    simp only [intTuple, this, ne_eq, not_true_eq_false, if_false]
    exact rows_ofList l _ _ (fun _ _ => rfl)
  · have : (NArr.ofList l PyFloat.nan).shape ≠ [] := by simp [NArr.ofList]
    simp only [intTuple, this, if_false]
    refine rows_ofList l _ _ (fun r hr => ?_)
    simp [intOf, NArr.size, hr]

omit [FloatGrammar] [Conversions D] in
private theorem mapM_trunc {l : List PyFloat} {ns : List ℤ} :
    l.mapM truncInt = some ns ↔ List.Forall₂ (fun x n => ∃ r, x = PyFloat.fin r ∧ TruncatesTo r n) l ns := by
  induction l generalizing ns with
  | nil => cases ns <;> simp [List.mapM_nil, pure]
  | cons x l ih =>
    rw [List.mapM_cons]
    cases hx : truncInt x with
    | none =>
      have hx' := truncInt_none.1 hx
      cases ns with
      | nil => simp [bind, Option.bind]
      | cons n ns =>
        simp only [bind, Option.bind, List.forall₂_cons]
        refine ⟨fun h => by simp at h, ?_⟩
        rintro ⟨⟨r, hr, _⟩, _⟩
        exact absurd hr (hx' r)
    | some m =>
      cases hl : l.mapM truncInt with
      | none =>
        have hno : ∀ ns, ¬ List.Forall₂ (fun x n => ∃ r, x = PyFloat.fin r ∧ TruncatesTo r n) l ns := by
          intro ns h
          rw [ih.2 h] at hl
          simp at hl
        cases ns with
        | nil => simp [bind, Option.bind]
        | cons n ns =>
          simp only [bind, Option.bind, List.forall₂_cons]
          exact ⟨fun h => by simp at h, fun h => absurd h.2 (hno ns)⟩
      | some ms =>
        have h2 := ih.1 hl
        cases ns with
        | nil => simp [bind, Option.bind, pure]
        | cons n ns =>
          simp only [bind, Option.bind, pure, Option.some.injEq, List.cons.injEq, List.forall₂_cons]
          constructor
          · rintro ⟨rfl, rfl⟩
            exact ⟨truncInt_eq.1 hx, h2⟩
          · rintro ⟨h3, h4⟩
            refine ⟨?_, ?_⟩
            · have := truncInt_eq.2 h3
              rw [hx, Option.some.injEq] at this
              exact this
            · have := ih.2 h4
              rw [hl, Option.some.injEq] at this
              exact this

omit [FloatGrammar] [Conversions D] in
private theorem mapM_trunc_none {l : List PyFloat} : l.mapM truncInt = none ↔ ∃ x ∈ l, ∀ r, x ≠ PyFloat.fin r := by
  induction l with
  | nil => simp [List.mapM_nil, pure]
  | cons x l ih =>
    rw [List.mapM_cons]
    cases hx : truncInt x with
    | none => simp [bind, Option.bind]; exact Or.inl (truncInt_none.1 hx)
    | some m =>
      have hx' : ¬ ∀ r, x ≠ PyFloat.fin r := by rw [← truncInt_none, hx]; simp
      cases hl : l.mapM truncInt with
      | none =>
        simp only [bind, Option.bind, List.mem_cons, true_iff]
        obtain ⟨y, hy, hr⟩ := ih.1 hl
        exact ⟨y, Or.inr hy, hr⟩
      | some ms =>
        have : ¬ ∃ x ∈ l, ∀ r, x ≠ PyFloat.fin r := by rw [← ih, hl]; simp
        simp only [bind, Option.bind, pure, List.mem_cons, reduceCtorEq, false_iff]
        rintro ⟨y, rfl | hy, hr⟩
        · exact hx' hr
        · exact this ⟨y, hy, hr⟩

/-- A list or one-dimensional array of finite numbers is accepted exactly when it has two entries, both truncated toward zero;
another number of entries is a `ValueError`, a non-finite entry a `TypeError`. -/
theorem shape_of_list (s : Slots D) (l : List PyFloat) (o : Obj)
    (ho : o = .seq (NArr.ofList l .nan) ∨ o = .ndarray (NArr.ofList l .nan)) :
    (∀ x y m n, l = [.fin x, .fin y] → TruncatesTo x m → TruncatesTo y n → Stores s .shape (.obj o) (.ints [m, n])) ∧
    ((∀ x ∈ l, ∃ r, x = .fin r) → l.length ≠ 2 → Refuses s .shape (.obj o) .valueError) ∧
    ((∃ x ∈ l, ∀ r, x ≠ .fin r) → Refuses s .shape (.obj o) .typeError) := by
  have ht : intTuple D o = l.mapM truncInt := by
    rcases ho with rfl | rfl
    · exact (intTuple_list l).1
    · exact (intTuple_list l).2
  refine ⟨?_, ?_, ?_⟩
  · rintro x y m n rfl hm hn
    refine stores_of (by simp) (by simp) ?_
    have : [PyFloat.fin x, .fin y].mapM truncInt = some [m, n] := by
      rw [mapM_trunc]
      exact .cons ⟨x, rfl, hm⟩ (.cons ⟨y, rfl, hn⟩ .nil)
    simp [IAttr.convert, toShapeVal, ht, this]
  · intro hfin hlen
    refine refuses_of ?_
    cases h : l.mapM truncInt with
    | none =>
      obtain ⟨x, hx, hr⟩ := mapM_trunc_none.1 h
      obtain ⟨r, hr'⟩ := hfin x hx
      exact absurd hr' (hr r)
    | some ns =>
      have := (mapM_trunc.1 h).length_eq
      have h2 : ns.length ≠ 2 := by omega
      simp [IAttr.convert, toShapeVal, ht, h, h2]
  · intro h
    exact refuses_of (by simp [IAttr.convert, toShapeVal, ht, mapM_trunc_none.2 h])

/-- Numbers, nested lists, zero-dimensional arrays, `None`, other objects and datetimes raise `TypeError`. -/
theorem shape_refuses (s : Slots D) :
    (∀ x, Refuses s .shape (.obj (.num x)) .typeError) ∧
    (∀ a : NArr PyFloat, a.shape.length ≠ 1 → Refuses s .shape (.obj (.seq a)) .typeError) ∧
    (∀ a : NArr PyFloat, a.shape = [] → Refuses s .shape (.obj (.ndarray a)) .typeError) ∧
    Refuses s .shape (.obj .none) .typeError ∧ Refuses s .shape (.obj .other) .typeError ∧
    ∀ d, Refuses s .shape (.date d) .typeError := by
  refine ⟨?_, ?_, ?_, ?_, ?_, ?_⟩
  · exact fun x => refuses_of (by simp [IAttr.convert, toShapeVal, intTuple])
  · exact fun a h => refuses_of (by simp [IAttr.convert, toShapeVal, intTuple, h])
  · exact fun a h => refuses_of (by simp [IAttr.convert, toShapeVal, intTuple, h])
  · exact refuses_of (by simp [IAttr.convert, toShapeVal, intTuple])
  · exact refuses_of (by simp [IAttr.convert, toShapeVal, intTuple])
  · exact fun d => refuses_of (by simp [IAttr.convert, toShapeVal])

/-- A two-dimensional array with rows of more than one entry raises `TypeError`: `int` of a row fails. -/
theorem shape_refuses_matrix (s : Slots D) (k m : ℕ) (hk : 0 < k) (hm : m ≠ 1) (g : List ℕ → PyFloat) :
    Refuses s .shape (.obj (.ndarray ⟨[k, m], g⟩)) .typeError := by
  obtain ⟨k, rfl⟩ := Nat.exists_eq_succ_of_ne_zero hk.ne'
  refine refuses_of ?_
  have : intTuple D (.ndarray ⟨[k + 1, m], g⟩) = none := by
    have hr : rows ⟨[k + 1, m], g⟩ = ⟨[m], fun i => g (0 :: i)⟩ ::
        (List.range k).map (fun j => (⟨[m], fun i => g ((j + 1) :: i)⟩ : NArr PyFloat)) := by
      simp [rows, List.range_succ_eq_map, Function.comp_def]
    simp [intTuple, hr, List.mapM_cons, intOf, NArr.size, hm]
  simp [IAttr.convert, toShapeVal, this]

/-! ## Arrays and pairs -/

/-- `data` stores the argument as a float array, of any shape; what is no array of numbers raises `TypeError`. -/
theorem data_attribute (s : Slots D) (v : Arg D) :
    (∀ o b, v = .obj o → o.asFloatArray = .ok b → Stores s .data v (.array b)) ∧
    ((∀ o b, v = .obj o → o.asFloatArray ≠ .ok b) → Refuses s .data v .typeError) := by
  constructor
  · rintro o b rfl hb
    exact stores_of (by simp) (by simp) (by simp [IAttr.convert, toArray, hb])
  · intro h
    refine refuses_of ?_
    cases v with
    | date d => simp [IAttr.convert, toArray]
    | obj o =>
      cases hy : o.asFloatArray with
      | ok y => exact absurd hy (h o y rfl)
      | error e => simp [IAttr.convert, toArray, hy]

omit [Conversions D] in
private theorem toPair_spec (e : PyErr) (v : Arg D) :
    (∀ o b, v = .obj o → o.asFloatArray = .ok b → b.squeeze.shape = [2] → toPair e v = .ok (.array b.squeeze)) ∧
    (∀ o b, v = .obj o → o.asFloatArray = .ok b → b.squeeze.shape ≠ [2] → toPair e v = .error e) ∧
    ((∀ o b, v = .obj o → o.asFloatArray ≠ .ok b) → toPair e v = .error .typeError) := by
  refine ⟨?_, ?_, ?_⟩
  · rintro o b rfl hb h2
    simp [toPair, toArray, hb, h2]
  · rintro o b rfl hb h2
    simp [toPair, toArray, hb, h2]
  · intro h
    cases v with
    | date d => simp [toPair, toArray]
    | obj o =>
      cases hy : o.asFloatArray with
      | ok y => exact absurd hy (h o y rfl)
      | error e => simp [toPair, toArray, hy]

/-- The location pairs: an array that has two entries once axes of length one are dropped is stored in that form; another shape
raises `ValueError` for `location` and `ref`, `TypeError` for `pixel_size`; what is no array of numbers raises `TypeError`. -/
theorem pair_attributes (s : Slots D) (a : IAttr) (e : PyErr)
    (ha : (a = .location ∧ e = .valueError) ∨ (a = .ref ∧ e = .valueError) ∨ (a = .pixel_size ∧ e = .typeError))
    (v : Arg D) :
    (∀ o b, v = .obj o → o.asFloatArray = .ok b → b.squeeze.shape = [2] → Stores s a v (.array b.squeeze)) ∧
    (∀ o b, v = .obj o → o.asFloatArray = .ok b → b.squeeze.shape ≠ [2] → Refuses s a v e) ∧
    ((∀ o b, v = .obj o → o.asFloatArray ≠ .ok b) → Refuses s a v .typeError) := by
  have hc : a.convert v = toPair e v := by
    rcases ha with ⟨rfl, rfl⟩ | ⟨rfl, rfl⟩ | ⟨rfl, rfl⟩ <;> rfl
  have h1 : a ≠ .local_rigidity := by rintro rfl; simp at ha
  have h2 : a ≠ .event_date := by rintro rfl; simp at ha
  obtain ⟨p1, p2, p3⟩ := toPair_spec e v
  exact ⟨fun o b ho hb h => stores_of h1 h2 (hc.trans (p1 o b ho hb h)),
    fun o b ho hb h => refuses_of (hc.trans (p2 o b ho hb h)), fun h => refuses_of (hc.trans (p3 h))⟩

/-- The plain case: a list of two numbers is stored as those two numbers, a list of another length refused. -/
theorem pair_of_list (s : Slots D) (a : IAttr) (e : PyErr)
    (ha : (a = .location ∧ e = .valueError) ∨ (a = .ref ∧ e = .valueError) ∨ (a = .pixel_size ∧ e = .typeError))
    (l : List PyFloat) :
    (∀ x y, l = [x, y] → ∃ b, Stores s a (.obj (.seq (NArr.ofList l .nan))) (.array b) ∧ b.Same (NArr.ofList [x, y] .nan)) ∧
    (l.length ≠ 2 → Refuses s a (.obj (.seq (NArr.ofList l .nan))) e) := by
  obtain ⟨p1, p2, _⟩ := pair_attributes s a e ha (.obj (.seq (NArr.ofList l .nan)))
  constructor
  · rintro x y rfl
    refine ⟨_, p1 _ _ rfl rfl (by simp [NArr.squeeze, NArr.ofList]), by simp [NArr.squeeze, NArr.ofList], ?_⟩
    intro i hi
    rcases i with _ | ⟨k, i⟩
    · simp [NArr.squeeze, NArr.ofList, InShape] at hi
    · simp [NArr.squeeze, NArr.ofList, NArr.unsqueezeIndex]
  · intro hl
    refine p2 _ _ rfl rfl ?_
    simp only [NArr.squeeze, NArr.ofList]
    by_cases h1 : l.length = 1
    · simp [h1]
    · simp [h1, hl]

/-! ## Dates -/

/-- Dates: a datetime is stored, a string is read as `%Y/%m/%d` (with `-` for `/`) if it has ten characters and as a time stamp
otherwise; everything else, and every string that does not parse, raises `TypeError`. -/
theorem date_attributes (s : Slots D) (a : IAttr) (ha : a ∈ [IAttr.date1, .date2, .processed_date]) :
    (∀ d, Stores s a (.date d) (.date d)) ∧
    (∀ t d, t.length = 10 → Conversions.parseDay (t.replace "-" "/") = some d → Stores s a (.obj (.str t)) (.date d)) ∧
    (∀ t d, t.length ≠ 10 → Conversions.parseStamp t = some d → Stores s a (.obj (.str t)) (.date d)) ∧
    (∀ t, t.length = 10 → Conversions.parseDay (D := D) (t.replace "-" "/") = none →
      Refuses s a (.obj (.str t)) .typeError) ∧
    (∀ t, t.length ≠ 10 → Conversions.parseStamp (D := D) t = none → Refuses s a (.obj (.str t)) .typeError) ∧
    (∀ o, (∀ t, o ≠ .str t) → Refuses s a (.obj o) .typeError) := by
  have hc : ∀ v : Arg D, a.convert v = toDateVal v := by
    simp only [List.mem_cons, List.not_mem_nil, or_false] at ha
    rcases ha with rfl | rfl | rfl <;> exact fun _ => rfl
  have h1 : a ≠ .local_rigidity := by rintro rfl; simp at ha
  have h2 : a ≠ .event_date := by rintro rfl; simp at ha
  refine ⟨?_, ?_, ?_, ?_, ?_, ?_⟩
  · exact fun d => stores_of h1 h2 (hc _)
  · intro t d hl ht
    exact stores_of h1 h2 (by simp [hc, toDateVal, dateOfString, hl, ht])
  · intro t d hl ht
    exact stores_of h1 h2 (by simp [hc, toDateVal, dateOfString, hl, ht])
  · intro t hl ht
    exact refuses_of (by simp [hc, toDateVal, dateOfString, hl, ht])
  · intro t hl ht
    exact refuses_of (by simp [hc, toDateVal, dateOfString, hl, ht])
  · intro o ho
    refine refuses_of ?_
    cases o with
    | str t => exact absurd rfl (ho t)
    | _ => simp [hc, toDateVal]

/-! ## The constructors -/

/-- The arguments an interferogram cannot be made without. -/
def requiredArguments : List IAttr :=
  [.data, .title, .location, .location_UTM_zone, .shape, .pixel_size, .ref, .ref_incidence, .satellite_azimuth,
    .satellite_altitude, .processed_by]

/-- A missing required argument makes the constructor raise `TypeError`, whatever else is given. -/
theorem newInterferogram_missing (given : IAttr → Option (Arg D)) (a : IAttr) (ha : a ∈ requiredArguments)
    (h : given a = none) : newInterferogram given = .error .typeError := by
  have : a.required = true := by
    simp only [requiredArguments, List.mem_cons, List.not_mem_nil, or_false] at ha
    rcases ha with rfl | rfl | rfl | rfl | rfl | rfl | rfl | rfl | rfl | rfl | rfl <;> rfl
  unfold newInterferogram
  rw [if_pos ⟨a, this, h⟩]

private theorem assignAll_total {l : List (IAttr × Arg D)} (h : ∀ p ∈ l, ∃ w, p.1.convert p.2 = .ok w) (s : Slots D) :
    ∃ t, assignAll l s = (t, none) := by
  induction l generalizing s with
  | nil => exact ⟨s, rfl⟩
  | cons p l ih =>
    obtain ⟨w, hw⟩ := h p (by simp)
    obtain ⟨t, ht⟩ := ih (fun q hq => h q (by simp [hq])) (s.write p.1.setSlot w)
    refine ⟨t, ?_⟩
    have : IAttr.set s p = (s.write p.1.setSlot w, none) := by simp only [IAttr.set, hw]
    rw [assignAll, this]
    exact ht

omit [FloatGrammar] [Conversions D] in
private theorem default_converts [FloatGrammar] [Conversions D] (a : IAttr) (v : Arg D) (h : a.default = some v) :
    ∃ w, a.convert v = .ok w := by
  cases a <;> simp only [IAttr.default, Option.some.injEq, reduceCtorEq] at h <;> subst h <;> exact ⟨_, rfl⟩

/-- With all required arguments present, construction succeeds exactly when every given argument is one its setter accepts. -/
theorem newInterferogram_succeeds_iff (given : IAttr → Option (Arg D)) (hreq : ∀ a ∈ requiredArguments, given a ≠ none) :
    (∃ s, newInterferogram given = .ok s) ↔
      ∀ a v, given a = some v → (IAttr.set (fun _ => none) (a, v)).2 = none := by
  have hno : ¬ ∃ a : IAttr, a.required = true ∧ given a = none := by
    rintro ⟨a, ha, hg⟩
    refine hreq a ?_ hg
    cases a <;> simp [IAttr.required, requiredArguments] at ha ⊢
  have hset : ∀ (a : IAttr) (v : Arg D), (IAttr.set (fun _ => none) (a, v)).2 = none ↔ ∃ w, a.convert v = .ok w := by
    intro a v
    cases h : a.convert v <;> simp [IAttr.set, h]
  unfold newInterferogram
  rw [if_neg hno]
  have hmem : ∀ a : IAttr, a ∈ IAttr.initOrder := by intro a; cases a <;> decide
  constructor
  · rintro ⟨s, hs⟩ a v hv
    rw [hset]
    cases hall : assignAll (initAssignments given) (fun _ => none) with
    | mk t e =>
      cases e with
      | some e => simp [hall] at hs
      | none =>
        exact (assignAll_ok hall).2 (a, v) (List.mem_filterMap.2 ⟨a, hmem a, by simp [hv]⟩)
  · intro h
    obtain ⟨t, ht⟩ := assignAll_total (l := initAssignments given) (s := fun _ => none) (by
      rintro ⟨a, v⟩ hp
      obtain ⟨b, _, hb⟩ := List.mem_filterMap.1 hp
      cases hg : given b with
      | some u =>
        simp only [hg, Option.some_or, Option.map_some, Option.some.injEq, Prod.mk.injEq] at hb
        obtain ⟨rfl, rfl⟩ := hb
        exact (hset _ _).1 (h _ _ hg)
      | none =>
        cases hd : b.default (D := D) with
        | none => simp [hg, hd] at hb
        | some u =>
          simp only [hg, hd, Option.none_or, Option.map_some, Option.some.injEq, Prod.mk.injEq] at hb
          obtain ⟨rfl, rfl⟩ := hb
          exact default_converts _ _ hd)
    exact ⟨t, by rw [ht]⟩

/-- The same for `Oksar`: `O`, `U`, `V`, `center` and `depth_top` must be given. -/
theorem newOksar_missing (given : OAttr → Option (Arg D)) (a : OAttr)
    (ha : a ∈ [OAttr.O, .U, .V, .center, .depth_top]) (h : given a = none) :
    newOksar given = .error .typeError := by
  simp only [List.mem_cons, List.not_mem_nil, or_false] at ha
  unfold newOksar
  rw [if_pos]
  rcases ha with rfl | rfl | rfl | rfl | rfl <;> simp [h]

/-! ## `Oksar` -/

/-- `O`, `U` and `center`: as `location`. -/
theorem oksar_pairs (s : Slots D) (a : OAttr) (ha : a ∈ [OAttr.O, .U, .center]) (v : Arg D) :
    (∀ o b, v = .obj o → o.asFloatArray = .ok b → b.squeeze.shape = [2] → StoresO s a v (.array b.squeeze)) ∧
    (∀ o b, v = .obj o → o.asFloatArray = .ok b → b.squeeze.shape ≠ [2] → RefusesO s a v .valueError) ∧
    ((∀ o b, v = .obj o → o.asFloatArray ≠ .ok b) → RefusesO s a v .typeError) := by
  have hc : a.convert s v = toPair .valueError v := by
    simp only [List.mem_cons, List.not_mem_nil, or_false] at ha
    rcases ha with rfl | rfl | rfl <;> rfl
  have h1 : a ≠ .V := by rintro rfl; simp at ha
  obtain ⟨p1, p2, p3⟩ := toPair_spec .valueError v
  exact ⟨fun o b ho hb h => storesO_of h1 (hc.trans (p1 o b ho hb h)),
    fun o b ho hb h => refusesO_of (hc.trans (p2 o b ho hb h)), fun h => refusesO_of (hc.trans (p3 h))⟩

/-- `V` accepts and refuses the same arguments; that it cannot be read back is C63. -/
theorem oksar_V (s : Slots D) (v : Arg D) :
    (∀ o b, v = .obj o → o.asFloatArray = .ok b → b.squeeze.shape = [2] → (OAttr.set s (.V, v)).2 = none) ∧
    (∀ o b, v = .obj o → o.asFloatArray = .ok b → b.squeeze.shape ≠ [2] → RefusesO s .V v .valueError) ∧
    ((∀ o b, v = .obj o → o.asFloatArray ≠ .ok b) → RefusesO s .V v .typeError) := by
  obtain ⟨p1, p2, p3⟩ := toPair_spec .valueError v
  refine ⟨fun o b ho hb h => ?_, fun o b ho hb h => refusesO_of (p2 o b ho hb h), fun h => refusesO_of (p3 h)⟩
  have : OAttr.convert s .V v = .ok (.array b.squeeze) := p1 o b ho hb h
  simp [OAttr.set, this]

/-- The values refused by each of the bounded number attributes. -/
def OutOfRange : OAttr → ℝ → Prop
  | .strike, x => x < 0 ∨ 360 < x
  | .dip, x => x < 0 ∨ 90 < x
  | .rake, x => x < -180 ∨ 180 < x
  | _, x => x < 0

/-- The bounded number attributes: `float(value)` inside the range is stored, outside it raises `ValueError`; what is no number
raises `TypeError`. -/
theorem oksar_numbers (s : Slots D) (a : OAttr) (ha : a ∈ [OAttr.depth_top, .strike, .dip, .rake, .slip, .length])
    (v : Arg D) :
    (∀ o x, v = .obj o → o.toFloat = .ok (.fin x) → ¬ OutOfRange a x → StoresO s a v (.float (.fin x))) ∧
    (∀ o x, v = .obj o → o.toFloat = .ok (.fin x) → OutOfRange a x → RefusesO s a v .valueError) ∧
    ((∀ o y, v = .obj o → o.toFloat ≠ .ok y) → RefusesO s a v .typeError) := by
  have h1 : a ≠ .V := by rintro rfl; simp at ha
  refine ⟨?_, ?_, ?_⟩
  · rintro o x rfl hx hr
    refine storesO_of h1 ?_
    simp only [List.mem_cons, List.not_mem_nil, or_false] at ha
    rcases ha with rfl | rfl | rfl | rfl | rfl | rfl <;>
      simp only [OutOfRange] at hr <;>
      simp [OAttr.convert, floatUnless, toFloatVal, hx] <;> push Not at hr <;> exact hr
  · rintro o x rfl hx hr
    refine refusesO_of ?_
    simp only [List.mem_cons, List.not_mem_nil, or_false] at ha
    rcases ha with rfl | rfl | rfl | rfl | rfl | rfl <;>
      simp only [OutOfRange] at hr <;>
      simp [OAttr.convert, floatUnless, toFloatVal, hx, hr]
  · intro h
    refine refusesO_of ?_
    have hv : toFloatVal v = .error .typeError := by
      cases v with
      | date d => rfl
      | obj o =>
        cases hy : o.toFloat with
        | ok y => exact absurd hy (h o y rfl)
        | error e => simp [toFloatVal, hy]
    simp only [List.mem_cons, List.not_mem_nil, or_false] at ha
    rcases ha with rfl | rfl | rfl | rfl | rfl | rfl <;> simp [OAttr.convert, floatUnless, hv]

/-- `depth_bottom`: at least the current `depth_top`; below it `ValueError`; before `depth_top` is set `AttributeError`. -/
theorem oksar_depth_bottom (s : Slots D) (o : Obj) (x t : ℝ) (hx : o.toFloat = .ok (.fin x)) :
    (OAttr.get .depth_top s = .ok (.float (.fin t)) → t ≤ x → StoresO s .depth_bottom (.obj o) (.float (.fin x))) ∧
    (OAttr.get .depth_top s = .ok (.float (.fin t)) → x < t → RefusesO s .depth_bottom (.obj o) .valueError) ∧
    (OAttr.get .depth_top s = .error .attributeError → RefusesO s .depth_bottom (.obj o) .attributeError) := by
  refine ⟨?_, ?_, ?_⟩
  · intro ht h
    exact storesO_of (by simp) (by simp [OAttr.convert, toFloatVal, hx, ht, not_lt.2 h])
  · intro ht h
    exact refusesO_of (by simp [OAttr.convert, toFloatVal, hx, ht, h])
  · intro ht
    exact refusesO_of (by simp [OAttr.convert, toFloatVal, hx, ht])

/-- `beta` and `mu`: any number; otherwise `TypeError`. -/
theorem oksar_free_numbers (s : Slots D) (a : OAttr) (ha : a ∈ [OAttr.beta, .mu]) (v : Arg D) :
    (∀ o y, v = .obj o → o.toFloat = .ok y → StoresO s a v (.float y)) ∧
    ((∀ o y, v = .obj o → o.toFloat ≠ .ok y) → RefusesO s a v .typeError) := by
  have h1 : a ≠ .V := by rintro rfl; simp at ha
  have hc : a.convert s v = toFloatAttr v := by
    simp only [List.mem_cons, List.not_mem_nil, or_false] at ha
    rcases ha with rfl | rfl <;> rfl
  constructor
  · rintro o y rfl hy
    exact storesO_of h1 (by simp [hc, toFloatAttr, toFloatVal, hy])
  · intro h
    refine refusesO_of ?_
    cases v with
    | date d => simp [hc, toFloatAttr, toFloatVal]
    | obj o =>
      cases hy : o.toFloat with
      | ok y => exact absurd hy (h o y rfl)
      | error e => simp [hc, toFloatAttr, toFloatVal, hy]

/-- The grid shape of `Oksar`: a list of two finite numbers is stored truncated; one of another length, or with a non-finite
entry, raises `TypeError`, as does anything that is neither a list nor an array. -/
theorem oksar_shape (s : Slots D) :
    (∀ x y m n, TruncatesTo x m → TruncatesTo y n → ∃ b,
      StoresO s .shape (.obj (.seq (NArr.ofList [.fin x, .fin y] .nan))) (.intArray b) ∧ b.Same (NArr.ofList [m, n] 0)) ∧
    (∀ l : List PyFloat, l.length ≠ 2 → RefusesO s .shape (.obj (.seq (NArr.ofList l .nan))) .typeError ∧
      RefusesO s .shape (.obj (.ndarray (NArr.ofList l .nan))) .typeError) ∧
    (∀ l : List PyFloat, (∃ x ∈ l, ∀ r, x ≠ .fin r) → RefusesO s .shape (.obj (.seq (NArr.ofList l .nan))) .typeError) ∧
    (∀ x, RefusesO s .shape (.obj (.num x)) .typeError) ∧ (∀ t, RefusesO s .shape (.obj (.str t)) .typeError) ∧
    RefusesO s .shape (.obj .none) .typeError ∧ RefusesO s .shape (.obj .other) .typeError ∧
    ∀ d, RefusesO s .shape (.date d) .typeError := by
  refine ⟨?_, ?_, ?_, ?_, ?_, ?_, ?_, ?_⟩
  · intro x y m n hm hn
    have hx := truncInt_eq.2 ⟨x, rfl, hm⟩
    have hy := truncInt_eq.2 ⟨y, rfl, hn⟩
    have hfin : ∀ i, InShape (NArr.ofList [.fin x, .fin y] PyFloat.nan).shape i →
        (truncInt ((NArr.ofList [.fin x, .fin y] PyFloat.nan).get i)).isSome = true := by
      intro i hi
      rcases i with _ | ⟨k, i⟩
      · simp [NArr.ofList, InShape] at hi
      · simp only [NArr.ofList, List.length_cons, List.length_nil, InShape, List.forall₂_cons] at hi
        obtain ⟨hk, _⟩ := hi
        interval_cases k <;> simp [NArr.ofList, hx, hy]
    refine ⟨⟨[2], fun i => castInt D ((NArr.ofList [.fin x, .fin y] PyFloat.nan).get i)⟩, storesO_of (by simp) ?_, rfl, ?_⟩
    · simp only [OAttr.convert, toShapeArray]
      rw [if_pos ⟨hfin, by simp [NArr.ofList]⟩]
      rfl
    · intro i hi
      rcases i with _ | ⟨k, i⟩
      · simp [InShape] at hi
      · simp only [InShape, List.forall₂_cons] at hi
        obtain ⟨hk, _⟩ := hi
        interval_cases k <;> simp [NArr.ofList, castInt, hx, hy]
  · intro l hl
    have hl' : ¬ ([l.length] : List ℕ).head? = some 2 := by simpa using hl
    constructor
    · refine refusesO_of ?_
      simp only [OAttr.convert, toShapeArray]
      rw [if_neg (fun h => hl' h.2)]
    · refine refusesO_of ?_
      simp only [OAttr.convert, toShapeArray]
      exact if_neg hl'
  · rintro l ⟨x, hx, hr⟩
    refine refusesO_of ?_
    simp only [OAttr.convert, toShapeArray]
    rw [if_neg]
    rintro ⟨h, _⟩
    obtain ⟨k, hk, rfl⟩ := List.getElem_of_mem hx
    have := h [k] (List.Forall₂.cons (by simpa [NArr.ofList] using hk) .nil)
    have h2 : truncInt ((NArr.ofList l PyFloat.nan).get [k]) = none := by
      rw [truncInt_none]
      intro r
      have : (NArr.ofList l PyFloat.nan).get [k] = l[k] := by simp [NArr.ofList, List.getD_eq_getElem?_getD, hk]
      rw [this]
      exact hr r
    rw [h2] at this
    simp at this
  · exact fun x => refusesO_of rfl
  · exact fun x => refusesO_of rfl
  · exact refusesO_of rfl
  · exact refusesO_of rfl
  · exact fun d => refusesO_of rfl

/-! ## Concrete cases -/

/-- Truncation is toward zero on both sides. -/
example : TruncatesTo 2.75 2 ∧ TruncatesTo (-2.75) (-2) := by
  constructor <;> constructor <;> intro h <;> norm_num at h <;> norm_num

/-- A shape given as `[2.75, 7]` is stored as `(2, 7)`. -/
example (s : Slots D) : Stores s .shape (.obj (.seq (NArr.ofList [.fin 2.75, .fin 7] .nan))) (.ints [2, 7]) :=
  (shape_of_list s _ _ (.inl rfl)).1 _ _ _ _ rfl
    (by constructor <;> intro h <;> norm_num at h <;> norm_num) (by constructor <;> intro h <;> norm_num at h <;> norm_num)

/-- `[1, 2, 3]` is refused with `ValueError` and the object is unchanged. -/
example (s : Slots D) : Refuses s .location (.obj (.seq (NArr.ofList [.fin 1, .fin 2, .fin 3] .nan))) .valueError :=
  (pair_of_list s .location .valueError (.inl ⟨rfl, rfl⟩) _).2 (by simp)

end Verif.Earthquake
