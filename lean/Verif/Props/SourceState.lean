import Verif.Model.SourceState
import Verif.Props.ShapeSetters
import Verif.Props.VectorSetters

/-! # C88: attributes of spheres in a uniform field, wires, point masses and magnetised prisms over every history -/

namespace Verif.SourceState

open Classical Verif.Setters Verif.HalfspaceState PyFloat

variable [FloatGrammar]

/-! ## Spheres -/

/-- What the documentation promises: a radius that is not negative, positive properties, and two vectors of three numbers. -/
def Sphere.Valid (s : Sphere) : Prop :=
  .fin 0 ≤ s.radius ∧ .fin 0 < s.inner ∧ .fin 0 < s.outer ∧ s.primaryField.shape = [3] ∧ s.location.shape = [3]

/-- The object assigned by an operation. -/
def Sphere.Op.arg : Sphere.Op → Obj
  | .radius v | .inner v | .outer v | .primaryField v | .location v => v

/-- A number that is no NaN, or an array with at most one axis. -/
def Sphere.Op.Plain : Sphere.Op → Prop
  | .radius v | .inner v | .outer v => NotNaN v
  | .primaryField v | .location v => ∀ a, v.asFloatArray = .ok a → a.ndim ≤ 1

omit [FloatGrammar] in
theorem andThen_ok {σ : Type} {r : SetResult σ} {f : σ → SetResult σ} {t : σ} (h : r.andThen f = (t, none)) :
    ∃ u, r = (u, none) ∧ f u = (t, none) := by
  rcases r with ⟨a, _ | e⟩
  · exact ⟨a, rfl, h⟩
  · simp [SetResult.andThen] at h

theorem vec3_error {v : Obj} {e : PyErr} (h : vec3 v = .error e) : e = .typeError ∨ e = .valueError := by
  unfold vec3 at h
  cases ha : v.asFloatArray with
  | error e' => rw [ha] at h; simp only [Except.error.injEq] at h; exact .inl h.symm
  | ok a =>
    rw [ha] at h
    by_cases hs : a.squeeze.shape = [3]
    · simp [hs] at h
    · simp only [ne_eq, hs, not_false_eq_true, if_true, Except.error.injEq] at h
      exact .inr h.symm

theorem threeLong_spec (v : Obj) (a : NArr PyFloat) :
    threeLong v = .ok a ↔ v.atleast1dFloat = .ok a ∧ ∃ t, a.shape = 3 :: t := by
  unfold threeLong
  cases h : v.atleast1dFloat with
  | error e => simp
  | ok b =>
    have key : len b = 3 ↔ ∃ t, b.shape = 3 :: t := by
      unfold len
      cases b.shape <;> simp
    simp only
    by_cases hb : len b = 3
    · rw [if_neg (not_not.2 hb)]
      constructor
      · intro e; cases e; exact ⟨rfl, key.1 hb⟩
      · rintro ⟨e, _⟩; exact e
    · rw [if_pos hb]
      constructor
      · intro e; cases e
      · rintro ⟨e, ht⟩; cases e; exact absurd (key.2 ht) hb

/-- **C88.** Which assignments to a sphere are accepted, and what they store: nothing else changes. -/
theorem sphere_accepts (s t : Sphere) (v : Obj) :
    (s.step (.radius v) = (t, none) ↔ ∃ x, v.toFloat = .ok x ∧ ¬ x < .fin 0 ∧ t = { s with radius := x }) ∧
    (s.step (.inner v) = (t, none) ↔ ∃ x, v.toFloat = .ok x ∧ ¬ x ≤ .fin 0 ∧ t = { s with inner := x }) ∧
    (s.step (.outer v) = (t, none) ↔ ∃ x, v.toFloat = .ok x ∧ ¬ x ≤ .fin 0 ∧ t = { s with outer := x }) ∧
    (s.step (.primaryField v) = (t, none) ↔
      ∃ a, v.atleast1dFloat = .ok a ∧ (∃ l, a.shape = 3 :: l) ∧ t = { s with primaryField := a }) ∧
    (s.step (.location v) = (t, none) ↔
      ∃ a, v.atleast1dFloat = .ok a ∧ (∃ l, a.shape = 3 :: l) ∧ t = { s with location := a }) := by
  have num : ∀ (f : PyFloat → Sphere) (P : PyFloat → Prop),
      (match v.toFloat with
        | .error e => ((s, some e) : SetResult Sphere)
        | .ok x => if P x then (s, some .valueError) else (f x, none)) = (t, none) ↔
      ∃ x, v.toFloat = .ok x ∧ ¬ P x ∧ t = f x := by
    intro f P
    cases v.toFloat with
    | error e => simp
    | ok x =>
      by_cases hp : P x <;> simp [hp, eq_comm]
  have vec : ∀ f : NArr PyFloat → Sphere,
      (match threeLong v with
        | .error e => ((s, some e) : SetResult Sphere)
        | .ok a => (f a, none)) = (t, none) ↔
      ∃ a, v.atleast1dFloat = .ok a ∧ (∃ l, a.shape = 3 :: l) ∧ t = f a := by
    intro f
    cases h : threeLong v with
    | error e =>
      simp only [Prod.mk.injEq, reduceCtorEq, and_false, false_iff]
      rintro ⟨a, h1, h2, _⟩
      rw [(threeLong_spec v a).2 ⟨h1, h2⟩] at h
      cases h
    | ok b =>
      have hb := (threeLong_spec v b).1 h
      simp only [Prod.mk.injEq, and_true]
      constructor
      · intro e; exact ⟨b, hb.1, hb.2, e.symm⟩
      · rintro ⟨a, h1, _, h3⟩
        rw [hb.1] at h1
        cases h1
        exact h3.symm
  exact ⟨num _ _, num _ _, num _ _, vec _, vec _⟩

/-- **C88.** A refused assignment leaves the sphere as it was. -/
theorem sphere_refused_unchanged (s : Sphere) (o : Sphere.Op) (e : PyErr) (h : (s.step o).2 = some e) : (s.step o).1 = s := by
  cases o with
  | radius v => simp only [Sphere.step, Sphere.setRadius] at h ⊢; (repeat' split at h) <;> simp_all
  | inner v => simp only [Sphere.step, Sphere.setInner] at h ⊢; (repeat' split at h) <;> simp_all
  | outer v => simp only [Sphere.step, Sphere.setOuter] at h ⊢; (repeat' split at h) <;> simp_all
  | primaryField v => simp only [Sphere.step, Sphere.setPrimaryField] at h ⊢; (repeat' split at h) <;> simp_all
  | location v => simp only [Sphere.step, Sphere.setLocation] at h ⊢; (repeat' split at h) <;> simp_all

/-- **C88.** Numbers out of range are a `ValueError`, and what `float` refuses is passed on; vectors that do not convert are a
`TypeError`, vectors of another length a `ValueError`. -/
theorem sphere_refusals (s : Sphere) (v : Obj) :
    (∀ e, v.toFloat = .error e → (s.step (.radius v)).2 = some e ∧ (s.step (.inner v)).2 = some e ∧ (s.step (.outer v)).2 = some e) ∧
    (∀ x, v.toFloat = .ok x → x < .fin 0 → (s.step (.radius v)).2 = some .valueError) ∧
    (∀ x, v.toFloat = .ok x → x ≤ .fin 0 →
      (s.step (.inner v)).2 = some .valueError ∧ (s.step (.outer v)).2 = some .valueError) ∧
    (∀ e, v.atleast1dFloat = .error e →
      (s.step (.primaryField v)).2 = some .typeError ∧ (s.step (.location v)).2 = some .typeError) ∧
    (∀ a, v.atleast1dFloat = .ok a → (¬ ∃ l, a.shape = 3 :: l) →
      (s.step (.primaryField v)).2 = some .valueError ∧ (s.step (.location v)).2 = some .valueError) := by
  refine ⟨fun e h => ?_, fun x h hx => ?_, fun x h hx => ?_, fun e h => ?_, fun a h ha => ?_⟩
  · simp [Sphere.step, Sphere.setRadius, Sphere.setInner, Sphere.setOuter, h]
  · simp [Sphere.step, Sphere.setRadius, h, hx]
  · simp [Sphere.step, Sphere.setInner, Sphere.setOuter, h, hx]
  · simp [Sphere.step, Sphere.setPrimaryField, Sphere.setLocation, threeLong, h]
  · have hl : len a ≠ 3 := fun h3 => ha (by
      unfold len at h3
      cases hs : a.shape with
      | nil => simp [hs] at h3
      | cons n l => simp [hs] at h3; exact ⟨l, by rw [h3]⟩)
    simp [Sphere.step, Sphere.setPrimaryField, Sphere.setLocation, threeLong, h, hl]

/-- **C88.** What `float` refuses: a text that is no number is a `ValueError`; an array with more or less than one entry, a list, `None` and
any other object are a `TypeError`. -/
theorem sphere_non_numbers (s : Sphere) (v : Obj) :
    (∀ t, v = .str t → FloatGrammar.parse t = none →
      (s.step (.radius v)).2 = some .valueError ∧ (s.step (.inner v)).2 = some .valueError ∧ (s.step (.outer v)).2 = some .valueError) ∧
    ((∃ a, v = .ndarray a ∧ a.size ≠ 1) ∨ (∃ a, v = .seq a) ∨ v = .none ∨ v = .other →
      (s.step (.radius v)).2 = some .typeError ∧ (s.step (.inner v)).2 = some .typeError ∧ (s.step (.outer v)).2 = some .typeError) := by
  constructor
  · rintro t rfl h
    exact (sphere_refusals s _).1 _ (by simp [Obj.toFloat, h])
  · rintro (⟨a, rfl, h⟩ | ⟨a, rfl⟩ | rfl | rfl)
    · exact (sphere_refusals s _).1 _ (by simp [Obj.toFloat, h])
    · exact (sphere_refusals s _).1 _ rfl
    · exact (sphere_refusals s _).1 _ rfl
    · exact (sphere_refusals s _).1 _ rfl

/-- Nothing is out of range, and both vectors have three entries along their first axis. -/
def Sphere.Guarded (s : Sphere) : Prop :=
  ¬ s.radius < .fin 0 ∧ ¬ s.inner ≤ .fin 0 ∧ ¬ s.outer ≤ .fin 0 ∧ (∃ l, s.primaryField.shape = 3 :: l) ∧ ∃ l, s.location.shape = 3 :: l

theorem sphere_step_guarded (s : Sphere) (o : Sphere.Op) (h : s.Guarded) : (s.step o).1.Guarded := by
  rcases hr : s.step o with ⟨t, e⟩
  cases e with
  | some e =>
    have := sphere_refused_unchanged s o e (by rw [hr])
    rw [hr] at this
    simp only at this ⊢
    rw [this]; exact h
  | none =>
    obtain ⟨h1, h2, h3, h4, h5⟩ := h
    cases o with
    | radius v => obtain ⟨x, _, hx, rfl⟩ := (sphere_accepts s t v).1.1 hr; exact ⟨hx, h2, h3, h4, h5⟩
    | inner v => obtain ⟨x, _, hx, rfl⟩ := (sphere_accepts s t v).2.1.1 hr; exact ⟨h1, hx, h3, h4, h5⟩
    | outer v => obtain ⟨x, _, hx, rfl⟩ := (sphere_accepts s t v).2.2.1.1 hr; exact ⟨h1, h2, hx, h4, h5⟩
    | primaryField v => obtain ⟨a, _, ha, rfl⟩ := (sphere_accepts s t v).2.2.2.1.1 hr; exact ⟨h1, h2, h3, ha, h5⟩
    | location v => obtain ⟨a, _, ha, rfl⟩ := (sphere_accepts s t v).2.2.2.2.1 hr; exact ⟨h1, h2, h3, h4, ha⟩

/-- The constructor is five assignments. -/
theorem sphere_new_eq {radius inner outer f l : Obj} {s : Sphere} (h : Sphere.new radius inner outer f l = .ok s) :
    runOps Sphere.step Sphere.blank [.radius radius, .inner inner, .outer outer, .primaryField (orRow f (row 1 0 0)),
      .location (orRow l (row 0 0 0))] = s := by
  unfold Sphere.new at h
  split at h
  · rename_i t ht
    cases h
    simp only [runOps, List.foldl, Sphere.step]
    obtain ⟨s4, ht, e5⟩ := andThen_ok ht
    obtain ⟨s3, ht, e4⟩ := andThen_ok ht
    obtain ⟨s2, ht, e3⟩ := andThen_ok ht
    obtain ⟨s1, e1, e2⟩ := andThen_ok ht
    rw [e1, e2, e3, e4, e5]
  · cases h

/-- **C88.** After every construction and every history, whatever was refused on the way: no radius below zero, no property at or below
zero, and vectors whose first axis has length three.  Missing from the full statement: NaN passes the bounds, and the vectors may have
further axes (`sphere_not_always_valid`). -/
theorem sphere_history_partial {radius inner outer f l : Obj} {s : Sphere} (h : Sphere.new radius inner outer f l = .ok s)
    (ops : List Sphere.Op) : (runOps Sphere.step s ops).Guarded := by
  refine runOps_invariant (I := Sphere.Guarded) sphere_step_guarded s ?_ ops
  rw [← sphere_new_eq h]
  refine runOps_invariant (I := Sphere.Guarded) sphere_step_guarded _ ?_ _
  refine ⟨?_, ?_, ?_, ⟨[], rfl⟩, ⟨[], rfl⟩⟩ <;> simp [Sphere.blank, lt_iff, le_iff, PyFloat.lt, PyFloat.le]

/-- The stored vectors are the numbers of an object with at most one axis. -/
theorem shape_of_plain {v : Obj} {a : NArr PyFloat} (hv : ∀ a, v.asFloatArray = .ok a → a.ndim ≤ 1) (h : v.atleast1dFloat = .ok a)
    (h3 : ∃ l, a.shape = 3 :: l) : a.shape = [3] := by
  unfold Obj.atleast1dFloat at h
  cases hb : v.asFloatArray with
  | error e => rw [hb] at h; cases h
  | ok b =>
    rw [hb] at h
    have hn := hv b hb
    obtain ⟨l, hl⟩ := h3
    simp only [Except.ok.injEq] at h
    by_cases he : b.shape = []
    · rw [if_pos he] at h
      subst h
      simp at hl
    · rw [if_neg he] at h
      subst h
      rw [NArr.ndim, hl] at hn
      rw [hl]
      simp at hn
      rw [hn]

/-- **C88.** If every number handed over is no NaN and every vector has a single axis, the sphere is always valid. -/
theorem sphere_history_plain {radius inner outer f l : Obj} {s : Sphere} (h : Sphere.new radius inner outer f l = .ok s)
    (hr : NotNaN radius) (hi : NotNaN inner) (ho : NotNaN outer) (hf : (Sphere.Op.primaryField f).Plain) (hl : (Sphere.Op.location l).Plain)
    (ops : List Sphere.Op) (hops : ∀ o ∈ ops, o.Plain) : (runOps Sphere.step s ops).Valid := by
  have hg := sphere_history_partial h ops
  have step : ∀ (s : Sphere) (o : Sphere.Op), o.Plain →
      (s.radius ≠ .nan ∧ s.inner ≠ .nan ∧ s.outer ≠ .nan ∧ s.primaryField.shape = [3] ∧ s.location.shape = [3]) →
      ((s.step o).1.radius ≠ .nan ∧ (s.step o).1.inner ≠ .nan ∧ (s.step o).1.outer ≠ .nan ∧ (s.step o).1.primaryField.shape = [3] ∧
        (s.step o).1.location.shape = [3]) := by
    intro s o ho hs
    rcases hr : s.step o with ⟨t, e⟩
    cases e with
    | some e =>
      have := sphere_refused_unchanged s o e (by rw [hr])
      rw [hr] at this
      simp only at this ⊢
      rw [this]; exact hs
    | none =>
      obtain ⟨h1, h2, h3, h4, h5⟩ := hs
      cases o with
      | radius v => obtain ⟨x, hv, hx, rfl⟩ := (sphere_accepts s t v).1.1 hr; exact ⟨ho x hv, h2, h3, h4, h5⟩
      | inner v => obtain ⟨x, hv, hx, rfl⟩ := (sphere_accepts s t v).2.1.1 hr; exact ⟨h1, ho x hv, h3, h4, h5⟩
      | outer v => obtain ⟨x, hv, hx, rfl⟩ := (sphere_accepts s t v).2.2.1.1 hr; exact ⟨h1, h2, ho x hv, h4, h5⟩
      | primaryField v =>
        obtain ⟨a, hv, ha, rfl⟩ := (sphere_accepts s t v).2.2.2.1.1 hr; exact ⟨h1, h2, h3, shape_of_plain ho hv ha, h5⟩
      | location v =>
        obtain ⟨a, hv, ha, rfl⟩ := (sphere_accepts s t v).2.2.2.2.1 hr; exact ⟨h1, h2, h3, h4, shape_of_plain ho hv ha⟩
  have run : ∀ (ops : List Sphere.Op) (s : Sphere), (∀ o ∈ ops, o.Plain) →
      (s.radius ≠ .nan ∧ s.inner ≠ .nan ∧ s.outer ≠ .nan ∧ s.primaryField.shape = [3] ∧ s.location.shape = [3]) →
      ((runOps Sphere.step s ops).radius ≠ .nan ∧ (runOps Sphere.step s ops).inner ≠ .nan ∧ (runOps Sphere.step s ops).outer ≠ .nan ∧
        (runOps Sphere.step s ops).primaryField.shape = [3] ∧ (runOps Sphere.step s ops).location.shape = [3]) := by
    intro ops
    induction ops with
    | nil => intro s _ h; exact h
    | cons o ops ih =>
      intro s ho h
      exact ih _ (fun o' ho' => ho o' (List.mem_cons_of_mem _ ho')) (step s o (ho o List.mem_cons_self) h)
  -- construction
  have or1 : ∀ (v : Obj) (d : NArr PyFloat), (∀ a, v.asFloatArray = .ok a → a.ndim ≤ 1) → d.ndim ≤ 1 →
      ∀ a, (orRow v d).asFloatArray = .ok a → a.ndim ≤ 1 := by
    intro v d hv hd a ha
    cases v with
    | none => simp only [orRow, Obj.asFloatArray, Except.ok.injEq] at ha; rw [← ha]; exact hd
    | _ => exact hv a ha
  have h0 : s.radius ≠ .nan ∧ s.inner ≠ .nan ∧ s.outer ≠ .nan ∧ s.primaryField.shape = [3] ∧ s.location.shape = [3] := by
    unfold Sphere.new at h
    split at h
    · rename_i t ht
      cases h
      obtain ⟨s4, ht, e5⟩ := andThen_ok ht
      obtain ⟨s3, ht, e4⟩ := andThen_ok ht
      obtain ⟨s2, ht, e3⟩ := andThen_ok ht
      obtain ⟨s1, e1, e2⟩ := andThen_ok ht
      obtain ⟨x1, v1, _, rfl⟩ := (sphere_accepts _ _ _).1.1 e1
      obtain ⟨x2, v2, _, rfl⟩ := (sphere_accepts _ _ _).2.1.1 e2
      obtain ⟨x3, v3, _, rfl⟩ := (sphere_accepts _ _ _).2.2.1.1 e3
      obtain ⟨a4, v4, g4, rfl⟩ := (sphere_accepts _ _ _).2.2.2.1.1 e4
      obtain ⟨a5, v5, g5, rfl⟩ := (sphere_accepts _ _ _).2.2.2.2.1 e5
      exact ⟨hr _ v1, hi _ v2, ho _ v3, shape_of_plain (or1 f _ hf (by simp [row, NArr.ofList, NArr.ndim])) v4 g4,
        shape_of_plain (or1 l _ hl (by simp [row, NArr.ofList, NArr.ndim])) v5 g5⟩
    · cases h
  obtain ⟨n1, n2, n3, n4, n5⟩ := run ops s hops h0
  exact ⟨le_of_not_lt n1 (by simp) hg.1, lt_of_not_le n2 (by simp) hg.2.1, lt_of_not_le n3 (by simp) hg.2.2.1, n4, n5⟩

/-- **C88 fails.** A sphere is built with a NaN conductivity, or given a location with two axes, without complaint. -/
theorem sphere_not_always_valid :
    (∃ s, Sphere.new (.num (.fin 1)) (.num .nan) (.num (.fin 1)) = .ok s ∧ ¬ s.Valid) ∧
    ∃ s, Sphere.new (.num (.fin 1)) (.num (.fin 2)) (.num (.fin 1)) = .ok s ∧ s.Valid ∧
      ∃ t, s.step (.location (.ndarray ⟨[3, 2], fun _ => .fin 0⟩)) = (t, none) ∧ ¬ t.Valid := by
  have hs : ∀ x : PyFloat, ¬ x ≤ .fin 0 →
      Sphere.new (.num (.fin 1)) (.num x) (.num (.fin 1)) = .ok ⟨.fin 1, x, .fin 1, row 1 0 0, row 0 0 0⟩ := by
    intro x hx
    have h1 : ¬ (PyFloat.fin 1 < .fin 0) := by simp [lt_iff, PyFloat.lt]
    have h2 : ¬ (PyFloat.fin 1 ≤ .fin 0) := by simp [le_iff, PyFloat.le]
    simp [Sphere.new, Sphere.setRadius, Sphere.setInner, Sphere.setOuter, Sphere.setPrimaryField, Sphere.setLocation, threeLong, orRow,
      Obj.toFloat, Obj.atleast1dFloat, Obj.asFloatArray, row, NArr.ofList, len, SetResult.andThen, hx, h1, h2]
  refine ⟨⟨_, hs .nan (by simp [le_iff, PyFloat.le]), fun h => ?_⟩, _, hs (.fin 2) (by simp [le_iff, PyFloat.le]), ?_, ?_⟩
  · simpa [Sphere.Valid, lt_iff, PyFloat.lt] using h.2.1
  · refine ⟨?_, ?_, ?_, rfl, rfl⟩ <;> simp [lt_iff, le_iff, PyFloat.lt, PyFloat.le]
  · refine ⟨_, ((sphere_accepts _ _ _).2.2.2.2).2 ⟨⟨[3, 2], fun _ => .fin 0⟩, rfl, ⟨[2], rfl⟩, rfl⟩, fun h => ?_⟩
    simpa using h.2.2.2.2

/-! ## Wires -/

/-- The rows that `nodes` holds: one row for three plain numbers, and otherwise the rows of an array with two axes. -/
def RowsOf (a : NArr PyFloat) (n : ℕ) (entry : ℕ → ℕ → PyFloat) : Prop :=
  (a.shape = [3] ∧ n = 1 ∧ ∀ i j, entry i j = a.get [j]) ∨ (a.shape = [n, 3] ∧ ∀ i j, entry i j = a.get [i, j])

/-- **C88.** The nodes of a wire are accepted exactly if they are three numbers or rows of three numbers, and the stored array has those
rows. -/
theorem wire_accepts_nodes (s : Wire) (v : Obj) :
    (∀ a, v.asFloatArray = .ok a → ∀ n entry, RowsOf a n entry →
      ∃ t, s.step (.nodes v) = (t, none) ∧ t.nodes.shape = [n, 3] ∧ (∀ i j, i < n → t.nodes.get [i, j] = entry i j) ∧
        t.current = s.current ∧ t.em = s.em) ∧
    (∀ a, v.asFloatArray = .ok a → (¬ ∃ n entry, RowsOf a n entry) → s.step (.nodes v) = (s, some .valueError)) ∧
    (∀ e, v.asFloatArray = .error e → s.step (.nodes v) = (s, some .typeError)) := by
  refine ⟨fun a ha n entry hr => ?_, fun a ha hr => ?_, fun e he => ?_⟩
  · rcases hr with ⟨h3, rfl, he⟩ | ⟨hn, he⟩
    · refine ⟨{ s with nodes := ⟨[1, 3], fun i => a.get i.tail⟩ }, ?_, rfl, fun i j _ => (he i j).symm, rfl, rfl⟩
      simp [Wire.step, Wire.setNodes, ha, atleast2d, h3, NArr.ndim]
    · refine ⟨{ s with nodes := a }, ?_, hn, fun i j _ => (he i j).symm, rfl, rfl⟩
      have : atleast2d a = a := by simp [atleast2d, hn]
      simp [Wire.step, Wire.setNodes, ha, this, hn, NArr.ndim]
  · have : (atleast2d a).shape.getD 1 0 ≠ 3 ∨ (atleast2d a).ndim ≠ 2 := by
      by_contra hc
      push Not at hc
      obtain ⟨h1, h2⟩ := hc
      apply hr
      unfold atleast2d at h1 h2
      rcases hs : a.shape with _ | ⟨n, _ | ⟨m, _ | ⟨k, l⟩⟩⟩
      · simp [hs] at h1
      · simp [hs] at h1
        exact ⟨1, fun _ j => a.get [j], .inl ⟨by rw [hs, h1], rfl, fun _ _ => rfl⟩⟩
      · simp [hs] at h1
        exact ⟨n, fun i j => a.get [i, j], .inr ⟨by rw [hs, h1], fun _ _ => rfl⟩⟩
      · simp [hs, NArr.ndim] at h2
    simp only [Wire.step, Wire.setNodes, ha, if_pos this]
  · simp [Wire.step, Wire.setNodes, he]

/-- **C88.** A refused assignment leaves the wire as it was, and the current accepts every number. -/
theorem wire_refused_unchanged (s : Wire) (o : Wire.Op) (e : PyErr) (h : (s.step o).2 = some e) : (s.step o).1 = s := by
  cases o with
  | nodes v => simp only [Wire.step, Wire.setNodes] at h ⊢; (repeat' split at h) <;> simp_all
  | current v => simp only [Wire.step, Wire.setCurrent] at h ⊢; (repeat' split at h) <;> simp_all
  | em o =>
    simp only [Wire.step] at h ⊢
    rw [em_rejected_unchanged s.em o e h]

theorem wire_current (s : Wire) (v : Obj) :
    (∀ x, v.toFloat = .ok x → s.step (.current v) = ({ s with current := x }, none)) ∧
    (∀ e, v.toFloat = .error e → s.step (.current v) = (s, some .typeError)) := by
  refine ⟨fun x h => ?_, fun e h => ?_⟩
  · simp [Wire.step, Wire.setCurrent, floatOrTypeError, h]
  · simp [Wire.step, Wire.setCurrent, floatOrTypeError, h]

/-- **C88.** After every construction and history the nodes are rows of three numbers, the number of segments is one less than the number
of rows, and the electromagnetic properties are in range or NaN. -/
theorem wire_history {nodes current sigma mu epsilon : Obj} {s : Wire} (h : Wire.new nodes current sigma mu epsilon = .ok s)
    (ops : List Wire.Op) :
    (∃ n : ℕ, (runOps Wire.step s ops).nodes.shape = [n, 3] ∧ (runOps Wire.step s ops).nSegments = n - 1) ∧
      (runOps Wire.step s ops).em.InBoundsOrNaN := by
  have nodesShape : ∀ (s t : Wire) (v : Obj), s.setNodes v = (t, none) → ∃ n, t.nodes.shape = [n, 3] := by
    intro s t v hv
    cases ha : v.asFloatArray with
    | error e => rw [show s.setNodes v = _ from (wire_accepts_nodes s v).2.2 e ha] at hv; simp at hv
    | ok a =>
      by_cases hr : ∃ n entry, RowsOf a n entry
      · obtain ⟨n, entry, hr⟩ := hr
        obtain ⟨t', h1, h2, _⟩ := (wire_accepts_nodes s v).1 a ha n entry hr
        have : t' = t := by
          have := h1.symm.trans hv
          simpa using this
        exact ⟨n, this ▸ h2⟩
      · rw [show s.setNodes v = _ from (wire_accepts_nodes s v).2.1 a ha hr] at hv; simp at hv
  have hstep : ∀ (s : Wire) (o : Wire.Op), ((∃ n : ℕ, s.nodes.shape = [n, 3]) ∧ s.em.InBoundsOrNaN) →
      (∃ n : ℕ, (s.step o).1.nodes.shape = [n, 3]) ∧ (s.step o).1.em.InBoundsOrNaN := by
    intro s o hs
    cases o with
    | nodes v =>
      rcases hr : s.setNodes v with ⟨t, _ | e⟩
      · refine ⟨?_, ?_⟩
        · simp only [Wire.step, hr]; exact nodesShape s t v hr
        · have : t.em = s.em := by
            simp only [Wire.setNodes] at hr
            (repeat' split at hr) <;> simp only [Prod.mk.injEq, reduceCtorEq, and_false, and_true] at hr
            rw [← hr]
          simp only [Wire.step, hr, this]; exact hs.2
      · have := wire_refused_unchanged s (.nodes v) e (by simp [Wire.step, hr])
        rw [this]; exact hs
    | current v => simp only [Wire.step, Wire.setCurrent]; split <;> exact hs
    | em o => exact ⟨hs.1, em_step_boundsOrNaN s.em o hs.2⟩
  have h0 : (∃ n : ℕ, s.nodes.shape = [n, 3]) ∧ s.em.InBoundsOrNaN := by
    unfold Wire.new at h
    rcases hr : (⟨row 0 0 0, .nan, EM.blank⟩ : Wire).setNodes nodes with ⟨t, _ | e⟩
    · rw [hr] at h
      simp only [SetResult.andThen] at h
      have hn := nodesShape _ t nodes hr
      rcases hc : t.setCurrent current with ⟨u, _ | e⟩
      · rw [hc] at h
        simp only at h
        have hu : u.nodes = t.nodes := by
          simp only [Wire.setCurrent] at hc
          split at hc <;> simp only [Prod.mk.injEq, reduceCtorEq, and_false, and_true] at hc
          rw [← hc]
        cases he : EM.new sigma mu epsilon with
        | error e => rw [he] at h; cases h
        | ok em =>
          rw [he] at h
          simp only [Except.ok.injEq] at h
          subst h
          exact ⟨by simpa [hu] using hn, em_new_boundsOrNaN he⟩
      · rw [hc] at h; simp at h
    · rw [hr] at h; simp [SetResult.andThen] at h
  obtain ⟨⟨n, hn⟩, hb⟩ := runOps_invariant (I := fun s : Wire => (∃ n : ℕ, s.nodes.shape = [n, 3]) ∧ s.em.InBoundsOrNaN) hstep s h0 ops
  exact ⟨⟨n, hn, by simp [Wire.nSegments, hn]⟩, hb⟩

/-- **C88.** An array without rows is accepted, and the wire then has minus one segments. -/
theorem wire_without_nodes (s : Wire) :
    ∃ t, s.step (.nodes (.ndarray ⟨[0, 3], fun _ => .fin 0⟩)) = (t, none) ∧ t.nSegments = -1 := by
  obtain ⟨t, h1, h2, _⟩ := (wire_accepts_nodes s (.ndarray ⟨[0, 3], fun _ => .fin 0⟩)).1 _ rfl 0 (fun _ _ => .fin 0) (.inr ⟨rfl, fun _ _ => rfl⟩)
  exact ⟨t, h1, by simp [Wire.nSegments, h2]⟩

/-! ## Point masses and magnetised prisms -/

/-- **C88.** A point mass accepts every number as its mass and every three numbers as its location, and stores them. -/
theorem pointMass_assignment (s t : PointMass) (v : Obj) :
    (s.step (.mass v) = (t, none) ↔ ∃ x, v.toFloat = .ok x ∧ t = { s with mass := x }) ∧
    (s.step (.location v) = (t, none) ↔ ∃ a w, v.asFloatArray = .ok a ∧ HoldsThree a w ∧ t = { s with location := w }) ∧
    (∀ o e, (s.step o).2 = some e → (s.step o).1 = s ∧ (e = .typeError ∨ e = .valueError)) := by
  refine ⟨?_, ?_, ?_⟩
  · simp only [PointMass.step, floatOrTypeError]
    cases h : v.toFloat <;> simp [eq_comm]
  · simp only [PointMass.step]
    cases h : vec3 v with
    | error e =>
      simp only [Prod.mk.injEq, reduceCtorEq, and_false, false_iff]
      rintro ⟨a, w, h1, h2, _⟩
      rw [((vec3_spec v).1 w).2 ⟨a, h1, h2⟩] at h
      cases h
    | ok w =>
      obtain ⟨a, h1, h2⟩ := ((vec3_spec v).1 w).1 h
      simp only [Prod.mk.injEq, and_true]
      constructor
      · intro e; exact ⟨a, w, h1, h2, e.symm⟩
      · rintro ⟨b, u, h3, h4, rfl⟩
        have := ((vec3_spec v).1 u).2 ⟨b, h3, h4⟩
        rw [h] at this
        cases this
        rfl
  · intro o e he
    cases o with
    | mass v =>
      simp only [PointMass.step] at he ⊢
      cases h : floatOrTypeError v with
      | error e' =>
        rw [h] at he
        simp only [Option.some.injEq] at he
        subst he
        exact ⟨rfl, .inl (floatOrTypeError_error h)⟩
      | ok x => rw [h] at he; simp at he
    | location v =>
      simp only [PointMass.step] at he ⊢
      cases h : vec3 v with
      | error e' =>
        rw [h] at he
        simp only [Option.some.injEq] at he
        subst he
        exact ⟨rfl, vec3_error h⟩
      | ok x => rw [h] at he; simp at he

/-- **C88.** The defaults: a unit mass at the origin; a prism magnetised vertically. -/
theorem defaults : PointMass.new = .ok ⟨.fin 1, ⟨.fin 0, .fin 0, .fin 0⟩⟩ ∧
    ∀ min max, MagPrism.new min max = (Prism.new min max).map fun b => ⟨b, ⟨.fin 0, .fin 0, .fin 1⟩⟩ := by
  have hrow : ∀ x y z : ℝ, vec3 (.ndarray (row x y z)) = .ok ⟨.fin x, .fin y, .fin z⟩ := fun x y z =>
    ((vec3_spec _).1 _).2 ⟨_, rfl, 0, 0, rfl, rfl, rfl, rfl⟩
  constructor
  · simp [PointMass.new, PointMass.step, floatOrTypeError, Obj.toFloat, SetResult.andThen, orRow, hrow]
  · intro min max
    simp only [MagPrism.new, orRow, hrow]
    cases Prism.new min max <;> rfl

/-- **C88.** A magnetised prism accepts every three numbers as its magnetisation; its corners behave as those of any prism, and what is
refused changes nothing. -/
theorem magPrism_assignment (s t : MagPrism) (v : Obj) :
    (s.step (.magnetization v) = (t, none) ↔ ∃ a w, v.asFloatArray = .ok a ∧ HoldsThree a w ∧ t = { s with magnetization := w }) ∧
    (∀ o, s.step (.box o) = ({ s with box := (s.box.step o).1 }, (s.box.step o).2)) ∧
    (∀ e, (s.step (.magnetization v)).2 = some e → (s.step (.magnetization v)).1 = s ∧ (e = .typeError ∨ e = .valueError)) := by
  refine ⟨?_, fun _ => rfl, ?_⟩
  · simp only [MagPrism.step]
    cases h : vec3 v with
    | error e =>
      simp only [Prod.mk.injEq, reduceCtorEq, and_false, false_iff]
      rintro ⟨a, w, h1, h2, _⟩
      rw [((vec3_spec v).1 w).2 ⟨a, h1, h2⟩] at h
      cases h
    | ok w =>
      obtain ⟨a, h1, h2⟩ := ((vec3_spec v).1 w).1 h
      simp only [Prod.mk.injEq, and_true]
      constructor
      · intro e; exact ⟨a, w, h1, h2, e.symm⟩
      · rintro ⟨b, u, h3, h4, rfl⟩
        have := ((vec3_spec v).1 u).2 ⟨b, h3, h4⟩
        rw [h] at this
        cases this
        rfl
  · intro e he
    simp only [MagPrism.step] at he ⊢
    cases h : vec3 v with
    | error e' =>
      rw [h] at he
      simp only [Option.some.injEq] at he
      subst he
      exact ⟨rfl, vec3_error h⟩
    | ok x => rw [h] at he; simp at he

/-- Non-vacuity of the wire theorem: a wire of two nodes is built. -/
example : ∃ s, Wire.new (.seq ⟨[2, 3], fun _ => .fin 0⟩) (.num (.fin 1)) (.num (.fin 1)) (.num (.fin 1)) (.num (.fin 1)) = .ok s := by
  simp [Wire.new, Wire.setNodes, Obj.asFloatArray, atleast2d, NArr.ndim, Wire.setCurrent, floatOrTypeError, Obj.toFloat, SetResult.andThen,
    em_unit_constructed]

end Verif.SourceState
