import Verif.Model.Setters
import Mathlib.Tactic.Linarith
import Mathlib.Tactic.FieldSimp
import Mathlib.Tactic.Positivity

/-!
# C40: electromagnetic properties over every history of assignments

The English property says that after any construction and any sequence of assignments, some of them rejected, the
stored values satisfy their bounds.  It is false of the code for NaN, which passes every `<=` test, and `rho` adds two
more exceptions.  The negations come first, then what does hold.
-/

namespace Verif.Setters

open Classical PyFloat

variable [FloatGrammar]

/-- `v` is no NaN in disguise: if it converts to a float, that float is a number. -/
def NotNaN (v : Obj) : Prop := ∀ x, v.toFloat = .ok x → x ≠ .nan

/-- The object assigned by an operation. -/
def EM.Op.arg : EM.Op → Obj
  | .sigma v => v
  | .rho v => v
  | .mu v => v
  | .epsilon v => v

/-- The object assigned by an operation. -/
def ElectricDipole.Op.arg : ElectricDipole.Op → Obj
  | .em o => o.arg
  | .length v => v
  | .current v => v
  | .location v => v
  | .orientation v => v

/-- The object assigned by an operation. -/
def Loop.Op.arg : Loop.Op → Obj
  | .em o => o.arg
  | .current v => v
  | .radius v => v
  | .location v => v
  | .orientation v => v

/-- The bounds of the English property. -/
def EM.InBounds (s : EM) : Prop := .fin 0 < s.sigma ∧ .fin 0 < s.mu ∧ .fin 0 ≤ s.epsilon

/-- The bounds, with NaN let through. -/
def EM.InBoundsOrNaN (s : EM) : Prop :=
  (s.sigma = .nan ∨ .fin 0 < s.sigma) ∧ (s.mu = .nan ∨ .fin 0 < s.mu) ∧ (s.epsilon = .nan ∨ .fin 0 ≤ s.epsilon)

/-! ## What the code does not guarantee -/

/-- A default object, as built by `BaseEM()`. -/
noncomputable def EM.unit : EM := ⟨.fin 1, .fin 1, .fin 1⟩

theorem em_unit_constructed : EM.new (.num (.fin 1)) (.num (.fin 1)) (.num (.fin 1)) = .ok EM.unit := by
  have h1 : ¬ (1 : ℝ) ≤ 0 := by norm_num
  have h2 : ¬ (1 : ℝ) < 0 := by norm_num
  simp [EM.new, EM.blank, EM.setSigma, EM.setMu, EM.setEpsilon, floatOrTypeError, Obj.toFloat, SetResult.andThen,
    EM.unit, h1, h2]

/-- **C40 fails for NaN**: one assignment of NaN to a valid object leaves a conductivity that is not positive; the same
for the other two properties. -/
theorem em_nan_breaks_bounds :
    ∃ s : EM, EM.new (.num (.fin 1)) (.num (.fin 1)) (.num (.fin 1)) = .ok s ∧ s.InBounds ∧
      ¬ .fin 0 < (runOps EM.step s [.sigma (.num .nan)]).sigma ∧
      ¬ .fin 0 < (runOps EM.step s [.mu (.num .nan)]).mu ∧
      ¬ .fin 0 ≤ (runOps EM.step s [.epsilon (.num .nan)]).epsilon := by
  refine ⟨EM.unit, em_unit_constructed, ?_, ?_, ?_, ?_⟩
  · simp [EM.InBounds, EM.unit]
  all_goals simp [runOps, EM.step, EM.setSigma, EM.setMu, EM.setEpsilon, floatOrTypeError, Obj.toFloat]

/-- **C40 fails for `rho = 0`**: the rejection is a `ZeroDivisionError`, neither `TypeError` nor `ValueError`. -/
theorem em_rho_zero_raises_zeroDivision (s : EM) : s.step (.rho (.num (.fin 0))) = (s, some .zeroDivisionError) := by
  simp [EM.step, EM.setRho, floatOrTypeError, Obj.toFloat, pyDiv]

/-- **C40 fails for an infinite conductivity**: it is accepted, resistivity then reads zero and `rho * sigma` is NaN. -/
theorem em_sigma_inf_breaks_reciprocal :
    ∃ s t : EM, ∃ r, EM.new (.num (.fin 1)) (.num (.fin 1)) (.num (.fin 1)) = .ok s ∧
      t = runOps EM.step s [.sigma (.num .pinf)] ∧ t.sigma = .pinf ∧ t.rho = .ok r ∧ r = .fin 0 ∧
      r * t.sigma = .nan := by
  refine ⟨EM.unit, _, .fin 0, em_unit_constructed, rfl, ?_, ?_, rfl, ?_⟩
  · simp [runOps, EM.step, EM.setSigma, floatOrTypeError, Obj.toFloat]
  · simp [runOps, EM.step, EM.setSigma, floatOrTypeError, Obj.toFloat, EM.rho, pyDiv, npDiv]
  · simp [runOps, EM.step, EM.setSigma, floatOrTypeError, Obj.toFloat]
    change PyFloat.mul _ _ = _
    simp [PyFloat.mul]

/-! ## What holds -/

theorem floatOrTypeError_ok {v : Obj} {x : PyFloat} : floatOrTypeError v = .ok x ↔ v.toFloat = .ok x := by
  unfold floatOrTypeError
  cases v.toFloat <;> simp

theorem floatOrTypeError_error {v : Obj} {e : PyErr} (h : floatOrTypeError v = .error e) : e = .typeError := by
  unfold floatOrTypeError at h
  cases hv : v.toFloat <;> simp_all

/-- A rejected assignment leaves the object exactly as it was. -/
theorem em_rejected_unchanged (s : EM) (o : EM.Op) (e : PyErr) (h : (s.step o).2 = some e) : (s.step o).1 = s := by
  cases o <;> simp only [EM.step, EM.setSigma, EM.setRho, EM.setMu, EM.setEpsilon] at h ⊢ <;>
    (repeat' split at h) <;> simp_all

/-- Which assignments are accepted, and what is then stored: the converted value when it satisfies the bound, with
everything else left alone. -/
theorem em_assignment (s : EM) (v : Obj) :
    (∀ t, s.setSigma v = (t, none) ↔ ∃ x, v.toFloat = .ok x ∧ ¬ x ≤ .fin 0 ∧ t = { s with sigma := x }) ∧
    (∀ t, s.setMu v = (t, none) ↔ ∃ x, v.toFloat = .ok x ∧ ¬ x ≤ .fin 0 ∧ t = { s with mu := x }) ∧
    (∀ t, s.setEpsilon v = (t, none) ↔ ∃ x, v.toFloat = .ok x ∧ ¬ x < .fin 0 ∧ t = { s with epsilon := x }) := by
  refine ⟨fun t => ?_, fun t => ?_, fun t => ?_⟩
  all_goals
    simp only [EM.setSigma, EM.setMu, EM.setEpsilon]
    cases h : floatOrTypeError v with
    | error e =>
      have : ∀ x, v.toFloat ≠ .ok x := fun x hx => by rw [floatOrTypeError_ok.2 hx] at h; cases h
      simp [this]
    | ok x =>
      have hx := floatOrTypeError_ok.1 h
      simp only [hx]
      split <;> rename_i hc
      · simp [hc]
      · simp only [Except.ok.injEq, Prod.mk.injEq, and_true, exists_eq_left', hc, not_false_eq_true, true_and]
        exact eq_comm

/-- Every rejection raises `TypeError` or `ValueError`, except `rho = 0`, which raises `ZeroDivisionError`. -/
theorem em_rejection_kind_partial (s : EM) (o : EM.Op) (e : PyErr) (h : (s.step o).2 = some e) :
    e = .typeError ∨ e = .valueError ∨ (e = .zeroDivisionError ∧ ∃ v, o = .rho v ∧ v.toFloat = .ok (.fin 0)) := by
  have key : ∀ v, (s.setSigma v).2 = some e → e = .typeError ∨ e = .valueError := by
    intro v h
    simp only [EM.setSigma] at h
    split at h
    · rename_i e' he
      simp at h
      exact Or.inl (by rw [← h]; exact floatOrTypeError_error he)
    · split at h <;> simp_all
  cases o with
  | sigma v => exact (key v h).imp_right Or.inl
  | rho v =>
    simp only [EM.step, EM.setRho] at h
    split at h
    · rename_i e' he
      simp at h
      exact Or.inl (by rw [← h]; exact floatOrTypeError_error he)
    · rename_i x hx
      split at h
      · rename_i e' he
        simp at h
        unfold pyDiv at he
        split at he
        · rename_i hx0
          simp at he
          exact Or.inr (Or.inr ⟨by rw [← h, ← he], v, rfl, by rw [← hx0]; exact floatOrTypeError_ok.1 hx⟩)
        · simp at he
      · exact (key _ h).imp_right Or.inl
  | mu v =>
    simp only [EM.step, EM.setMu] at h
    split at h
    · rename_i e' he
      simp at h
      exact Or.inl (by rw [← h]; exact floatOrTypeError_error he)
    · split at h <;> simp_all
  | epsilon v =>
    simp only [EM.step, EM.setEpsilon] at h
    split at h
    · rename_i e' he
      simp at h
      exact Or.inl (by rw [← h]; exact floatOrTypeError_error he)
    · split at h <;> simp_all

theorem em_step_boundsOrNaN (s : EM) (o : EM.Op) (h : s.InBoundsOrNaN) : (s.step o).1.InBoundsOrNaN := by
  have hs : ∀ v, (s.setSigma v).1.InBoundsOrNaN := by
    intro v
    simp only [EM.setSigma]
    (repeat' split) <;> try exact h
    rename_i x _ hx
    refine ⟨?_, h.2⟩
    rcases not_le_iff.1 hx with h1 | h1 | h1 <;> simp_all
  cases o with
  | sigma v => exact hs v
  | rho v =>
    simp only [EM.step, EM.setRho]
    (repeat' split) <;> first | exact h | exact hs _
  | mu v =>
    simp only [EM.step, EM.setMu]
    (repeat' split) <;> try exact h
    rename_i x _ hx
    refine ⟨h.1, ?_, h.2.2⟩
    rcases not_le_iff.1 hx with h1 | h1 | h1 <;> simp_all
  | epsilon v =>
    simp only [EM.step, EM.setEpsilon]
    (repeat' split) <;> try exact h
    rename_i x _ hx
    refine ⟨h.1, h.2.1, ?_⟩
    rcases not_lt_iff.1 hx with h1 | h1 | h1 <;> simp_all

theorem em_new_boundsOrNaN {a b c : Obj} {s : EM} (h : EM.new a b c = .ok s) : s.InBoundsOrNaN := by
  have h0 : EM.blank.InBoundsOrNaN := by simp [EM.blank, EM.InBoundsOrNaN]
  unfold EM.new at h
  simp only [SetResult.andThen] at h
  have h1 := em_step_boundsOrNaN _ (.sigma a) h0
  simp only [EM.step] at h1
  rcases hA : EM.blank.setSigma a with ⟨s1, e1⟩
  rw [hA] at h h1
  cases e1 with
  | some e => simp at h
  | none =>
    simp only at h h1
    have h2 := em_step_boundsOrNaN _ (.mu b) h1
    simp only [EM.step] at h2
    rcases hB : s1.setMu b with ⟨s2, e2⟩
    rw [hB] at h h2
    cases e2 with
    | some e => simp at h
    | none =>
      simp only at h h2
      have h3 := em_step_boundsOrNaN _ (.epsilon c) h2
      simp only [EM.step] at h3
      rcases hC : s2.setEpsilon c with ⟨s3, e3⟩
      rw [hC] at h h3
      cases e3 with
      | some e => simp at h
      | none => simp at h; exact h ▸ h3

/-- After every construction and every history, rejected assignments included, each property is within its bound or
NaN.  Missing from the full statement: the exclusion of NaN (`em_nan_breaks_bounds`). -/
theorem em_bounds_history_partial {a b c : Obj} {s : EM} (h : EM.new a b c = .ok s) (ops : List EM.Op) :
    (runOps EM.step s ops).InBoundsOrNaN :=
  runOps_invariant em_step_boundsOrNaN s (em_new_boundsOrNaN h) ops

/-- No NaN is stored. -/
def EM.NoNaN (s : EM) : Prop := s.sigma ≠ .nan ∧ s.mu ≠ .nan ∧ s.epsilon ≠ .nan

theorem em_step_noNaN (s : EM) (o : EM.Op) (h : s.NoNaN) (ho : NotNaN o.arg) : (s.step o).1.NoNaN := by
  have hs : ∀ v, NotNaN v → (s.setSigma v).1.NoNaN := by
    intro v hv
    simp only [EM.setSigma]
    (repeat' split) <;> try exact h
    rename_i x hx _
    exact ⟨hv x (floatOrTypeError_ok.1 hx), h.2⟩
  cases o with
  | sigma v => exact hs v ho
  | rho v =>
    simp only [EM.step, EM.setRho]
    split
    · exact h
    · rename_i x hx
      split
      · exact h
      · rename_i y hy
        refine hs _ ?_
        intro z hz
        simp only [Obj.toFloat, Except.ok.injEq] at hz
        subst hz
        have hxn := ho x (floatOrTypeError_ok.1 hx)
        simp only [pyDiv] at hy
        split at hy
        · simp at hy
        · rename_i hx0
          simp only [Except.ok.injEq] at hy
          subst hy
          cases x with
          | fin x => simp only [npDiv]; split <;> simp_all
          | pinf => simp [npDiv]
          | ninf => simp [npDiv]
          | nan => exact absurd rfl hxn
  | mu v =>
    simp only [EM.step, EM.setMu]
    (repeat' split) <;> try exact h
    rename_i x hx _
    exact ⟨h.1, ho x (floatOrTypeError_ok.1 hx), h.2.2⟩
  | epsilon v =>
    simp only [EM.step, EM.setEpsilon]
    (repeat' split) <;> try exact h
    rename_i x hx _
    exact ⟨h.1, h.2.1, ho x (floatOrTypeError_ok.1 hx)⟩

theorem em_new_noNaN {a b c : Obj} {s : EM} (h : EM.new a b c = .ok s) (ha : NotNaN a) (hb : NotNaN b)
    (hc : NotNaN c) : s.NoNaN := by
  unfold EM.new at h
  simp only [SetResult.andThen, EM.setSigma, EM.setMu, EM.setEpsilon] at h
  cases ha' : floatOrTypeError a with
  | error e => simp [ha'] at h
  | ok x =>
    by_cases hx : x ≤ .fin 0
    · simp [ha', hx] at h
    · cases hb' : floatOrTypeError b with
      | error e => simp [ha', hx, hb'] at h
      | ok y =>
        by_cases hy : y ≤ .fin 0
        · simp [ha', hx, hb', hy] at h
        · cases hc' : floatOrTypeError c with
          | error e => simp [ha', hx, hb', hy, hc'] at h
          | ok z =>
            by_cases hz : z < .fin 0
            · simp [ha', hx, hb', hy, hc', hz] at h
            · simp [ha', hx, hb', hy, hc', hz] at h
              subst h
              exact ⟨ha _ (floatOrTypeError_ok.1 ha'), hb _ (floatOrTypeError_ok.1 hb'),
                hc _ (floatOrTypeError_ok.1 hc')⟩

omit [FloatGrammar] in
theorem EM.inBounds_of {s : EM} (h : s.InBoundsOrNaN) (hn : s.NoNaN) : s.InBounds :=
  ⟨h.1.resolve_left hn.1, h.2.1.resolve_left hn.2.1, h.2.2.resolve_left hn.2.2⟩

/-- After every construction and every history that never hands over a NaN, every property is within its bound. -/
theorem em_bounds_history_noNaN {a b c : Obj} {s : EM} (h : EM.new a b c = .ok s) (ha : NotNaN a) (hb : NotNaN b)
    (hc : NotNaN c) (ops : List EM.Op) (ho : ∀ o ∈ ops, NotNaN o.arg) : (runOps EM.step s ops).InBounds := by
  refine EM.inBounds_of (em_bounds_history_partial h ops) ?_
  have h0 := em_new_noNaN h ha hb hc
  clear h
  induction ops generalizing s with
  | nil => exact h0
  | cons o ops ih =>
    exact ih (fun o' ho' => ho o' (List.mem_cons_of_mem _ ho')) (em_step_noNaN s o h0 (ho o List.mem_cons_self))

omit [FloatGrammar] in
/-- At every finite conductivity, `rho` reads the exact reciprocal. -/
theorem em_rho_sigma_partial (s : EM) (c : ℝ) (hc : s.sigma = .fin c) (hpos : 0 < c) :
    ∃ r : ℝ, s.rho = .ok (.fin r) ∧ r * c = 1 := by
  refine ⟨1 / c, ?_, by field_simp⟩
  simp [EM.rho, hc, pyDiv, npDiv, hpos.ne']

/-- Reading `rho` never raises on an object that was constructed and assigned to. -/
theorem em_rho_defined {a b c : Obj} {s : EM} (h : EM.new a b c = .ok s) (ops : List EM.Op) :
    ∃ r, (runOps EM.step s ops).rho = .ok r := by
  have := (em_bounds_history_partial h ops).1
  unfold EM.rho pyDiv
  split
  · rename_i h0
    rw [h0] at this
    simp at this
  · exact ⟨_, rfl⟩

/-- Assigning a finite positive resistivity is accepted and reads back the same value. -/
theorem em_rho_reads_back (s : EM) (v : ℝ) (hv : 0 < v) :
    ∃ t, s.step (.rho (.num (.fin v))) = (t, none) ∧ t.rho = .ok (.fin v) ∧ t.mu = s.mu ∧ t.epsilon = s.epsilon := by
  have hv' : 0 < v⁻¹ := inv_pos.2 hv
  refine ⟨{ s with sigma := .fin (1 / v) }, ?_, ?_, rfl, rfl⟩
  · simp [EM.step, EM.setRho, floatOrTypeError, Obj.toFloat, pyDiv, npDiv, EM.setSigma, hv.ne', hv'.not_ge]
  · simp [EM.rho, pyDiv, npDiv, hv.ne']

/-- The hypotheses of the history theorems are met by a real construction and a history with accepted and rejected
assignments. -/
example : ∃ s, EM.new (.num (.fin 1)) (.num (.fin 1)) (.num (.fin 1)) = .ok s ∧
    (s.step (.sigma (.num (.fin (-1))))).2 = some .valueError ∧ (s.step (.rho (.num (.fin 4)))).2 = none ∧
    NotNaN (.num (.fin 4)) := by
  refine ⟨EM.unit, em_unit_constructed, ?_, ?_, ?_⟩
  · simp [EM.step, EM.setSigma, floatOrTypeError, Obj.toFloat]
  · obtain ⟨t, ht, _⟩ := em_rho_reads_back EM.unit 4 (by norm_num)
    rw [ht]
  · intro x hx
    simp only [Obj.toFloat, Except.ok.injEq] at hx
    rw [← hx]; simp

/-! ## Dipole length and loop radius -/

/-- After every construction and history the length of an electric dipole is positive or NaN, and its electromagnetic
properties are within their bounds or NaN. -/
theorem electricDipole_history_partial {a b c d e f g : Obj} {s : ElectricDipole}
    (h : ElectricDipole.new a b c d e f g = .ok s) (ops : List ElectricDipole.Op) :
    (runOps ElectricDipole.step s ops).em.InBoundsOrNaN ∧
      ((runOps ElectricDipole.step s ops).length = .nan ∨ .fin 0 < (runOps ElectricDipole.step s ops).length) := by
  refine runOps_invariant (I := fun s : ElectricDipole => s.em.InBoundsOrNaN ∧ (s.length = .nan ∨ .fin 0 < s.length))
    ?_ s ?_ ops
  · intro s o hs
    cases o with
    | em o => exact ⟨em_step_boundsOrNaN _ _ hs.1, hs.2⟩
    | length v =>
      simp only [ElectricDipole.step, ElectricDipole.setLength]
      (repeat' split) <;> try exact hs
      rename_i x _ hx
      refine ⟨hs.1, ?_⟩
      rcases not_le_iff.1 hx with h1 | h1 | h1 <;> simp_all
    | current v => simp only [ElectricDipole.step, ElectricDipole.setCurrent]; split <;> exact hs
    | location v => simp only [ElectricDipole.step, ElectricDipole.setLocation]; split <;> exact hs
    | orientation v => simp only [ElectricDipole.step, ElectricDipole.setOrientation]; split <;> exact hs
  · unfold ElectricDipole.new at h
    split at h
    · simp at h
    · rename_i em hem
      have hb := em_new_boundsOrNaN hem
      simp only [SetResult.andThen, ElectricDipole.setLength, ElectricDipole.setCurrent, ElectricDipole.setLocation,
        ElectricDipole.setOrientation] at h
      cases hd : floatOrTypeError d with
      | error e => simp [hd] at h
      | ok x =>
        by_cases hx : x ≤ .fin 0
        · simp [hd, hx] at h
        · cases he : floatOrTypeError e with
          | error e' => simp [hd, hx, he] at h
          | ok y =>
            cases hf : vec3 f with
            | error e' => simp [hd, hx, he, hf] at h
            | ok l =>
              cases hg : dipoleOrientation g with
              | error e' => simp [hd, hx, he, hf, hg] at h
              | ok w =>
                simp [hd, hx, he, hf, hg] at h
                subst h
                refine ⟨hb, ?_⟩
                rcases not_le_iff.1 hx with h1 | h1 | h1 <;> simp_all

/-- After every construction and history the radius of a loop is positive or NaN, and its electromagnetic properties
are within their bounds or NaN. -/
theorem loop_history_partial {a b c d e f g : Obj} {s : Loop} (h : Loop.new a b c d e f g = .ok s)
    (ops : List Loop.Op) :
    (runOps Loop.step s ops).em.InBoundsOrNaN ∧
      ((runOps Loop.step s ops).radius = .nan ∨ .fin 0 < (runOps Loop.step s ops).radius) := by
  refine runOps_invariant (I := fun s : Loop => s.em.InBoundsOrNaN ∧ (s.radius = .nan ∨ .fin 0 < s.radius)) ?_ s ?_ ops
  · intro s o hs
    cases o with
    | em o => exact ⟨em_step_boundsOrNaN _ _ hs.1, hs.2⟩
    | radius v =>
      simp only [Loop.step, Loop.setRadius]
      (repeat' split) <;> try exact hs
      rename_i x _ hx
      refine ⟨hs.1, ?_⟩
      rcases not_le_iff.1 hx with h1 | h1 | h1 <;> simp_all
    | current v => simp only [Loop.step, Loop.setCurrent]; split <;> exact hs
    | location v => simp only [Loop.step, Loop.setLocation]; split <;> exact hs
    | orientation v => simp only [Loop.step, Loop.setOrientation]; split <;> exact hs
  · unfold Loop.new at h
    simp only [SetResult.andThen, Loop.setRadius, Loop.setCurrent, Loop.setLocation, Loop.setOrientation] at h
    cases hb : floatOrTypeError b with
    | error e => simp [hb] at h
    | ok y =>
      cases ha : floatOrTypeError a with
      | error e => simp [hb, ha] at h
      | ok x =>
        by_cases hx : x ≤ .fin 0
        · simp [hb, ha, hx] at h
        · cases hem : EM.new c d e with
          | error e' => simp [hb, ha, hx, hem] at h
          | ok em =>
            cases hf : vec3 f with
            | error e' => simp [hb, ha, hx, hem, hf] at h
            | ok l =>
              cases hg : dipoleOrientation g with
              | error e' => simp [hb, ha, hx, hem, hf, hg] at h
              | ok w =>
                simp [hb, ha, hx, hem, hf, hg] at h
                subst h
                refine ⟨em_new_boundsOrNaN hem, ?_⟩
                rcases not_le_iff.1 hx with h1 | h1 | h1 <;> simp_all

/-- A rejected assignment to a dipole changes nothing. -/
theorem electricDipole_rejected_unchanged (s : ElectricDipole) (o : ElectricDipole.Op) (e : PyErr)
    (h : (s.step o).2 = some e) : (s.step o).1 = s := by
  cases o with
  | em o => simp only [ElectricDipole.step] at h ⊢; rw [em_rejected_unchanged _ _ _ h]
  | length v => simp only [ElectricDipole.step, ElectricDipole.setLength] at h ⊢; (repeat' split at h) <;> simp_all
  | current v => simp only [ElectricDipole.step, ElectricDipole.setCurrent] at h ⊢; (repeat' split at h) <;> simp_all
  | location v => simp only [ElectricDipole.step, ElectricDipole.setLocation] at h ⊢; (repeat' split at h) <;> simp_all
  | orientation v =>
    simp only [ElectricDipole.step, ElectricDipole.setOrientation] at h ⊢; (repeat' split at h) <;> simp_all

/-- A rejected assignment to a loop changes nothing. -/
theorem loop_rejected_unchanged (s : Loop) (o : Loop.Op) (e : PyErr) (h : (s.step o).2 = some e) :
    (s.step o).1 = s := by
  cases o with
  | em o => simp only [Loop.step] at h ⊢; rw [em_rejected_unchanged _ _ _ h]
  | radius v => simp only [Loop.step, Loop.setRadius] at h ⊢; (repeat' split at h) <;> simp_all
  | current v => simp only [Loop.step, Loop.setCurrent] at h ⊢; (repeat' split at h) <;> simp_all
  | location v => simp only [Loop.step, Loop.setLocation] at h ⊢; (repeat' split at h) <;> simp_all
  | orientation v => simp only [Loop.step, Loop.setOrientation] at h ⊢; (repeat' split at h) <;> simp_all

/-- Each dipole assignment is accepted exactly for convertible values within the bound and then stores the converted value
in that attribute alone. -/
theorem electricDipole_assignment (s t : ElectricDipole) (v : Obj) :
    (s.step (.length v) = (t, none) ↔ ∃ x, v.toFloat = .ok x ∧ ¬ x ≤ .fin 0 ∧ t = { s with length := x }) ∧
    (s.step (.current v) = (t, none) ↔ ∃ x, v.toFloat = .ok x ∧ t = { s with current := x }) ∧
    (s.step (.location v) = (t, none) ↔ ∃ w, vec3 v = .ok w ∧ t = { s with location := w }) ∧
    (s.step (.orientation v) = (t, none) ↔ ∃ w, dipoleOrientation v = .ok w ∧ t = { s with orientation := w }) := by
  refine ⟨?_, ?_, ?_, ?_⟩
  · simp only [ElectricDipole.step, ElectricDipole.setLength]
    cases h : floatOrTypeError v with
    | error e =>
      have : ∀ x, v.toFloat ≠ .ok x := fun x hx => by rw [floatOrTypeError_ok.2 hx] at h; cases h
      simp [this]
    | ok x =>
      have hx := floatOrTypeError_ok.1 h
      simp only [hx]
      split <;> rename_i hc
      · simp [hc]
      · simp only [Except.ok.injEq, Prod.mk.injEq, and_true, exists_eq_left', hc, not_false_eq_true, true_and]
        exact eq_comm
  · simp only [ElectricDipole.step, ElectricDipole.setCurrent]
    cases h : floatOrTypeError v with
    | error e =>
      have : ∀ x, v.toFloat ≠ .ok x := fun x hx => by rw [floatOrTypeError_ok.2 hx] at h; cases h
      simp [this]
    | ok x =>
      have hx := floatOrTypeError_ok.1 h
      simp [hx, eq_comm]
  · simp only [ElectricDipole.step, ElectricDipole.setLocation]
    cases h : vec3 v <;> simp [eq_comm]
  · simp only [ElectricDipole.step, ElectricDipole.setOrientation]
    cases h : dipoleOrientation v <;> simp [eq_comm]

/-- Each loop assignment is accepted exactly for convertible values within the bound and then stores the converted value in
that attribute alone. -/
theorem loop_assignment (s t : Loop) (v : Obj) :
    (s.step (.radius v) = (t, none) ↔ ∃ x, v.toFloat = .ok x ∧ ¬ x ≤ .fin 0 ∧ t = { s with radius := x }) ∧
    (s.step (.current v) = (t, none) ↔ ∃ x, v.toFloat = .ok x ∧ t = { s with current := x }) ∧
    (s.step (.location v) = (t, none) ↔ ∃ w, vec3 v = .ok w ∧ t = { s with location := w }) ∧
    (s.step (.orientation v) = (t, none) ↔ ∃ w, dipoleOrientation v = .ok w ∧ t = { s with orientation := w }) := by
  refine ⟨?_, ?_, ?_, ?_⟩
  · simp only [Loop.step, Loop.setRadius]
    cases h : floatOrTypeError v with
    | error e =>
      have : ∀ x, v.toFloat ≠ .ok x := fun x hx => by rw [floatOrTypeError_ok.2 hx] at h; cases h
      simp [this]
    | ok x =>
      have hx := floatOrTypeError_ok.1 h
      simp only [hx]
      split <;> rename_i hc
      · simp [hc]
      · simp only [Except.ok.injEq, Prod.mk.injEq, and_true, exists_eq_left', hc, not_false_eq_true, true_and]
        exact eq_comm
  · simp only [Loop.step, Loop.setCurrent]
    cases h : floatOrTypeError v with
    | error e =>
      have : ∀ x, v.toFloat ≠ .ok x := fun x hx => by rw [floatOrTypeError_ok.2 hx] at h; cases h
      simp [this]
    | ok x =>
      have hx := floatOrTypeError_ok.1 h
      simp [hx, eq_comm]
  · simp only [Loop.step, Loop.setLocation]
    cases h : vec3 v <;> simp [eq_comm]
  · simp only [Loop.step, Loop.setOrientation]
    cases h : dipoleOrientation v <;> simp [eq_comm]

/-- A loop and a dipole that can be constructed, so that the histories above start somewhere. -/
example : (∃ s, Loop.new (.num (.fin 1)) (.num (.fin 2)) (.num (.fin 1)) (.num (.fin 1)) (.num (.fin 1))
      (.seq (.ofList [.fin 0, .fin 0, .fin 0] .nan)) (.str "Z") = .ok s) ∧
    ∃ s, ElectricDipole.new (.num (.fin 1)) (.num (.fin 1)) (.num (.fin 1)) (.num (.fin 2)) (.num (.fin 3))
      (.seq (.ofList [.fin 0, .fin 0, .fin 0] .nan)) (.str "Z") = .ok s := by
  have hz : "Z".toUpper = "Z" := by apply String.toList_injective; simp [String.toUpper, String.toList_map]
  have h1 : ¬ (1 : ℝ) ≤ 0 := by norm_num
  have h2 : ¬ (2 : ℝ) ≤ 0 := by norm_num
  constructor
  · refine ⟨⟨EM.unit, .fin 2, .fin 1, ⟨.fin 0, .fin 0, .fin 0⟩, ⟨.fin 0, .fin 0, .fin 1⟩⟩, ?_⟩
    simp [Loop.new, Loop.setCurrent, Loop.setRadius, Loop.setLocation, Loop.setOrientation, floatOrTypeError,
      Obj.toFloat, SetResult.andThen, em_unit_constructed, vec3, Obj.asFloatArray, NArr.squeeze, NArr.ofList,
      dipoleOrientation, hz, NArr.unsqueezeIndex, h1, h2]
  · refine ⟨⟨EM.unit, .fin 2, .fin 3, ⟨.fin 0, .fin 0, .fin 0⟩, ⟨.fin 0, .fin 0, .fin 1⟩⟩, ?_⟩
    simp [ElectricDipole.new, ElectricDipole.setCurrent, ElectricDipole.setLength, ElectricDipole.setLocation,
      ElectricDipole.setOrientation, floatOrTypeError,
      Obj.toFloat, SetResult.andThen, em_unit_constructed, vec3, Obj.asFloatArray, NArr.squeeze, NArr.ofList,
      dipoleOrientation, hz, NArr.unsqueezeIndex, h1, h2]

end Verif.Setters
