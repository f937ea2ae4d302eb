import Verif.Props.ShapeSetters

/-!
# C54, C65 and the value part of C41: frequencies, times and orientations over every history
-/

namespace Verif.Setters

open Classical PyFloat

variable [FloatGrammar]

/-! ## Normalisation -/

omit [FloatGrammar] in
/-- Normalising a finite non-zero vector gives the unit vector in its direction. -/
theorem normalized_finite (a b c : ℝ) (h : ¬ (a = 0 ∧ b = 0 ∧ c = 0)) :
    ∃ n x y z : ℝ, 0 < n ∧ (⟨.fin a, .fin b, .fin c⟩ : Vec3).normalized = ⟨.fin x, .fin y, .fin z⟩ ∧
      x ^ 2 + y ^ 2 + z ^ 2 = 1 ∧ a = n * x ∧ b = n * y ∧ c = n * z := by
  have hpos : 0 < a * a + b * b + c * c := by
    by_contra hn
    apply h
    refine ⟨?_, ?_, ?_⟩ <;> nlinarith [sq_nonneg a, sq_nonneg b, sq_nonneg c]
  have hn : 0 < Real.sqrt (a * a + b * b + c * c) := Real.sqrt_pos.2 hpos
  have hsq := Real.sq_sqrt hpos.le
  set n := Real.sqrt (a * a + b * b + c * c) with hdef
  refine ⟨n, a / n, b / n, c / n, hn, ?_, ?_, ?_, ?_, ?_⟩
  · simp only [Vec3.normalized, fin_mul_fin, fin_add_fin, PyFloat.sqrt, hpos.not_gt, if_false, ← hdef]
    rw [npDiv_fin hn.ne', npDiv_fin hn.ne', npDiv_fin hn.ne']
  · field_simp
    nlinarith
  all_goals field_simp

omit [FloatGrammar] in
/-- Normalising the zero vector gives NaNs. -/
theorem normalized_zero : (⟨.fin 0, .fin 0, .fin 0⟩ : Vec3).normalized = ⟨.nan, .nan, .nan⟩ := by
  simp [Vec3.normalized, fin_mul_fin, fin_add_fin, PyFloat.sqrt, npDiv]

/-- The stored direction is a unit vector. -/
def Vec3.IsUnit (v : Vec3) : Prop := ∃ x y z : ℝ, v = ⟨.fin x, .fin y, .fin z⟩ ∧ x ^ 2 + y ^ 2 + z ^ 2 = 1

/-- `w` is a positive multiple of `v`, both finite. -/
def Vec3.SameDirection (v w : Vec3) : Prop :=
  ∃ n a b c : ℝ, 0 < n ∧ v = ⟨.fin a, .fin b, .fin c⟩ ∧ w = ⟨.fin (n * a), .fin (n * b), .fin (n * c)⟩

/-! ## C41, value part: dipole orientation -/

/-- What the dipole orientation setter stores: a unit coordinate vector for a recognised name, the unit vector in the same
direction for a finite non-zero triple, and it refuses other strings and other shapes. -/
theorem dipoleOrientation_spec :
    (∀ s : String, s.toUpper = "X" → dipoleOrientation (.str s) = .ok ⟨.fin 1, .fin 0, .fin 0⟩) ∧
    (∀ s : String, s.toUpper = "Y" → dipoleOrientation (.str s) = .ok ⟨.fin 0, .fin 1, .fin 0⟩) ∧
    (∀ s : String, s.toUpper = "Z" → dipoleOrientation (.str s) = .ok ⟨.fin 0, .fin 0, .fin 1⟩) ∧
    (∀ s : String, s.toUpper ≠ "X" → s.toUpper ≠ "Y" → s.toUpper ≠ "Z" →
      dipoleOrientation (.str s) = .error .valueError) ∧
    (∀ v : Obj, (∀ s, v ≠ .str s) → ∀ a b c : ℝ, vec3 v = .ok ⟨.fin a, .fin b, .fin c⟩ → ¬ (a = 0 ∧ b = 0 ∧ c = 0) →
      ∃ w, dipoleOrientation v = .ok w ∧ w.IsUnit ∧ w.SameDirection ⟨.fin a, .fin b, .fin c⟩) ∧
    (∀ v : Obj, (∀ s, v ≠ .str s) → ∀ e, vec3 v = .error e → dipoleOrientation v = .error e) := by
  have hXY : ("X" : String) ≠ "Y" := by decide
  have hXZ : ("X" : String) ≠ "Z" := by decide
  have hYZ : ("Y" : String) ≠ "Z" := by decide
  refine ⟨fun s h => ?_, fun s h => ?_, fun s h => ?_, fun s h1 h2 h3 => ?_, ?_, ?_⟩
  · simp [dipoleOrientation, h]
  · simp [dipoleOrientation, h, hXY.symm]
  · simp [dipoleOrientation, h, hXZ.symm, hYZ.symm]
  · simp [dipoleOrientation, h1, h2, h3]
  · intro v hv a b c h hne
    obtain ⟨n, x, y, z, hn, h1, h2, rfl, rfl, rfl⟩ := normalized_finite a b c hne
    refine ⟨⟨.fin x, .fin y, .fin z⟩, ?_, ⟨x, y, z, rfl, h2⟩, ⟨n, x, y, z, hn, rfl, rfl⟩⟩
    cases v <;> simp_all [dipoleOrientation]
  · intro v hv e h
    cases v <;> simp_all [dipoleOrientation]

/-- An orientation argument that the documentation allows: a recognised name or a finite non-zero triple. -/
def GoodDipoleOrientation (v : Obj) : Prop :=
  (∃ s, v = .str s) ∨ ∀ w, vec3 v = .ok w → ∃ a b c : ℝ, w = ⟨.fin a, .fin b, .fin c⟩ ∧ ¬ (a = 0 ∧ b = 0 ∧ c = 0)

theorem dipoleOrientation_unit {v : Obj} (hv : GoodDipoleOrientation v) {w : Vec3} (h : dipoleOrientation v = .ok w) :
    w.IsUnit := by
  obtain ⟨hX, hY, hZ, hO, hV, hE⟩ := dipoleOrientation_spec
  by_cases hs : ∃ s, v = .str s
  · obtain ⟨s, rfl⟩ := hs
    by_cases h1 : s.toUpper = "X"
    · rw [hX s h1] at h
      simp only [Except.ok.injEq] at h
      exact ⟨1, 0, 0, h.symm, by norm_num⟩
    · by_cases h2 : s.toUpper = "Y"
      · rw [hY s h2] at h
        simp only [Except.ok.injEq] at h
        exact ⟨0, 1, 0, h.symm, by norm_num⟩
      · by_cases h3 : s.toUpper = "Z"
        · rw [hZ s h3] at h
          simp only [Except.ok.injEq] at h
          exact ⟨0, 0, 1, h.symm, by norm_num⟩
        · rw [hO s h1 h2 h3] at h
          simp at h
  · have hs' : ∀ s, v ≠ .str s := fun s hs'' => hs ⟨s, hs''⟩
    cases hvec : vec3 v with
    | error e => rw [hE v hs' e hvec] at h; simp at h
    | ok u =>
      obtain ⟨a, b, c, rfl, hne⟩ := (hv.resolve_left hs) u hvec
      obtain ⟨w', h1, h2, _⟩ := hV v hs' a b c hvec hne
      rw [h1] at h
      simp only [Except.ok.injEq] at h
      exact h ▸ h2

/-- After a construction and a history whose orientation arguments are names or finite non-zero triples, with rejected
assignments allowed, the orientation of a dipole is a unit vector.  Missing from the full statement: zero and non-finite
triples (`dipole_orientation_zero`) and sharing with the caller's arrays (`Verif.Props.Aliasing`). -/
theorem dipole_orientation_unit_history_partial {a b c d e f g : Obj} {s : ElectricDipole}
    (h : ElectricDipole.new a b c d e f g = .ok s) (hg : GoodDipoleOrientation g) (ops : List ElectricDipole.Op)
    (ho : ∀ v, .orientation v ∈ ops → GoodDipoleOrientation v) : (runOps ElectricDipole.step s ops).orientation.IsUnit := by
  have h0 : s.orientation.IsUnit := by
    unfold ElectricDipole.new at h
    split at h
    · simp at h
    · simp only [SetResult.andThen, ElectricDipole.setLength, ElectricDipole.setCurrent, ElectricDipole.setLocation,
        ElectricDipole.setOrientation] at h
      cases hd : floatOrTypeError d with
      | error e => simp [hd] at h
      | ok x =>
        by_cases hx : x ≤ .fin 0
        · simp [hd, hx] at h
        · cases he : floatOrTypeError e with
          | error e' => simp [hd, hx, he] at h
          | ok y =>
            cases hf : vec3 f with
            | error e' => simp [hd, hx, he, hf] at h
            | ok l =>
              cases hg' : dipoleOrientation g with
              | error e' => simp [hd, hx, he, hf, hg'] at h
              | ok w =>
                simp [hd, hx, he, hf, hg'] at h
                subst h
                exact dipoleOrientation_unit hg hg'
  clear h hg
  induction ops generalizing s with
  | nil => exact h0
  | cons o ops ih =>
    refine ih (fun v hv => ho v (List.mem_cons_of_mem _ hv)) ?_
    cases o with
    | em o => exact h0
    | length v => simp only [ElectricDipole.step, ElectricDipole.setLength]; (repeat' split) <;> exact h0
    | current v => simp only [ElectricDipole.step, ElectricDipole.setCurrent]; split <;> exact h0
    | location v => simp only [ElectricDipole.step, ElectricDipole.setLocation]; split <;> exact h0
    | orientation v =>
      simp only [ElectricDipole.step, ElectricDipole.setOrientation]
      split
      · exact h0
      · rename_i w hw
        exact dipoleOrientation_unit (ho v List.mem_cons_self) hw

/-- **C41 fails for a zero vector**: it is accepted and the orientation becomes NaN. -/
theorem dipole_orientation_zero (s : ElectricDipole) :
    s.step (.orientation (triple 0 0 0)) = ({ s with orientation := ⟨.nan, .nan, .nan⟩ }, none) ∧
      ¬ (⟨.nan, .nan, .nan⟩ : Vec3).IsUnit := by
  constructor
  · simp only [ElectricDipole.step, ElectricDipole.setOrientation, dipoleOrientation, triple]
    have := vec3_triple 0 0 0
    simp only [triple] at this
    rw [this]
    simp only [normalized_zero]
  · rintro ⟨x, y, z, h, _⟩
    simp at h

example : GoodDipoleOrientation (triple 3 0 4) :=
  Or.inr fun w hw => ⟨3, 0, 4, by simpa using hw.symm, by norm_num⟩

/-! ## C54: frequencies and times -/

/-- Every entry, if a number, is at least zero, and there is at most one axis. -/
def SamplesNonneg (a : NArr PyFloat) : Prop :=
  (∀ i, InShape a.shape i → a.get i = .nan ∨ .fin 0 ≤ a.get i) ∧ a.ndim ≤ 1

/-- What the English property asks for. -/
def SamplesPositive (a : NArr PyFloat) : Prop := (∀ i, InShape a.shape i → .fin 0 < a.get i) ∧ a.ndim ≤ 1

/-- The setter accepts exactly the convertible arrays with no negative entry and at most one axis, and stores them
unchanged; a conversion failure or too many axes is a `TypeError`, a negative entry a `ValueError`. -/
theorem sampleArray_spec (v : Obj) :
    (∀ a, sampleArray v = .ok a ↔ v.asFloatArray = .ok a ∧ (∀ i, InShape a.shape i → ¬ a.get i < .fin 0) ∧ a.ndim ≤ 1) ∧
    (∀ e, v.asFloatArray = .error e → sampleArray v = .error .typeError) ∧
    (∀ a, v.asFloatArray = .ok a → (∃ i, InShape a.shape i ∧ a.get i < .fin 0) → sampleArray v = .error .valueError) ∧
    (∀ a, v.asFloatArray = .ok a → (∀ i, InShape a.shape i → ¬ a.get i < .fin 0) → 1 < a.ndim →
      sampleArray v = .error .typeError) := by
  refine ⟨fun a => ?_, fun e h => by simp [sampleArray, h], fun a h hi => by simp [sampleArray, h, hi],
    fun a h hi hd => ?_⟩
  · unfold sampleArray
    cases h : v.asFloatArray with
    | error e => simp
    | ok b =>
      simp only
      split
      · rename_i hb
        obtain ⟨i, h1, h2⟩ := hb
        simp only [reduceCtorEq, Except.ok.injEq, false_iff, not_and]
        rintro rfl hn
        exact absurd h2 (hn i h1)
      · rename_i hb
        push Not at hb
        split
        · rename_i hd
          simp only [reduceCtorEq, Except.ok.injEq, false_iff, not_and]
          rintro rfl _
          omega
        · rename_i hd
          simp only [Except.ok.injEq]
          constructor
          · rintro rfl
            exact ⟨rfl, hb, by omega⟩
          · rintro ⟨rfl, _⟩
            rfl
  · have : ¬ ∃ i, InShape a.shape i ∧ a.get i < .fin 0 := fun ⟨i, h1, h2⟩ => hi i h1 h2
    simp [sampleArray, h, this, hd]

theorem sampleArray_nonneg {v : Obj} {a : NArr PyFloat} (h : sampleArray v = .ok a) : SamplesNonneg a := by
  obtain ⟨_, h1, h2⟩ := ((sampleArray_spec v).1 a).1 h
  refine ⟨fun i hi => ?_, h2⟩
  rcases not_lt_iff.1 (h1 i hi) with h | h | h <;> simp_all

/-- After every construction and history the stored frequencies (times) form a scalar or a list of values at least zero or
NaN.  Missing from the full statement: zero and NaN are accepted (`samples_zero_nan_accepted`). -/
theorem samples_history_partial {a b c d e f : Obj} {s : PlaneWave} (h : PlaneWave.new a b c d e f = .ok s)
    (ops : List PlaneWave.Op) : SamplesNonneg (runOps PlaneWave.step s ops).samples := by
  refine runOps_invariant (I := fun s : PlaneWave => SamplesNonneg s.samples) ?_ s ?_ ops
  · intro s o hs
    cases o with
    | em o => exact hs
    | samples v =>
      simp only [PlaneWave.step]
      split
      · exact hs
      · rename_i w hw
        exact sampleArray_nonneg hw
    | amplitude v => simp only [PlaneWave.step]; split <;> exact hs
    | orientation v => simp only [PlaneWave.step]; split <;> exact hs
  · unfold PlaneWave.new at h
    (repeat' split at h) <;> simp at h
    rename_i w hw _ _ _
    subst h
    exact sampleArray_nonneg hw

/-- A rejected assignment to a plane wave changes nothing. -/
theorem planeWave_rejected_unchanged (s : PlaneWave) (o : PlaneWave.Op) (e : PyErr) (h : (s.step o).2 = some e) :
    (s.step o).1 = s := by
  cases o with
  | em o => simp only [PlaneWave.step] at h ⊢; rw [em_rejected_unchanged _ _ _ h]
  | samples v => simp only [PlaneWave.step] at h ⊢; (repeat' split at h) <;> simp_all
  | amplitude v => simp only [PlaneWave.step] at h ⊢; (repeat' split at h) <;> simp_all
  | orientation v => simp only [PlaneWave.step] at h ⊢; (repeat' split at h) <;> simp_all

/-- An accepted assignment stores the converted value in that attribute alone. -/
theorem planeWave_assignment (s t : PlaneWave) (v : Obj) :
    (s.step (.samples v) = (t, none) ↔ ∃ a, sampleArray v = .ok a ∧ t = { s with samples := a }) ∧
    (s.step (.amplitude v) = (t, none) ↔ ∃ x, v.toFloat = .ok x ∧ t = { s with amplitude := x }) ∧
    (s.step (.orientation v) = (t, none) ↔ ∃ o, planeOrientation v = .ok o ∧ t = { s with orientation := o }) := by
  refine ⟨?_, ?_, ?_⟩ <;> simp only [PlaneWave.step]
  · cases h : sampleArray v <;> simp [eq_comm]
  · cases h : v.toFloat <;> simp [eq_comm]
  · cases h : planeOrientation v <;> simp [eq_comm]

/-- **C54 fails for zero, NaN and `None`**: each is accepted, although the message says that all must be greater than
zero. -/
theorem samples_zero_nan_accepted :
    (∃ a, sampleArray (.num (.fin 0)) = .ok a ∧ ¬ SamplesPositive a) ∧
    (∃ a, sampleArray (.num .nan) = .ok a ∧ ¬ SamplesPositive a) ∧
    (∃ a, sampleArray .none = .ok a ∧ ¬ SamplesPositive a) := by
  have hin : InShape [] [] := List.Forall₂.nil
  refine ⟨⟨⟨[], fun _ => .fin 0⟩, ?_, ?_⟩, ⟨⟨[], fun _ => .nan⟩, ?_, ?_⟩, ⟨⟨[], fun _ => .nan⟩, ?_, ?_⟩⟩
  · rw [(sampleArray_spec _).1]; exact ⟨rfl, fun i _ => by simp, by simp [NArr.ndim]⟩
  · intro h; have := h.1 [] hin; simp at this
  · rw [(sampleArray_spec _).1]; exact ⟨rfl, fun i _ => by simp, by simp [NArr.ndim]⟩
  · intro h; have := h.1 [] hin; simp at this
  · rw [(sampleArray_spec _).1]; exact ⟨rfl, fun i _ => by simp, by simp [NArr.ndim]⟩
  · intro h; have := h.1 [] hin; simp at this

/-! ## C65: plane-wave orientation -/

/-- A horizontal unit vector. -/
def PlaneOrientation.Horizontal : PlaneOrientation → Prop
  | .vec v => v.IsUnit ∧ v.z = .fin 0
  | .text _ => False

/-- What the plane-wave orientation setter stores: a coordinate vector for `x`/`y`, the unit vector in the same direction for
a finite non-zero horizontal triple; it refuses other shapes and every triple with a vertical component; **any other
string is stored as it is**. -/
theorem planeOrientation_spec :
    (∀ s : String, s.toUpper = "X" → planeOrientation (.str s) = .ok (.vec ⟨.fin 1, .fin 0, .fin 0⟩)) ∧
    (∀ s : String, s.toUpper = "Y" → planeOrientation (.str s) = .ok (.vec ⟨.fin 0, .fin 1, .fin 0⟩)) ∧
    (∀ s : String, s.toUpper ≠ "X" → s.toUpper ≠ "Y" → planeOrientation (.str s) = .ok (.text s)) ∧
    (∀ v : Obj, (∀ s, v ≠ .str s) → ∀ a b : ℝ, vec3 v = .ok ⟨.fin a, .fin b, .fin 0⟩ → ¬ (a = 0 ∧ b = 0) →
      ∃ w, planeOrientation v = .ok (.vec w) ∧ w.IsUnit ∧ w.z = .fin 0 ∧ w.SameDirection ⟨.fin a, .fin b, .fin 0⟩) ∧
    (∀ v : Obj, (∀ s, v ≠ .str s) → ∀ w, vec3 v = .ok w → w.z ≠ .fin 0 → planeOrientation v = .error .valueError) ∧
    (∀ v : Obj, (∀ s, v ≠ .str s) → ∀ e, vec3 v = .error e → planeOrientation v = .error e) := by
  have hXY : ("X" : String) ≠ "Y" := by decide
  refine ⟨fun s h => ?_, fun s h => ?_, fun s h1 h2 => ?_, ?_, ?_, ?_⟩
  · simp [planeOrientation, h]
  · simp [planeOrientation, h, hXY.symm]
  · simp [planeOrientation, h1, h2]
  · intro v hv a b h hne
    obtain ⟨n, x, y, z, hn, h1, h2, rfl, rfl, hz⟩ := normalized_finite a b 0 (fun hh => hne ⟨hh.1, hh.2.1⟩)
    have hz0 : z = 0 := by
      rcases mul_eq_zero.1 hz.symm with h | h
      · exact absurd h hn.ne'
      · exact h
    subst hz0
    refine ⟨⟨.fin x, .fin y, .fin 0⟩, ?_, ⟨x, y, 0, rfl, h2⟩, rfl, ⟨n, x, y, 0, hn, rfl, by rw [mul_zero]⟩⟩
    cases v with
    | str s => exact absurd rfl (hv s)
    | _ => simp only [planeOrientation, h, ne_eq, not_true_eq_false, if_false, h1]
  · intro v hv w h hz
    cases v <;> simp_all [planeOrientation]
  · intro v hv e h
    cases v <;> simp_all [planeOrientation]

/-- An orientation argument that the documentation allows: `x` or `y`, or an array that, if it has three components, is
finite and not vertical. -/
def GoodPlaneOrientation (v : Obj) : Prop :=
  (∃ s, v = .str s ∧ (s.toUpper = "X" ∨ s.toUpper = "Y")) ∨
    ((∀ s, v ≠ .str s) ∧ ∀ w, vec3 v = .ok w → ∃ a b c : ℝ, w = ⟨.fin a, .fin b, .fin c⟩ ∧ ¬ (a = 0 ∧ b = 0))

theorem planeOrientation_horizontal {v : Obj} (hv : GoodPlaneOrientation v) {o : PlaneOrientation}
    (h : planeOrientation v = .ok o) : o.Horizontal := by
  obtain ⟨hX, hY, _, hV, hZ, hE⟩ := planeOrientation_spec
  rcases hv with ⟨s, rfl, h1 | h1⟩ | ⟨hs, hv⟩
  · rw [hX s h1] at h
    simp only [Except.ok.injEq] at h
    subst h
    exact ⟨⟨1, 0, 0, rfl, by norm_num⟩, rfl⟩
  · rw [hY s h1] at h
    simp only [Except.ok.injEq] at h
    subst h
    exact ⟨⟨0, 1, 0, rfl, by norm_num⟩, rfl⟩
  · cases hvec : vec3 v with
    | error e => rw [hE v hs e hvec] at h; simp at h
    | ok w =>
      obtain ⟨a, b, c, rfl, hne⟩ := hv w hvec
      by_cases hc : c = 0
      · subst hc
        obtain ⟨w, h1, h2, h3, _⟩ := hV v hs a b hvec hne
        rw [h1] at h
        simp only [Except.ok.injEq] at h
        subst h
        exact ⟨h2, h3⟩
      · rw [hZ v hs _ hvec (by simpa using hc)] at h
        simp at h

/-- After a construction and a history whose orientation arguments are `x`, `y`, or arrays that are not finite vertical
triples, rejected ones included, the orientation is a horizontal unit vector. Missing from the full statement: other
strings, zero vectors and non-finite ones, which are accepted (`planeOrientation_text_accepted`,
`planeOrientation_zero_accepted`). -/
theorem planeWave_orientation_history_partial {a b c d e f : Obj} {s : PlaneWave}
    (h : PlaneWave.new a b c d e f = .ok s) (hb : GoodPlaneOrientation b) (ops : List PlaneWave.Op)
    (ho : ∀ v, .orientation v ∈ ops → GoodPlaneOrientation v) :
    (runOps PlaneWave.step s ops).orientation.Horizontal := by
  have h0 : s.orientation.Horizontal := by
    unfold PlaneWave.new at h
    (repeat' split at h) <;> simp at h
    rename_i o hw _ _ _ _ _
    subst h
    exact planeOrientation_horizontal hb (by assumption)
  clear h
  induction ops generalizing s with
  | nil => exact h0
  | cons o ops ih =>
    refine ih (fun v hv => ho v (List.mem_cons_of_mem _ hv)) ?_
    cases o with
    | em o => exact h0
    | samples v => simp only [PlaneWave.step]; split <;> exact h0
    | amplitude v => simp only [PlaneWave.step]; split <;> exact h0
    | orientation v =>
      simp only [PlaneWave.step]
      split
      · exact h0
      · rename_i w hw
        exact planeOrientation_horizontal (ho v List.mem_cons_self) hw

/-- **C65 fails for unrecognised strings**: `'Z'`, for one, is accepted and the orientation is then a piece of text. -/
theorem planeOrientation_text_accepted (s : PlaneWave) :
    s.step (.orientation (.str "Z")) = ({ s with orientation := .text "Z" }, none) ∧
      ¬ (PlaneOrientation.text "Z").Horizontal := by
  have hz : "Z".toUpper = "Z" := by apply String.toList_injective; simp [String.toUpper, String.toList_map]
  have hzx : ("Z" : String) ≠ "X" := by decide
  have hzy : ("Z" : String) ≠ "Y" := by decide
  constructor
  · simp [PlaneWave.step, planeOrientation, hz]
  · exact id

/-- **C65 fails for the zero vector**: it is accepted and the orientation becomes NaN. -/
theorem planeOrientation_zero_accepted :
    planeOrientation (triple 0 0 0) = .ok (.vec ⟨.nan, .nan, .nan⟩) ∧
      ¬ (PlaneOrientation.vec ⟨.nan, .nan, .nan⟩).Horizontal := by
  constructor
  · have := vec3_triple 0 0 0
    simp only [triple] at this ⊢
    simp [planeOrientation, this, normalized_zero]
  · rintro ⟨⟨x, y, z, h, _⟩, _⟩
    simp at h

/-- A plane wave that can be constructed, and good arguments of both kinds. -/
example : (∃ s, PlaneWave.new (.num (.fin 1)) (.str "X") (.num (.fin 10)) (.num (.fin 1)) (.num (.fin 1))
      (.num (.fin 1)) = .ok s) ∧ GoodPlaneOrientation (.str "X") ∧ GoodPlaneOrientation (triple 3 4 0) := by
  have hx : "X".toUpper = "X" := by apply String.toList_injective; simp [String.toUpper, String.toList_map]
  have hsam : sampleArray (.num (.fin 10)) = .ok ⟨[], fun _ => .fin 10⟩ := by
    rw [(sampleArray_spec _).1]
    exact ⟨rfl, fun i _ => by simp, by simp [NArr.ndim]⟩
  refine ⟨⟨⟨EM.unit, ⟨[], fun _ => .fin 10⟩, .fin 1, .vec ⟨.fin 1, .fin 0, .fin 0⟩⟩, ?_⟩, Or.inl ⟨"X", rfl, Or.inl hx⟩,
    Or.inr ⟨fun s => by simp [triple], fun w hw => ⟨3, 4, 0, by simpa using hw.symm, by norm_num⟩⟩⟩
  simp only [PlaneWave.new, Obj.toFloat, planeOrientation_spec.1 "X" hx, hsam, em_unit_constructed]

end Verif.Setters
