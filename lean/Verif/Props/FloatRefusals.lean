import Verif.Model.SourceState

/-!
# C84: what the setters raise that do not catch what `float` raises

`gravity.Sphere.radius`, `rho`, the radii and properties of spheres in a uniform field, and the amplitude of plane waves.
-/

namespace Verif.Setters

variable [FloatGrammar]

/-- Text that is no number. -/
def NotNumeric : Obj → Prop
  | .str s => FloatGrammar.parse s = Option.none
  | _ => False

/-- Neither a number nor text, and no array with a single entry. -/
def NotScalar : Obj → Prop
  | .ndarray a => a.size ≠ 1
  | .seq _ | .none | .other => True
  | _ => False

theorem toFloat_refusals (v : Obj) :
    (v.toFloat = .error .valueError ↔ NotNumeric v) ∧ (v.toFloat = .error .typeError ↔ NotScalar v) ∧
    ∀ e, v.toFloat = .error e → e = .valueError ∨ e = .typeError := by
  cases v with
  | num x => simp [Obj.toFloat, NotNumeric, NotScalar]
  | str s => cases h : FloatGrammar.parse s <;> simp [Obj.toFloat, NotNumeric, NotScalar, h]
  | ndarray a => by_cases h : a.size = 1 <;> simp [Obj.toFloat, NotNumeric, NotScalar, h]
  | seq a => simp [Obj.toFloat, NotNumeric, NotScalar]
  | none => simp [Obj.toFloat, NotNumeric, NotScalar]
  | other => simp [Obj.toFloat, NotNumeric, NotScalar]

/-- A setter that converts with `float`, refuses the numbers in `bad` with `ValueError`, and lets everything through that `float` raises. -/
theorem refused {σ : Type} {s : σ} {set : PyFloat → σ} {bad : PyFloat → Prop} [DecidablePred bad] {v : Obj} {r : SetResult σ}
    (hr : r = match v.toFloat with
      | .error e => (s, some e)
      | .ok x => if bad x then (s, some .valueError) else (set x, Option.none)) :
    (r.2 = some .valueError ↔ NotNumeric v ∨ ∃ x, v.toFloat = .ok x ∧ bad x) ∧ (r.2 = some .typeError ↔ NotScalar v) := by
  obtain ⟨h1, h2, h3⟩ := toFloat_refusals v
  subst hr
  cases hv : v.toFloat with
  | error e =>
    rw [hv] at h1 h2
    simp only [Except.error.injEq] at h1 h2
    constructor
    · simp [h1]
    · simp [h2]
  | ok x =>
    rw [hv] at h1 h2
    simp only [reduceCtorEq, false_iff] at h1 h2
    dsimp only
    split_ifs with hb
    · simp [h2, hb]
    · simp [h1, h2, hb]

/-- **C84.** The sphere of `gravity.py` refuses text that is no number and negative radii with `ValueError`, everything else that is no number with
`TypeError`. -/
theorem Sphere.float_refusals (s : Sphere) (v : Obj) :
    ((s.setRadius v).2 = some .valueError ↔ NotNumeric v ∨ ∃ x, v.toFloat = .ok x ∧ x < .fin 0) ∧ ((s.setRadius v).2 = some .typeError ↔ NotScalar v) ∧
    ((s.setRho v).2 = some .valueError ↔ NotNumeric v) ∧ ((s.setRho v).2 = some .typeError ↔ NotScalar v) := by
  classical
  obtain ⟨h1, h2⟩ := refused (s := s) (set := fun x => { s with radius := x }) (bad := (· < .fin 0)) (v := v) (r := s.setRadius v) (by
    rw [Sphere.setRadius]; cases v.toFloat with | error e => rfl | ok x => dsimp only)
  obtain ⟨h3, h4⟩ := refused (s := s) (set := fun x => { s with rho := x }) (bad := fun _ => False) (v := v) (r := s.setRho v) (by
    rw [Sphere.setRho]; cases v.toFloat <;> simp)
  exact ⟨h1, h2, by simpa using h3, h4⟩

/-- **C84.** So does the amplitude of a plane wave. -/
theorem PlaneWave.amplitude_refusals (s : PlaneWave) (v : Obj) :
    ((s.step (.amplitude v)).2 = some .valueError ↔ NotNumeric v) ∧ ((s.step (.amplitude v)).2 = some .typeError ↔ NotScalar v) := by
  classical
  obtain ⟨h3, h4⟩ := refused (s := s) (set := fun x => { s with amplitude := x }) (bad := fun _ => False) (v := v) (r := s.step (.amplitude v)) (by
    rw [PlaneWave.step]; cases v.toFloat <;> simp)
  exact ⟨by simpa using h3, h4⟩

/-- Lists are refused with `TypeError`, as is an array of two. -/
example (s : Sphere) (a : NArr PyFloat) : (s.setRadius (.seq a)).2 = some .typeError := (s.float_refusals _).2.1.2 trivial

end Verif.Setters

namespace Verif.SourceState

open Verif.Setters

variable [FloatGrammar]

/-- **C84.** So do the spheres in a uniform field; their properties have to be positive. -/
theorem Sphere.float_refusals (s : Sphere) (v : Obj) :
    ((s.setRadius v).2 = some .valueError ↔ NotNumeric v ∨ ∃ x, v.toFloat = .ok x ∧ x < .fin 0) ∧ ((s.setRadius v).2 = some .typeError ↔ NotScalar v) ∧
    ((s.setInner v).2 = some .valueError ↔ NotNumeric v ∨ ∃ x, v.toFloat = .ok x ∧ x ≤ .fin 0) ∧ ((s.setInner v).2 = some .typeError ↔ NotScalar v) ∧
    ((s.setOuter v).2 = some .valueError ↔ NotNumeric v ∨ ∃ x, v.toFloat = .ok x ∧ x ≤ .fin 0) ∧ ((s.setOuter v).2 = some .typeError ↔ NotScalar v) := by
  classical
  obtain ⟨h1, h2⟩ := refused (s := s) (set := fun x => { s with radius := x }) (bad := (· < .fin 0)) (v := v) (r := s.setRadius v) (by
    rw [Sphere.setRadius]; cases v.toFloat with | error e => rfl | ok x => dsimp only)
  obtain ⟨h3, h4⟩ := refused (s := s) (set := fun x => { s with inner := x }) (bad := (· ≤ .fin 0)) (v := v) (r := s.setInner v) (by
    rw [Sphere.setInner]; cases v.toFloat with | error e => rfl | ok x => dsimp only)
  obtain ⟨h5, h6⟩ := refused (s := s) (set := fun x => { s with outer := x }) (bad := (· ≤ .fin 0)) (v := v) (r := s.setOuter v) (by
    rw [Sphere.setOuter]; cases v.toFloat with | error e => rfl | ok x => dsimp only)
  exact ⟨h1, h2, h3, h4, h5, h6⟩

end Verif.SourceState
