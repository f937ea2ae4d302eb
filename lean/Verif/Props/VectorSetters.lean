import Verif.Model.Setters
import Mathlib.Data.List.Basic

/-!
# C40, C41, C17, C23: which objects are accepted as a location, a corner or an orientation

Three numbers, in an array of any rank whose other axes have length one.
-/

namespace Verif.Setters

open Classical PyFloat

variable [FloatGrammar]

/-- The array has three entries, along one axis, all other axes having length one; `w` holds them in order. -/
def HoldsThree (a : NArr PyFloat) (w : Vec3) : Prop :=
  ∃ p q : ℕ, a.shape = List.replicate p 1 ++ 3 :: List.replicate q 1 ∧
    w.x = a.get (List.replicate p 0 ++ 0 :: List.replicate q 0) ∧
    w.y = a.get (List.replicate p 0 ++ 1 :: List.replicate q 0) ∧
    w.z = a.get (List.replicate p 0 ++ 2 :: List.replicate q 0)

theorem filter_eq_singleton (l : List ℕ) :
    l.filter (· ≠ 1) = [3] ↔ ∃ p q : ℕ, l = List.replicate p 1 ++ 3 :: List.replicate q 1 := by
  constructor
  · induction l with
    | nil => simp
    | cons n l ih =>
      intro h
      by_cases hn : n = 1
      · subst hn
        obtain ⟨p, q, rfl⟩ := ih (by simpa using h)
        exact ⟨p + 1, q, by simp [List.replicate_succ]⟩
      · rw [List.filter_cons_of_pos (by simpa using hn)] at h
        obtain ⟨rfl, h'⟩ := List.cons.inj h
        refine ⟨0, l.length, ?_⟩
        rw [List.replicate_zero, List.nil_append]
        congr 1
        refine List.eq_replicate_iff.2 ⟨rfl, fun b hb => ?_⟩
        by_contra hb1
        have : b ∈ l.filter (· ≠ 1) := List.mem_filter.2 ⟨hb, by simpa using hb1⟩
        rw [h'] at this
        simp at this
  · rintro ⟨p, q, rfl⟩
    simp [List.filter_append, List.filter_replicate]

theorem unsqueeze_ones (q : ℕ) : NArr.unsqueezeIndex (List.replicate q 1) [] = List.replicate q 0 := by
  induction q with
  | zero => rfl
  | succ q ih => simp [List.replicate_succ, NArr.unsqueezeIndex, ih]

theorem unsqueeze_three (p q k : ℕ) :
    NArr.unsqueezeIndex (List.replicate p 1 ++ 3 :: List.replicate q 1) [k] = List.replicate p 0 ++ k :: List.replicate q 0 := by
  induction p with
  | zero => simp [NArr.unsqueezeIndex, unsqueeze_ones]
  | succ p ih => simp [List.replicate_succ, NArr.unsqueezeIndex, ih]

/-- **C40.** A vector is accepted exactly when it converts to an array that holds three numbers, and those are stored; what does not
convert is a `TypeError`, a wrong shape a `ValueError`. -/
theorem vec3_spec (v : Obj) :
    (∀ w, vec3 v = .ok w ↔ ∃ a, v.asFloatArray = .ok a ∧ HoldsThree a w) ∧
    (vec3 v = .error .typeError ↔ ∃ e, v.asFloatArray = .error e) ∧
    (vec3 v = .error .valueError ↔ ∃ a, v.asFloatArray = .ok a ∧ ∀ w, ¬ HoldsThree a w) := by
  unfold vec3
  cases h : v.asFloatArray with
  | error e => simp
  | ok a =>
    by_cases hs : a.squeeze.shape = [3]
    · obtain ⟨p, q, hpq⟩ := (filter_eq_singleton a.shape).1 hs
      have hg : ∀ k, a.squeeze.get [k] = a.get (List.replicate p 0 ++ k :: List.replicate q 0) := fun k => by
        simp only [NArr.squeeze, hpq, unsqueeze_three]
      have hold : HoldsThree a ⟨a.squeeze.get [0], a.squeeze.get [1], a.squeeze.get [2]⟩ := ⟨p, q, hpq, hg 0, hg 1, hg 2⟩
      have huniq : ∀ w, HoldsThree a w → w = ⟨a.squeeze.get [0], a.squeeze.get [1], a.squeeze.get [2]⟩ := by
        rintro ⟨x, y, z⟩ ⟨p', q', hpq', hx, hy, hz⟩
        have hg' : ∀ k, a.squeeze.get [k] = a.get (List.replicate p' 0 ++ k :: List.replicate q' 0) := fun k => by
          simp only [NArr.squeeze, hpq', unsqueeze_three]
        simp only at hx hy hz
        rw [hg' 0, hg' 1, hg' 2, ← hx, ← hy, ← hz]
      simp only [ne_eq, hs, not_true_eq_false, if_false, reduceCtorEq, Except.ok.injEq, false_iff, not_exists, not_and, exists_eq_left',
        exists_const, IsEmpty.forall_iff, not_forall, not_not]
      refine ⟨fun w => ⟨fun h => h ▸ hold, fun h => (huniq w h).symm⟩, fun e h => by simp at h, ⟨_, hold⟩⟩
    · have hno : ∀ w, ¬ HoldsThree a w := fun w ⟨p, q, hpq, _⟩ => hs ((filter_eq_singleton a.shape).2 ⟨p, q, hpq⟩)
      simp [hs, hno]

/-- Three numbers in a list, in a row or in a column are accepted; two are not. -/
example (x y z : ℝ) :
    vec3 (.seq ⟨[3], fun i => .fin ([x, y, z].getD (i.headD 0) 0)⟩) = .ok ⟨.fin x, .fin y, .fin z⟩ ∧
    vec3 (.ndarray ⟨[1, 3], fun i => .fin ([x, y, z].getD (i.getD 1 0) 0)⟩) = .ok ⟨.fin x, .fin y, .fin z⟩ ∧
    vec3 (.ndarray ⟨[3, 1], fun i => .fin ([x, y, z].getD (i.getD 0 0) 0)⟩) = .ok ⟨.fin x, .fin y, .fin z⟩ ∧
    vec3 (.ndarray ⟨[2], fun _ => .fin x⟩) = .error .valueError := by
  refine ⟨((vec3_spec _).1 _).2 ⟨_, rfl, 0, 0, rfl, rfl, rfl, rfl⟩, ((vec3_spec _).1 _).2 ⟨_, rfl, 1, 0, rfl, rfl, rfl, rfl⟩,
    ((vec3_spec _).1 _).2 ⟨_, rfl, 0, 1, rfl, rfl, rfl, rfl⟩, (vec3_spec _).2.2.2 ⟨_, rfl, fun w ⟨p, q, h, _⟩ => ?_⟩⟩
  have : 3 ∈ ([2] : List ℕ) := by
    simp only at h
    rw [h]
    simp
  simp at this

end Verif.Setters
