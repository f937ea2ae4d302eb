import Verif.Model.DipoleGeometry
import Verif.Spec.Rows

/-!
# Property C97: the geometric helpers of dipoles and loops act on each vector of an array
-/

namespace Verif.Dipole

open Spatial

variable {s : Source} {a : NArr ℝ} {sh : List ℕ}

theorem bcast_three (sh : List ℕ) : NArr.bcastShape (sh ++ [3]) [3] = .ok (sh ++ [3]) := by
  have h : ∀ l : List ℕ, NArr.bcastRev l [] = some l := by intro l; cases l <;> rfl
  simp [NArr.bcastShape, NArr.bcastRev, h]

theorem bcast_one (sh : List ℕ) : NArr.bcastShape (sh ++ [1]) [3] = .ok (sh ++ [3]) := by
  have h : ∀ l : List ℕ, NArr.bcastRev l [] = some l := by intro l; cases l <;> rfl
  simp [NArr.bcastShape, NArr.bcastRev, h]

theorem bcastIndexRev_self : ∀ {sh i : List ℕ}, InShape sh i → NArr.bcastIndexRev sh i = i
  | _, _, .nil => rfl
  | n :: sh, k :: i, .cons h t => by
    rw [NArr.bcastIndexRev, bcastIndexRev_self t]
    split_ifs with h1
    · subst h1
      rw [Nat.lt_one_iff.1 h]
    · rfl

theorem inShape_reverse {sh i : List ℕ} (h : InShape sh i) : InShape sh.reverse i.reverse := List.rel_reverse h

theorem inShape_append {sh i : List ℕ} (h : InShape sh i) {k n : ℕ} (hk : k < n) : InShape (sh ++ [n]) (i ++ [k]) :=
  List.rel_append h (.cons hk .nil)

/-- **C97.** `vector_distance` subtracts the location from each vector. -/
theorem vectorDistance_rows (h : a.shape = sh ++ [3]) : ∃ r, vectorDistance s a = .ok r ∧ r.shape = sh ++ [3] ∧
    ∀ i, InShape sh i → vecAt r i = vecAt a i - s.location := by
  refine ⟨_, by simp only [vectorDistance, NArr.zipWith, arr3, NArr.ofList, h]; rw [show [s.location.x, s.location.y, s.location.z].length = 3 from rfl, bcast_three]; rfl, rfl, ?_⟩
  intro i hi
  have key : ∀ k, k < 3 → (a.broadcastTo (sh ++ [3])).get (i ++ [k]) = a.get (i ++ [k]) := by
    intro k hk
    simp only [NArr.broadcastTo, h]
    rw [bcastIndexRev_self (inShape_reverse (inShape_append hi hk)), List.reverse_reverse]
  ext
  · simp only [vecAt, key 0 (by norm_num), V3.sub_x]
    simp [NArr.broadcastTo, NArr.bcastIndexRev]
  · simp only [vecAt, key 1 (by norm_num), V3.sub_y]
    simp [NArr.broadcastTo, NArr.bcastIndexRev]
  · simp only [vecAt, key 2 (by norm_num), V3.sub_z]
    simp [NArr.broadcastTo, NArr.bcastIndexRev]

/-- `distance` is the length of that difference. -/
theorem distance_rows (h : a.shape = sh ++ [3]) : ∃ r, distance s a = .ok r ∧ r.shape = sh ∧
    ∀ i, InShape sh i → r.get i = (vecAt a i - s.location).len := by
  obtain ⟨r, hr, hsh, hv⟩ := vectorDistance_rows (s := s) h
  refine ⟨normLast r, by simp only [distance, hr]; rfl, by simp [normLast, hsh], ?_⟩
  intro i hi
  rw [← hv i hi]
  simp only [normLast, hsh, List.getLastD_concat, V3.len, vecAt]
  congr 1
  simp [List.range_succ]
  ring

/-- `dot_orientation` is the scalar product of each vector with the orientation. -/
theorem dotOrientation_rows (h : a.shape = sh ++ [3]) : ∃ r, dotOrientation s a = .ok r ∧ r.shape = sh ∧
    ∀ i, r.get i = (vecAt a i).dot s.orientation := by
  refine ⟨_, by simp only [dotOrientation, h, List.getLast?_concat]; rfl, by simp, ?_⟩
  intro i
  simp [List.range_succ, arr3, NArr.ofList, V3.dot, vecAt]
  ring

/-- `cross_orientation` is the vector product of each vector with the orientation, in this order. -/
theorem crossOrientation_rows (h : a.shape = sh ++ [3]) : ∃ r, crossOrientation s a = .ok r ∧ r.shape = sh ++ [3] ∧
    ∀ i, vecAt r i = (vecAt a i).cross s.orientation := by
  refine ⟨_, by simp only [crossOrientation, h, List.getLast?_concat]; rfl, by simp, ?_⟩
  intro i
  ext <;> simp [vecAt]

/-- For the unit vector that the setter stores, the distance of a point from the axis through the source and its distance along the axis
make up its distance from the source. -/
theorem pythagoras (h : a.shape = sh ++ [3]) (hu : s.orientation.len = 1) : ∃ v d p c, vectorDistance s a = .ok v ∧ distance s a = .ok d ∧
    dotOrientation s v = .ok p ∧ crossOrientation s v = .ok c ∧
    ∀ i, InShape sh i → d.get i ^ 2 = p.get i ^ 2 + (vecAt c i).len ^ 2 := by
  obtain ⟨v, hv, hvs, hvv⟩ := vectorDistance_rows (s := s) h
  obtain ⟨d, hd, hds, hdv⟩ := distance_rows (s := s) h
  obtain ⟨p, hp, hps, hpv⟩ := dotOrientation_rows (s := s) hvs
  obtain ⟨c, hc, hcs, hcv⟩ := crossOrientation_rows (s := s) hvs
  refine ⟨v, d, p, c, hv, hd, hp, hc, fun i hi => ?_⟩
  rw [hdv i hi, hpv i, hcv i, hvv i hi]
  have ho := V3.len_sq s.orientation
  rw [hu] at ho
  rw [V3.len_sq, V3.len_sq]
  simp only [V3.dot, V3.cross]
  generalize vecAt a i - s.location = w
  grind

/-- The distance is zero only at the source. -/
theorem distance_zero_iff (h : a.shape = sh ++ [3]) {r : NArr ℝ} (hr : distance s a = .ok r) {i : List ℕ} (hi : InShape sh i) :
    r.get i = 0 ↔ vecAt a i = s.location := by
  obtain ⟨r', hr', _, hv⟩ := distance_rows (s := s) h
  rw [hr] at hr'
  cases hr'
  rw [hv i hi, V3.len_eq_zero, sub_eq_zero]

/-- The shapes that `vector_distance` refuses: those with a last axis of a length other than three and one. -/
theorem vectorDistance_refuses_iff : (∃ e, vectorDistance s a = .error e) ↔ ∃ n, a.shape.getLast? = some n ∧ n ≠ 3 ∧ n ≠ 1 := by
  have h3 : (arr3 s.location).shape = [3] := rfl
  have hb : ∀ l : List ℕ, NArr.bcastRev l [] = some l := by intro l; cases l <;> rfl
  rcases List.eq_nil_or_concat a.shape with h | ⟨sh, n, h⟩
  · simp [vectorDistance, NArr.zipWith, h3, h, NArr.bcastShape, NArr.bcastRev, bind, Except.bind, pure, Except.pure]
  · rw [List.concat_eq_append] at h
    simp only [vectorDistance, NArr.zipWith, h3, h, NArr.bcastShape, NArr.bcastRev, List.reverse_append, List.reverse_cons, List.reverse_nil,
      List.nil_append, List.cons_append, hb]
    by_cases h1 : n = 3
    · simp [h1, bind, Except.bind, pure, Except.pure]
    · by_cases h2 : n = 1
      · simp [h2, bind, Except.bind, pure, Except.pure]
      · simp [h1, h2, bind, Except.bind]

/-- A last axis of length one is accepted: its entry stands for all three coordinates. -/
theorem vectorDistance_one_wide (h : a.shape = sh ++ [1]) : ∃ r, vectorDistance s a = .ok r ∧ r.shape = sh ++ [3] ∧
    ∀ i, InShape sh i → vecAt r i = (⟨a.get (i ++ [0]), a.get (i ++ [0]), a.get (i ++ [0])⟩ : V3 ℝ) - s.location := by
  refine ⟨_, by simp only [vectorDistance, NArr.zipWith, arr3, NArr.ofList, h]; rw [show [s.location.x, s.location.y, s.location.z].length = 3 from rfl, bcast_one]; rfl, rfl, ?_⟩
  intro i hi
  have key : ∀ k, (a.broadcastTo (sh ++ [3])).get (i ++ [k]) = a.get (i ++ [0]) := by
    intro k
    simp only [NArr.broadcastTo, h, List.reverse_append, List.reverse_cons, List.reverse_nil, List.nil_append, List.cons_append,
      NArr.bcastIndexRev, if_true]
    rw [bcastIndexRev_self (inShape_reverse hi), List.reverse_reverse]
  ext
  · simp only [vecAt, key, V3.sub_x]
    simp [NArr.broadcastTo, NArr.bcastIndexRev]
  · simp only [vecAt, key, V3.sub_y]
    simp [NArr.broadcastTo, NArr.bcastIndexRev]
  · simp only [vecAt, key, V3.sub_z]
    simp [NArr.broadcastTo, NArr.bcastIndexRev]

/-- `cross_orientation` accepts exactly the arrays whose last axis has length two or three, and `dot_orientation` those with a last axis
of length three or no axes. -/
theorem cross_dot_refuse_iff : ((∃ e, crossOrientation s a = .error e) ↔ ¬ (a.shape.getLast? = some 2 ∨ a.shape.getLast? = some 3)) ∧
    ((∃ e, dotOrientation s a = .error e) ↔ ∃ n, a.shape.getLast? = some n ∧ n ≠ 3) := by
  unfold crossOrientation dotOrientation
  cases h : a.shape.getLast? with
  | none => simp
  | some n =>
    by_cases h3 : n = 3
    · simp [h3]
    · by_cases h2 : n = 2
      · simp [h2]
      · simp [h2, h3]

/-- Vectors without third component lie in the plane `z = 0`. -/
theorem crossOrientation_two_wide (h : a.shape = sh ++ [2]) : ∃ r, crossOrientation s a = .ok r ∧ r.shape = sh ++ [3] ∧
    ∀ i, vecAt r i = (⟨a.get (i ++ [0]), a.get (i ++ [1]), 0⟩ : V3 ℝ).cross s.orientation := by
  refine ⟨_, by simp only [crossOrientation, h, List.getLast?_concat]; rfl, by simp, ?_⟩
  intro i
  ext <;> simp [vecAt]

/-- Two points and a dipole along `z`. -/
example : ∃ (s : Source) (a : NArr ℝ), a.shape = [2] ++ [3] ∧ s.orientation.len = 1 ∧ InShape [2] [1] ∧
    vecAt a [1] - s.location = ⟨3, 4, 12⟩ := by
  refine ⟨⟨⟨1, 1, 0⟩, ⟨0, 0, 1⟩⟩, ⟨[2, 3], fun i => if i = [1, 0] then 4 else if i = [1, 1] then 5 else 12⟩, rfl, ?_, .cons (by norm_num) .nil, ?_⟩
  · simp [V3.len]
  · ext <;> simp [vecAt] <;> norm_num

end Verif.Dipole
