import Verif.Model.Utils
import Mathlib.Tactic.Ring
import Mathlib.Tactic.Linarith
import Mathlib.Data.Nat.ModEq

/-! # Arrays: index arithmetic and broadcasting (helper lemmas) -/

namespace Verif

namespace NArr

theorem inShape_nil {i : List ℕ} : InShape [] i ↔ i = [] := by
  constructor
  · intro h; cases h; rfl
  · rintro rfl; exact List.Forall₂.nil

theorem inShape_cons {n : ℕ} {s i : List ℕ} :
    InShape (n :: s) i ↔ ∃ k j, i = k :: j ∧ k < n ∧ InShape s j := by
  constructor
  · intro h; cases h with | cons h1 h2 => exact ⟨_, _, rfl, h1, h2⟩
  · rintro ⟨k, j, rfl, h1, h2⟩; exact List.Forall₂.cons h1 h2

theorem InShape.length {s i : List ℕ} (h : InShape s i) : i.length = s.length :=
  List.Forall₂.length_eq h

theorem inShape_append {s t i j : List ℕ} (h1 : InShape s i) (h2 : InShape t j) :
    InShape (s ++ t) (i ++ j) := List.rel_append h1 h2

theorem InShape.reverse {s i : List ℕ} (h : InShape s i) : InShape s.reverse i.reverse :=
  List.rel_reverse h

theorem unravelF_inShape : ∀ (s : List ℕ) (k : ℕ), k < s.prod → InShape s (unravelF s k)
  | [], _, _ => List.Forall₂.nil
  | n :: s, k, h => by
    rw [List.prod_cons] at h
    have hn : 0 < n := by
      rcases Nat.eq_zero_or_pos n with h0 | h0
      · subst h0; simp at h
      · exact h0
    exact List.Forall₂.cons (Nat.mod_lt _ hn)
      (unravelF_inShape s _ (Nat.div_lt_of_lt_mul h))

theorem bcastIndexRev_self : ∀ (s i : List ℕ), InShape s i → bcastIndexRev s i = i
  | _, _, .nil => rfl
  | _, _, .cons (a := k) (b := n) (l₁ := i) (l₂ := s) h1 h2 => by
    have ih := bcastIndexRev_self s i h2
    simp only [bcastIndexRev, ih]
    split
    · rename_i h; subst h; rw [Nat.lt_one_iff.1 h1]
    · rfl

theorem broadcastTo_self_get {α : Type} (a : NArr α) (i : List ℕ) (h : InShape a.shape i) :
    (a.broadcastTo a.shape).get i = a.get i := by
  simp only [broadcastTo]
  rw [bcastIndexRev_self _ _ (InShape.reverse h), List.reverse_reverse]

theorem bcastRev_ones : ∀ (s t : List ℕ),
    bcastRev (List.replicate s.length 1 ++ t) s = some (s ++ t)
  | [], t => by cases t <;> simp [bcastRev]
  | a :: s, t => by
    have ih := bcastRev_ones s t
    simp only [List.length_cons, List.replicate_succ, List.cons_append, bcastRev, ih, Option.map_some]
    by_cases h : 1 = a
    · subst h; simp
    · simp [h]

theorem bcastIndexRev_ones : ∀ (n : ℕ) (t i j : List ℕ), i.length = n → InShape t j →
    bcastIndexRev (List.replicate n 1 ++ t) (i ++ j) = List.replicate n 0 ++ j
  | 0, t, i, j, hi, hj => by
    rw [List.length_eq_zero_iff.1 hi]; simpa using bcastIndexRev_self t j hj
  | n + 1, t, [], j, hi, hj => by simp at hi
  | n + 1, t, k :: i, j, hi, hj => by
    simp only [List.replicate_succ, List.cons_append, bcastIndexRev, if_true]
    rw [bcastIndexRev_ones n t i j (by simpa using hi) hj]

theorem bcastIndexRev_drop : ∀ (s i j : List ℕ), InShape s i → bcastIndexRev s (i ++ j) = i
  | _, _, j, .nil => rfl
  | _, _, j, .cons (a := k) (b := n) (l₁ := i) (l₂ := s) h1 h2 => by
    have ih := bcastIndexRev_drop s i j h2
    simp only [List.cons_append, bcastIndexRev, ih]
    split
    · rename_i h; subst h; rw [Nat.lt_one_iff.1 h1]
    · rfl

end NArr

namespace Utils

open NArr

variable {α : Type}

theorem appendNdim_shape (a : NArr α) : ∀ n, (appendNdim a n).shape = a.shape ++ List.replicate n 1 := by
  intro n
  induction n generalizing a with
  | zero => simp [appendNdim]
  | succ n ih => simp [appendNdim, ih, newLast, List.replicate_succ]

theorem appendNdim_get (a : NArr α) (n : ℕ) (i j : List ℕ) (hj : j.length = n) :
    (appendNdim a n).get (i ++ j) = a.get i := by
  induction n generalizing a i j with
  | zero => rw [List.length_eq_zero_iff.1 hj]; simp [appendNdim]
  | succ n ih =>
    obtain ⟨k, j', rfl⟩ := List.exists_of_length_succ j hj
    have e : i ++ k :: j' = (i ++ [k]) ++ j' := by simp
    simp only [appendNdim]
    rw [e, ih a.newLast (i ++ [k]) j' (by simpa using hj)]
    simp [newLast]

end Utils

end Verif
