import Verif.Model.CppLoops

/-! # Rules for the loops and buffers of `Verif.Model.CppLoops` -/

namespace Verif.Cpp

theorem ok_bind {ε α β : Type} (a : α) (f : α → Except ε β) : (Except.ok a >>= f) = f a := rfl

theorem get_ok {α : Type} {b : Buf α} {i : Nat} (h : i < b.size) : b.get i = .ok (b.data i) := if_pos h

theorem set_ok {α : Type} {b : Buf α} {i : Nat} (h : i < b.size) (x : α) :
    b.set i x = .ok ⟨b.size, fun j => if j = i then x else b.data j,
      fun j => if j = i then b.writes j + 1 else b.writes j⟩ := if_pos h

/-- An upward loop. -/
theorem cfor_up {σ : Type} (n : Size) (body : Size → σ → Except Fault σ) (Inv : Nat → σ → Prop)
    (hstep : ∀ i, i < n.toNat → ∀ s, Inv i s → ∃ s', body (BitVec.ofNat 64 i) s = .ok s' ∧ Inv (i + 1) s')
    (fuel : Nat) (hf : n.toNat < fuel) (s : σ) (h0 : Inv 0 s) :
    ∃ s', cfor (fun k => k < n) (fun k => k + 1) body fuel 0 s = .ok s' ∧ Inv n.toNat s' := by
  have key : ∀ r i fuel s, i + r = n.toNat → r < fuel → Inv i s →
      ∃ s', cfor (fun k => k < n) (fun k => k + 1) body fuel (BitVec.ofNat 64 i) s = .ok s' ∧ Inv n.toNat s' := by
    intro r
    induction r with
    | zero =>
      intro i fuel s hi hr hs
      obtain ⟨f, rfl⟩ : ∃ f, fuel = f + 1 := ⟨fuel - 1, by omega⟩
      refine ⟨s, ?_, by rwa [← hi, Nat.add_zero]⟩
      have : ¬ (BitVec.ofNat 64 i < n) := by
        simp only [BitVec.lt_def, BitVec.toNat_ofNat]
        have := n.isLt
        omega
      rw [cfor, if_neg (by simpa using this)]
    | succ r ih =>
      intro i fuel s hi hr hs
      obtain ⟨f, rfl⟩ : ∃ f, fuel = f + 1 := ⟨fuel - 1, by omega⟩
      have hlt : BitVec.ofNat 64 i < n := by
        simp only [BitVec.lt_def, BitVec.toNat_ofNat]
        have := n.isLt
        omega
      obtain ⟨s', hb, hs'⟩ := hstep i (by omega) s hs
      rw [cfor, if_pos (by simpa using hlt), hb]
      have e : BitVec.ofNat 64 i + 1 = BitVec.ofNat 64 (i + 1) := by
        apply BitVec.eq_of_toNat_eq; simp [BitVec.toNat_add]
      change ∃ s'', cfor _ _ body f (BitVec.ofNat 64 i + 1) s' = .ok s'' ∧ _
      rw [e]
      exact ih (i + 1) f s' (by omega) (by omega) hs'
  exact key n.toNat 0 fuel s (by omega) hf h0

/-- A downward loop that stops by wrap-around: `for (k = n-2; k < n-1; --k)`. -/
theorem cfor_down {σ : Type} (n : Size) (hn : 1 ≤ n.toNat) (body : Size → σ → Except Fault σ) (Inv : Nat → σ → Prop)
    (hstep : ∀ i, i < n.toNat - 1 → ∀ s, Inv (i + 1) s → ∃ s', body (BitVec.ofNat 64 i) s = .ok s' ∧ Inv i s')
    (fuel : Nat) (hf : n.toNat ≤ fuel) (s : σ) (h0 : Inv (n.toNat - 1) s) :
    ∃ s', cfor (fun k => k < n - 1) (fun k => k - 1) body fuel (n - 2) s = .ok s' ∧ Inv 0 s' := by
  have hn1 : (n - 1).toNat = n.toNat - 1 := by
    have := n.isLt
    simp [BitVec.toNat_sub]; omega
  -- the counter before the pass that handles layer `i - 1`
  have key : ∀ i fuel s, i ≤ n.toNat - 1 → i < fuel → Inv i s →
      ∃ s', cfor (fun k => k < n - 1) (fun k => k - 1) body fuel (BitVec.ofNat 64 i - 1) s = .ok s' ∧ Inv 0 s' := by
    intro i
    induction i with
    | zero =>
      intro fuel s hi hr hs
      obtain ⟨f, rfl⟩ : ∃ f, fuel = f + 1 := ⟨fuel - 1, by omega⟩
      refine ⟨s, ?_, hs⟩
      have : ¬ (BitVec.ofNat 64 0 - 1 < n - 1) := by
        rw [BitVec.lt_def, hn1]
        have := n.isLt
        simp [BitVec.toNat_sub]; omega
      rw [cfor, if_neg (by simpa using this)]
    | succ i ih =>
      intro fuel s hi hr hs
      obtain ⟨f, rfl⟩ : ∃ f, fuel = f + 1 := ⟨fuel - 1, by omega⟩
      have e : BitVec.ofNat 64 (i + 1) - 1 = BitVec.ofNat 64 i := by
        have := n.isLt
        apply BitVec.eq_of_toNat_eq; simp [BitVec.toNat_sub]; omega
      have hlt : BitVec.ofNat 64 i < n - 1 := by
        rw [BitVec.lt_def, hn1]
        have := n.isLt
        simp only [BitVec.toNat_ofNat]
        omega
      obtain ⟨s', hb, hs'⟩ := hstep i (by omega) s hs
      rw [e, cfor, if_pos (by simpa using hlt), hb]
      exact ih f s' (by omega) (by omega) hs'
  have e : n - 2 = BitVec.ofNat 64 (n.toNat - 1) - 1 := by
    have := n.isLt
    apply BitVec.eq_of_toNat_eq; simp [BitVec.toNat_sub]; omega
  rw [e]
  exact key _ fuel s (Nat.le_refl _) (by omega) h0

end Verif.Cpp
