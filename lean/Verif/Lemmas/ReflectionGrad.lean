import Verif.Lemmas.Reflection

/-! # The state of the reverse sweep of `Verif.RTE.gradient` -/

namespace Verif.RTE

open Complex

theorem yhArray_eq (c : Col) (junk : ℕ → ℂ) {k : ℕ} (hk : k ≤ c.n) : yhArray c junk k = c.yh k := by
  -- after the iterations `m … n-1`, entries `m … n` hold the admittances
  have key : ∀ m ≤ c.n, ∀ a : ℕ → ℂ, (∀ i, m ≤ i → i ≤ c.n → a i = c.yh i) →
      ∀ i ≤ c.n, downLoop m (fun k Yh => Function.update Yh k (stepOf (c.Y k) (c.t k) (Yh (k + 1)))) a i = c.yh i := by
    intro m
    induction m with
    | zero => intro _ a h i hi; exact h i (Nat.zero_le _) hi
    | succ m ih =>
      intro hm a h i hi
      refine ih (by omega) _ (fun i h1 h2 => ?_) i hi
      beta_reduce
      rcases eq_or_ne i m with rfl | hne
      · rw [Function.update_self, h (i + 1) (by omega) hm, ← Col.yh_succ c (by omega)]
      · rw [Function.update_of_ne hne]; exact h i (by omega) h2
  refine key c.n le_rfl _ (fun i h1 h2 => ?_) k hk
  have : i = c.n := by omega
  rw [this, Function.update_self, Col.yh_n]

/-- The loop state after `m` passes of the reverse sweep. -/
noncomputable def st (c : Col) (junk js jh jm : ℕ → ℂ) (m : ℕ) : GState :=
  upLoop m (gradBody c (yhArray c junk))
    ⟨-2 * c.Y0 / ((c.Y0 + yhArray c junk 0) * (c.Y0 + yhArray c junk 0)), js, jh, jm⟩

section
variable (c : Col) (junk js jh jm : ℕ → ℂ)

theorem st_succ (m : ℕ) :
    st c junk js jh jm (m + 1) = gradBody c (yhArray c junk) m (st c junk js jh jm m) := rfl

theorem st_keep {k m : ℕ} (h : k < m) :
    (st c junk js jh jm m).dsigma k = (st c junk js jh jm (k + 1)).dsigma k ∧
    (st c junk js jh jm m).dh k = (st c junk js jh jm (k + 1)).dh k ∧
    (st c junk js jh jm m).dmu k = (st c junk js jh jm (k + 1)).dmu k := by
  induction m with
  | zero => omega
  | succ m ih =>
    rcases Nat.lt_succ_iff_lt_or_eq.1 h with h | rfl
    · rw [st_succ]
      simp only [gradBody]
      rw [Function.update_of_ne h.ne, Function.update_of_ne h.ne, Function.update_of_ne h.ne]
      exact ih h
    · exact ⟨rfl, rfl, rfl⟩

theorem gradient_lt {k : ℕ} (hk : k < c.n) :
    (gradient c junk js jh jm).dsigma k = (st c junk js jh jm (k + 1)).dsigma k ∧
    (gradient c junk js jh jm).dh k = (st c junk js jh jm (k + 1)).dh k ∧
    (gradient c junk js jh jm).dmu k = (st c junk js jh jm (k + 1)).dmu k := by
  obtain ⟨h1, h2, h3⟩ := st_keep c junk js jh jm hk
  refine ⟨?_, ?_, ?_⟩
  · rw [← h1]; simp only [gradient]; rw [Function.update_of_ne hk.ne]; rfl
  · rw [← h2]; rfl
  · rw [← h3]; simp only [gradient]; rw [Function.update_of_ne hk.ne]; rfl

theorem gradient_last :
    (gradient c junk js jh jm).dsigma c.n =
      (st c junk js jh jm c.n).gyh0 / (I * c.omega * c.mu c.n) * (-0.5) / c.u c.n * (-I * c.omega * c.mu c.n) ∧
    (gradient c junk js jh jm).dmu c.n =
      (st c junk js jh jm c.n).gyh0 * (-c.yh c.n / c.mu c.n) +
        (st c junk js jh jm c.n).gyh0 / (I * c.omega * c.mu c.n) * (-0.5) / c.u c.n * (-I * c.omega * c.sigma c.n) := by
  simp only [gradient, Function.update_self]
  rw [yhArray_eq c junk le_rfl]
  exact ⟨rfl, rfl⟩

end

end Verif.RTE
