import Verif.Spec.Range
import Verif.Lemmas.RoundedSums

/-!
# Where an arithmetic of limited range agrees with one of unlimited range
-/

namespace Verif

open Classical in
/-- The same operations, with exact results wherever the exact result is out of range. -/
noncomputable def Limited.widen {u lo hi : ℝ} (hu : 0 ≤ u) (L : Limited u lo hi) : Arith u where
  add a b := if Normal lo hi (a + b) then L.add a b else a + b
  sub a b := if Normal lo hi (a - b) then L.sub a b else a - b
  mul a b := if Normal lo hi (a * b) then L.mul a b else a * b
  div a b := if Normal lo hi (a / b) then L.div a b else a / b
  sqrt a := if Normal lo hi (Real.sqrt a) then L.sqrt a else Real.sqrt a
  exp a := if Normal lo hi (Real.exp a) then L.exp a else Real.exp a
  erf a := if Normal lo hi (Verif.erf a) then L.erf a else Verif.erf a
  pow a n := if Normal lo hi (a ^ n) then L.pow a n else a ^ n
  const a := if Normal lo hi a then L.const a else a
  order := L.order
  add_err a b := by
    split
    · exact L.add_err a b ‹_›
    · rw [sub_self, abs_zero]; exact mul_nonneg hu (abs_nonneg _)
  sub_err a b := by
    split
    · exact L.sub_err a b ‹_›
    · rw [sub_self, abs_zero]; exact mul_nonneg hu (abs_nonneg _)
  mul_err a b := by
    split
    · exact L.mul_err a b ‹_›
    · rw [sub_self, abs_zero]; exact mul_nonneg hu (abs_nonneg _)
  div_err a b hb := by
    split
    · exact L.div_err a b hb ‹_›
    · rw [sub_self, abs_zero]; exact mul_nonneg hu (abs_nonneg _)
  sqrt_err a ha := by
    split
    · exact L.sqrt_err a ha ‹_›
    · rw [sub_self, abs_zero]; exact mul_nonneg hu (abs_nonneg _)
  pow_err a n := by
    split
    · exact L.pow_err a n ‹_›
    · rw [sub_self, abs_zero]; exact mul_nonneg hu (abs_nonneg _)
  exp_err a := by
    split
    · exact L.exp_err a ‹_›
    · rw [sub_self, abs_zero]; exact mul_nonneg hu (abs_nonneg _)
  erf_err a := by
    split
    · exact L.erf_err a ‹_›
    · rw [sub_self, abs_zero]; exact mul_nonneg hu (abs_nonneg _)
  const_err a := by
    split
    · exact L.const_err a ‹_›
    · rw [sub_self, abs_zero]; exact mul_nonneg hu (abs_nonneg _)

/-- Zero, or of a size between `2⁻ᵖ` and `2ᵖ`. -/
def Mag (p : ℕ) (x : ℝ) : Prop := x = 0 ∨ (1 / 2 ^ p ≤ |x| ∧ |x| ≤ 2 ^ p)

namespace Mag

variable {p q : ℕ} {x y : ℝ}

theorem mono (h : Mag p x) (hpq : p ≤ q) : Mag q x := by
  rcases h with h | ⟨h1, h2⟩
  · exact Or.inl h
  · have := pow_le_pow_right₀ (by norm_num : (1 : ℝ) ≤ 2) hpq
    exact Or.inr ⟨le_trans (one_div_le_one_div_of_le (by positivity) this) h1, h2.trans this⟩

theorem normal (h : Mag p x) (hp : p ≤ 1022) : Normal (1 / 2 ^ 1022) (2 ^ 1023) x := by
  rcases h.mono hp with h | ⟨h1, h2⟩
  · exact Or.inl h
  · exact Or.inr ⟨h1, h2.trans (pow_le_pow_right₀ (by norm_num) (by norm_num))⟩

theorem round {u z : ℝ} (hu1 : u ≤ 1 / 2) (h : Mag p x) (hz : |z - x| ≤ u * |x|) : Mag (p + 1) z := by
  rcases h with rfl | ⟨h1, h2⟩
  · rw [abs_zero, mul_zero, sub_zero] at hz
    exact Or.inl (abs_nonpos_iff.1 hz)
  · have hx := abs_nonneg x
    have h3 : |x| ≤ |z| + |z - x| := by
      have := abs_sub_abs_le_abs_sub x z; rw [abs_sub_comm] at this; linarith
    have h4 : |z| ≤ |x| + |z - x| := by have := abs_sub_abs_le_abs_sub z x; linarith
    have h5 : u * |x| ≤ 1 / 2 * |x| := mul_le_mul_of_nonneg_right hu1 hx
    refine Or.inr ⟨?_, ?_⟩
    · rw [pow_succ, one_div, mul_inv, ← one_div]; linarith
    · rw [pow_succ]; linarith

theorem neg (h : Mag p x) : Mag p (-x) := by
  rcases h with rfl | h
  · exact Or.inl neg_zero
  · exact Or.inr (by rwa [abs_neg])

theorem mul (h : Mag p x) (h' : Mag q y) : Mag (p + q) (x * y) := by
  rcases h with rfl | ⟨h1, h2⟩
  · exact Or.inl (zero_mul _)
  rcases h' with rfl | ⟨k1, k2⟩
  · exact Or.inl (mul_zero _)
  · refine Or.inr ⟨?_, ?_⟩
    · rw [abs_mul, pow_add, one_div, mul_inv, ← one_div, ← one_div]
      exact mul_le_mul h1 k1 (by positivity) (abs_nonneg _)
    · rw [abs_mul, pow_add]; exact mul_le_mul h2 k2 (abs_nonneg _) (by positivity)

theorem inv (h : Mag p x) : Mag p x⁻¹ := by
  rcases h with rfl | ⟨h1, h2⟩
  · exact Or.inl inv_zero
  · have hx : 0 < |x| := lt_of_lt_of_le (by positivity) h1
    refine Or.inr ⟨?_, ?_⟩
    · rw [abs_inv, ← one_div]; exact one_div_le_one_div_of_le hx h2
    · rw [abs_inv, inv_le_comm₀ hx (by positivity), ← one_div]; exact h1

theorem div (h : Mag p x) (h' : Mag q y) : Mag (p + q) (x / y) := by
  rw [div_eq_mul_inv]; exact h.mul h'.inv

theorem pow (h : Mag p x) (n : ℕ) (hn : n ≠ 0) : Mag (p * n) (x ^ n) := by
  rcases h with rfl | ⟨h1, h2⟩
  · exact Or.inl (zero_pow hn)
  · refine Or.inr ⟨?_, ?_⟩
    · rw [abs_pow, pow_mul, ← one_div_pow]; exact pow_le_pow_left₀ (by positivity) h1 n
    · rw [abs_pow, pow_mul]; exact pow_le_pow_left₀ (abs_nonneg _) h2 n

theorem add (hx : 0 ≤ x) (hy : 0 ≤ y) (h : Mag p x) (h' : Mag p y) : Mag (p + 1) (x + y) := by
  rcases h with rfl | ⟨h1, h2⟩
  · rw [zero_add]; exact h'.mono (by omega)
  rw [abs_of_nonneg hx] at h1 h2
  have hxy := add_nonneg hx hy
  have hy2 : y ≤ 2 ^ p := by
    rcases h' with rfl | ⟨-, k⟩
    · positivity
    · rwa [abs_of_nonneg hy] at k
  refine Or.inr ⟨?_, ?_⟩
  · rw [abs_of_nonneg hxy]
    have : (1 : ℝ) / 2 ^ (p + 1) ≤ 1 / 2 ^ p :=
      one_div_le_one_div_of_le (by positivity) (pow_le_pow_right₀ (by norm_num) (by omega))
    linarith
  · rw [abs_of_nonneg hxy, pow_succ]; linarith

theorem sqrt (hx : 0 ≤ x) (h : Mag (2 * p) x) : Mag p (Real.sqrt x) := by
  rcases h with rfl | ⟨h1, h2⟩
  · exact Or.inl Real.sqrt_zero
  rw [abs_of_nonneg hx] at h1 h2
  refine Or.inr ⟨?_, ?_⟩
  · rw [abs_of_nonneg (Real.sqrt_nonneg _)]
    apply Real.le_sqrt_of_sq_le
    rw [div_pow, one_pow, ← pow_mul, mul_comm p 2]; exact h1
  · rw [abs_of_nonneg (Real.sqrt_nonneg _)]
    apply Real.sqrt_le_iff.2 ⟨by positivity, _⟩
    rw [← pow_mul, mul_comm p 2]; exact h2

theorem of_moderate (h : Moderate x) : Mag 100 x := by
  rcases h with h | ⟨h1, h2⟩
  · exact Or.inl h
  · exact Or.inr ⟨le_trans (by norm_num) h1, h2.trans (by norm_num)⟩

end Mag

/-! ## The operations agree -/

namespace Limited

variable {u : ℝ} (hu : 0 ≤ u) (hu1 : u ≤ 1 / 2) (L : Limited u (1 / 2 ^ 1022) (2 ^ 1023)) {p q : ℕ} {x y : ℝ}
include hu1

theorem mul_agree (h : Mag p x) (h' : Mag q y) (hpq : p + q ≤ 1022) :
    L.mul x y = (L.widen hu).mul x y ∧ Mag (p + q + 1) ((L.widen hu).mul x y) :=
  ⟨(if_pos ((h.mul h').normal hpq)).symm, (h.mul h').round hu1 ((L.widen hu).mul_err x y)⟩

theorem div_agree (hy : y ≠ 0) (h : Mag p x) (h' : Mag q y) (hpq : p + q ≤ 1022) :
    L.div x y = (L.widen hu).div x y ∧ Mag (p + q + 1) ((L.widen hu).div x y) :=
  ⟨(if_pos ((h.div h').normal hpq)).symm, (h.div h').round hu1 ((L.widen hu).div_err x y hy)⟩

theorem pow_agree (h : Mag p x) (n : ℕ) (hn : n ≠ 0) (hp : p * n ≤ 1022) :
    L.pow x n = (L.widen hu).pow x n ∧ Mag (p * n + 1) ((L.widen hu).pow x n) :=
  ⟨(if_pos ((h.pow n hn).normal hp)).symm, (h.pow n hn).round hu1 ((L.widen hu).pow_err x n)⟩

theorem const_agree (h : Mag p x) (hp : p ≤ 1022) :
    L.const x = (L.widen hu).const x ∧ Mag (p + 1) ((L.widen hu).const x) :=
  ⟨(if_pos (h.normal hp)).symm, h.round hu1 ((L.widen hu).const_err x)⟩

theorem sub_agree (h : Mag p (x - y)) (hp : p ≤ 1022) :
    L.sub x y = (L.widen hu).sub x y ∧ Mag (p + 1) ((L.widen hu).sub x y) :=
  ⟨(if_pos (h.normal hp)).symm, h.round hu1 ((L.widen hu).sub_err x y)⟩

theorem nonneg_of_err {x z : ℝ} (hx : 0 ≤ x) (hz : |z - x| ≤ u * |x|) : 0 ≤ z := by
  rw [abs_of_nonneg hx] at hz
  have := (abs_le.1 hz).1
  nlinarith

theorem add_agree (hx : 0 ≤ x) (hy : 0 ≤ y) (h : Mag p x) (h' : Mag p y) (hp : p + 1 ≤ 1022) :
    L.add x y = (L.widen hu).add x y ∧ Mag (p + 2) ((L.widen hu).add x y) ∧ 0 ≤ (L.widen hu).add x y :=
  ⟨(if_pos ((Mag.add hx hy h h').normal hp)).symm, (Mag.add hx hy h h').round hu1 ((L.widen hu).add_err x y),
    nonneg_of_err hu1 (add_nonneg hx hy) ((L.widen hu).add_err x y)⟩

theorem sqrt_agree (hx : 0 ≤ x) (h : Mag (2 * p) x) (hp : p ≤ 1022) :
    L.sqrt x = (L.widen hu).sqrt x ∧ Mag (p + 1) ((L.widen hu).sqrt x) :=
  ⟨(if_pos ((Mag.sqrt hx h).normal hp)).symm, (Mag.sqrt hx h).round hu1 ((L.widen hu).sqrt_err x hx)⟩

end Limited

end Verif
