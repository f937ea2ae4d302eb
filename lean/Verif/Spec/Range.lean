import Verif.Spec.Rounding

/-!
# Arithmetic with rounding and a limited range

A `Limited u lo hi` is any way of carrying out the elementary operations such that a result whose exact value is zero or
between `lo` and `hi` in size is correct up to the fraction `u`.  Whatever the exact value is otherwise, nothing is known
about the result: it may have underflowed to zero or lost digits, or it may stand for an infinity.
-/

namespace Verif

/-- A number that can be represented up to a relative error. -/
def Normal (lo hi x : ℝ) : Prop := x = 0 ∨ (lo ≤ |x| ∧ |x| ≤ hi)

/-- Elementary operations with relative error at most `u` each, as long as the result is in the range. -/
structure Limited (u lo hi : ℝ) extends Ops where
  add_err : ∀ a b, Normal lo hi (a + b) → |add a b - (a + b)| ≤ u * |a + b|
  sub_err : ∀ a b, Normal lo hi (a - b) → |sub a b - (a - b)| ≤ u * |a - b|
  mul_err : ∀ a b, Normal lo hi (a * b) → |mul a b - a * b| ≤ u * |a * b|
  div_err : ∀ a b, b ≠ 0 → Normal lo hi (a / b) → |div a b - a / b| ≤ u * |a / b|
  sqrt_err : ∀ a, 0 ≤ a → Normal lo hi (Real.sqrt a) → |sqrt a - Real.sqrt a| ≤ u * |Real.sqrt a|
  pow_err : ∀ a n, Normal lo hi (a ^ n) → |pow a n - a ^ n| ≤ u * |a ^ n|
  exp_err : ∀ a, Normal lo hi (Real.exp a) → |exp a - Real.exp a| ≤ u * |Real.exp a|
  erf_err : ∀ a, Normal lo hi (Verif.erf a) → |erf a - Verif.erf a| ≤ u * |Verif.erf a|
  const_err : ∀ a, Normal lo hi a → |const a - a| ≤ u * |a|

instance {u lo hi : ℝ} : CoeOut (Limited u lo hi) Ops := ⟨Limited.toOps⟩

/-- The operations of double precision: the normal numbers have sizes between `2⁻¹⁰²²` and (almost) `2¹⁰²⁴`. -/
abbrev Doubles := Limited (1 / 2 ^ 52) (1 / 2 ^ 1022) (2 ^ 1023)

/-- Zero, or of a size between `10⁻³⁰` and `10³⁰`. -/
def Moderate (x : ℝ) : Prop := x = 0 ∨ (1 / 10 ^ 30 ≤ |x| ∧ |x| ≤ 10 ^ 30)

/-- Each component is moderate. -/
def V3.Moderate (v : V3 ℝ) : Prop := Verif.Moderate v.x ∧ Verif.Moderate v.y ∧ Verif.Moderate v.z

open Classical in
/-- Operations that are exact except that results below `2⁻¹⁰²²` are replaced by zero. -/
noncomputable def flushing : Doubles where
  add a b := if |a + b| < 1 / 2 ^ 1022 then 0 else a + b
  sub a b := if |a - b| < 1 / 2 ^ 1022 then 0 else a - b
  mul a b := if |a * b| < 1 / 2 ^ 1022 then 0 else a * b
  div a b := if |a / b| < 1 / 2 ^ 1022 then 0 else a / b
  sqrt a := Real.sqrt a
  exp a := Real.exp a
  erf a := Verif.erf a
  pow a n := if |a ^ n| < 1 / 2 ^ 1022 then 0 else a ^ n
  const a := a
  order := 0
  add_err a b h := by
    rcases h with h | ⟨h, -⟩
    · simp [h]
    · rw [if_neg (not_lt.2 h), sub_self, abs_zero]; exact mul_nonneg (by norm_num) (abs_nonneg _)
  sub_err a b h := by
    rcases h with h | ⟨h, -⟩
    · simp [h]
    · rw [if_neg (not_lt.2 h), sub_self, abs_zero]; exact mul_nonneg (by norm_num) (abs_nonneg _)
  mul_err a b h := by
    rcases h with h | ⟨h, -⟩
    · rw [h]; simp
    · rw [if_neg (not_lt.2 h), sub_self, abs_zero]; exact mul_nonneg (by norm_num) (abs_nonneg _)
  div_err a b _ h := by
    rcases h with h | ⟨h, -⟩
    · rw [h]; simp
    · rw [if_neg (not_lt.2 h), sub_self, abs_zero]; exact mul_nonneg (by norm_num) (abs_nonneg _)
  sqrt_err a _ _ := by rw [sub_self, abs_zero]; exact mul_nonneg (by norm_num) (abs_nonneg _)
  pow_err a n h := by
    rcases h with h | ⟨h, -⟩
    · rw [h]; simp
    · rw [if_neg (not_lt.2 h), sub_self, abs_zero]; exact mul_nonneg (by norm_num) (abs_nonneg _)
  exp_err a _ := by rw [sub_self, abs_zero]; exact mul_nonneg (by norm_num) (abs_nonneg _)
  erf_err a _ := by rw [sub_self, abs_zero]; exact mul_nonneg (by norm_num) (abs_nonneg _)
  const_err a _ := by rw [sub_self, abs_zero]; exact mul_nonneg (by norm_num) (abs_nonneg _)

end Verif
