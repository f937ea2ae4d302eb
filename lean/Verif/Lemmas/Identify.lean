import Mathlib.Algebra.Polynomial.Degree.Lemmas
import Mathlib.Algebra.Polynomial.Roots
import Mathlib.RingTheory.Coprime.Lemmas
import Mathlib.Data.Real.Basic
import Mathlib.Algebra.CharZero.Infinite
import Mathlib.Tactic.FieldSimp
import Mathlib.Tactic.ComputeDegree
import Mathlib.Tactic.LinearCombination
import Mathlib.Tactic.Linarith
import Mathlib.Tactic.Positivity
import Mathlib.Algebra.Order.Ring.Abs

/-!
# Lemmas about surveys on a plane
-/

namespace Verif.Identify

open Polynomial

/-- Squared distances from two points below a plane that are proportional in a part of the plane are equal. -/
theorem distances_proportional {c a₁ b₁ e₁ a₂ b₂ e₂ M : ℝ}
    (h : ∀ x y, M < x → c * ((x - a₁) ^ 2 + (y - b₁) ^ 2 + e₁) = (x - a₂) ^ 2 + (y - b₂) ^ 2 + e₂) :
    c = 1 ∧ a₁ = a₂ ∧ b₁ = b₂ ∧ e₁ = e₂ := by
  have h0 := h (M + 2) 0 (by linarith)
  have h1 := h (M + 3) 0 (by linarith)
  have h2 := h (M + 1) 0 (by linarith)
  have h3 := h (M + 2) 1 (by linarith)
  have h4 := h (M + 2) (-1) (by linarith)
  have hc : c = 1 := by linear_combination (h1 + h2 - 2 * h0) / 2
  subst hc
  have ha : a₁ = a₂ := by linear_combination (h2 - h1) / 4
  have hb : b₁ = b₂ := by linear_combination (h4 - h3) / 4
  subst ha hb
  exact ⟨rfl, rfl, rfl, by linear_combination h0⟩

/-- The squared distance from a point, along a line that does not meet it. -/
noncomputable def square (a e : ℝ) : ℝ[X] := (X - C a) ^ 2 + C e

theorem square_coprime {a e a' e' : ℝ} (he : 0 < e) (hne : ¬ (a = a' ∧ e = e')) :
    IsCoprime (square a e) (square a' e') := by
  by_cases ha : a = a'
  · subst ha
    have hd : e - e' ≠ 0 := fun h => hne ⟨rfl, by linarith⟩
    refine ⟨C (1 / (e - e')), -C (1 / (e - e')), ?_⟩
    have : C (1 / (e - e')) * C (e - e') = (1 : ℝ[X]) := by rw [← C_mul, one_div_mul_cancel hd, C_1]
    simp only [square]
    rw [C_sub] at this
    linear_combination this
  · -- the difference is linear, and the first square is positive at its root
    have hd : a' - a ≠ 0 := fun h => ha (by linarith)
    obtain ⟨x, hx⟩ : ∃ x, 2 * (a' - a) * x + (a ^ 2 + e - a' ^ 2 - e') = 0 :=
      ⟨-(a ^ 2 + e - a' ^ 2 - e') / (2 * (a' - a)), by field_simp; ring⟩
    have hp : 0 < (x - a) ^ 2 + e := by positivity
    set v := (x - a) ^ 2 + e with hv
    refine ⟨C (1 / v) * (1 - C (1 / (2 * (a' - a))) * (X + C x - 2 * C a)),
      C (1 / v) * (C (1 / (2 * (a' - a))) * (X + C x - 2 * C a)), ?_⟩
    have e1 : C (1 / v) * C v = (1 : ℝ[X]) := by rw [← C_mul, one_div_mul_cancel hp.ne', C_1]
    have e2 : C (1 / (2 * (a' - a))) * (2 * (C a' - C a)) = (1 : ℝ[X]) := by
      have : (2 : ℝ[X]) = C 2 := rfl
      rw [this, ← C_sub, ← C_mul, ← C_mul, one_div_mul_cancel (by simpa using hd), C_1]
    have e3 : 2 * (C a' - C a) * C x + (C a ^ 2 + C e - C a' ^ 2 - C e') = (0 : ℝ[X]) := by
      have : (2 : ℝ[X]) = C 2 := rfl
      rw [this, ← C_sub, ← C_pow, ← C_pow, ← C_mul, ← C_mul, ← C_add, ← C_sub, ← C_sub, ← C_add, hx, C_0]
    have e4 : C v = (C x - C a) ^ 2 + C e := by rw [hv, C_add, C_pow, C_sub]
    simp only [square]
    generalize C (1 / v) = k at *
    generalize C (1 / (2 * (a' - a))) = l at *
    generalize C v = w at *
    generalize C a = A at *
    generalize C a' = A' at *
    generalize C e = E at *
    generalize C e' = E' at *
    generalize C x = Z at *
    grind

/-- The vertical field of a dipole along a line, times the fifth power of the distance. -/
noncomputable def numerator (m c n D a e : ℝ) : ℝ[X] := 3 * (C m * (X - C a) + C c) * C D - C n * ((X - C a) ^ 2 + C e)

theorem numerator_eq_zero {m c n D a e : ℝ} (hD : D ≠ 0) (h : numerator m c n D a e = 0) : m = 0 ∧ c = 0 ∧ n = 0 := by
  have h0 := congrArg (eval a) h
  have h1 := congrArg (eval (a + 1)) h
  have h2 := congrArg (eval (a - 1)) h
  simp [numerator] at h0 h1 h2
  have hn : n = 0 := by linear_combination h0 - (h1 + h2) / 2
  subst hn
  have hm : m * D = 0 := by linear_combination (h1 - h2) / 6
  have hc : c * D = 0 := by linear_combination h0 / 3
  exact ⟨(mul_eq_zero.mp hm).resolve_right hD, (mul_eq_zero.mp hc).resolve_right hD, rfl⟩

theorem numerator_degree (m c n D a e : ℝ) : (numerator m c n D a e ^ 2).degree ≤ 4 := by
  unfold numerator
  compute_degree!

theorem square_degree (a e : ℝ) : (square a e ^ 5).degree = 10 := by
  unfold square
  compute_degree!

/-- Two dipoles whose vertical fields agree along a line are at the same distance from it, or vanish. -/
theorem line_agrees {m c n D a e m' c' n' D' a' e' : ℝ} (he : 0 < e) (hne : ¬ (a = a' ∧ e = e'))
    (h : ∀ x, (3 * (m * (x - a) + c) * D - n * ((x - a) ^ 2 + e)) ^ 2 * ((x - a') ^ 2 + e') ^ 5 =
      (3 * (m' * (x - a') + c') * D' - n' * ((x - a') ^ 2 + e')) ^ 2 * ((x - a) ^ 2 + e) ^ 5) :
    numerator m c n D a e = 0 := by
  have hp : numerator m c n D a e ^ 2 * square a' e' ^ 5 = numerator m' c' n' D' a' e' ^ 2 * square a e ^ 5 := by
    apply Polynomial.funext
    intro x
    simpa [numerator, square] using h x
  have hdvd : square a e ^ 5 ∣ numerator m c n D a e ^ 2 * square a' e' ^ 5 := ⟨_, by rw [hp, mul_comm]⟩
  have hd := ((square_coprime he hne).pow (m := 5) (n := 5)).dvd_of_dvd_mul_right hdvd
  have := eq_zero_of_dvd_of_degree_lt hd (by
    rw [square_degree]
    exact (numerator_degree m c n D a e).trans_lt (by norm_num))
  exact pow_eq_zero_iff (two_ne_zero) |>.mp this

end Verif.Identify
