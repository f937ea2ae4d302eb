import Verif.Model.ReferenceFloats
import Verif.Model.TdemReference
import Verif.Lemmas.BesselRange
import Mathlib.Analysis.Real.Pi.Bounds

/-! # The reference formula for the rate of change of the radial field overflows although its value is tiny -/

namespace Verif.Tdem.Reference

open PyFloat hiding exp sqrt erf
open Real BesselIK

/-- `I₀(x) ≥ exp(0.995 x) / 40`. -/
theorem besselI_zero_ge {x : ℝ} (hx : 0 ≤ x) : exp (199 / 200 * x) / 40 ≤ besselI 0 x := by
  have hpi := pi_le_four
  have hpi3 := pi_gt_three
  have hc : Continuous fun t : ℝ => exp (x * cos t) * cos ((0 : ℕ) * t) := by fun_prop
  have hsplit := intervalIntegral.integral_add_adjacent_intervals (μ := MeasureTheory.volume)
    (hc.intervalIntegrable 0 (1 / 10)) (hc.intervalIntegrable (1 / 10) π)
  have h2 : 0 ≤ ∫ t in (1 / 10 : ℝ)..π, exp (x * cos t) * cos ((0 : ℕ) * t) :=
    intervalIntegral.integral_nonneg (by linarith) fun t _ => by simp; positivity
  have h1 : (∫ t in (0 : ℝ)..(1 / 10), exp (199 / 200 * x)) ≤ ∫ t in (0 : ℝ)..(1 / 10), exp (x * cos t) * cos ((0 : ℕ) * t) := by
    refine intervalIntegral.integral_mono_on (by norm_num) (by simp) (hc.intervalIntegrable _ _) fun t ht => ?_
    have h3 := one_sub_sq_div_two_le_cos (x := t)
    have h4 : t ^ 2 ≤ 1 / 100 := by nlinarith [ht.1, ht.2]
    simp only [Nat.cast_zero, zero_mul, cos_zero, mul_one]
    refine exp_le_exp.2 ?_
    nlinarith
  rw [intervalIntegral.integral_const, smul_eq_mul] at h1
  have he := exp_pos (199 / 200 * x)
  have : exp (199 / 200 * x) * (1 / 10) ≤ ∫ t in (0 : ℝ)..π, exp (x * cos t) * cos ((0 : ℕ) * t) := by
    rw [← hsplit]
    nlinarith
  have h5 : (1 : ℝ) / 4 ≤ 1 / π := one_div_le_one_div_of_le pi_pos hpi
  rw [besselI]
  calc exp (199 / 200 * x) / 40 = 1 / 4 * (exp (199 / 200 * x) * (1 / 10)) := by ring
    _ ≤ _ := mul_le_mul h5 this (by positivity) (by positivity)

set_option exponentiation.threshold 2000 in
/-- **The reference formula is not a number at early times**: once `(theta rho)² ≥ 1520` the Bessel functions, which are not scaled,
exceed the range of double precision and the result is `inf` or `nan`. -/
theorem dhpF_not_finite {iv : ℕ → PyFloat → PyFloat} (hiv : ∀ x : ℝ, 2 ^ 1024 ≤ besselI 0 x → iv 0 (fin x) = pinf)
    (m : ℝ) {theta rho t : ℝ} (hr : rho ≠ 0) (ht : t ≠ 0) (h : 1520 ≤ (theta * rho) ^ 2) :
    ¬ (dhpF iv m theta rho t).Finite := by
  have hb : 2 ^ 1024 ≤ besselI 0 ((theta * rho) ^ 2 / 2) := by
    refine le_trans ?_ (besselI_zero_ge (by positivity))
    have := exp_large (a := 199 / 200 * ((theta * rho) ^ 2 / 2)) (by linarith)
    rw [le_div_iff₀ (by norm_num)]
    exact le_trans (by norm_num) this
  have hden : 2 * π * rho * t ≠ 0 := by positivity
  have hp : (0 : ℝ) < 1 + (theta * rho) ^ 2 := by positivity
  simp only [dhpF, hiv _ hb, fin_div_fin hden, exp_fin]
  rw [pos_mul_pinf hp, sub_def]
  generalize -((fin (2 + (theta * rho) ^ 2) + fin 4 / fin ((theta * rho) ^ 2)) * iv 1 (fin ((theta * rho) ^ 2 / 2))) = q
  change ¬ (fin _ * (pinf + q)).Finite
  cases q with
  | fin x => rw [pinf_add_fin]; exact fin_mul_pinf _
  | pinf => exact fin_mul_pinf _
  | ninf => rw [show pinf + ninf = nan from rfl, PyFloat.mul_nan]; exact not_finite_nan
  | nan => rw [PyFloat.add_nan, PyFloat.mul_nan]; exact not_finite_nan

/-- Before that, with Bessel functions that are exact, it is the formula of Ward and Hohmann. -/
theorem dhpF_exact_partial {iv : ℕ → PyFloat → PyFloat} (m : ℝ) {theta rho t : ℝ} (hth : theta ≠ 0) (hr : rho ≠ 0) (ht : t ≠ 0)
    (h0 : iv 0 (fin ((theta * rho) ^ 2 / 2)) = fin (besselI 0 ((theta * rho) ^ 2 / 2)))
    (h1 : iv 1 (fin ((theta * rho) ^ 2 / 2)) = fin (besselI 1 ((theta * rho) ^ 2 / 2))) :
    dhpF iv m theta rho t = fin (dhp m theta rho t) := by
  have hden : 2 * π * rho * t ≠ 0 := by positivity
  have hp : (theta * rho) ^ 2 ≠ 0 := by positivity
  simp only [dhpF, dhp, h0, h1, fin_div_fin hden, fin_div_fin hp, exp_fin]
  rfl

open Classical in
/-- A Bessel function of this kind, and a place and time where it matters: 10 m from a dipole, `theta = 4 / m`. -/
example : (∀ x : ℝ, 2 ^ 1024 ≤ besselI 0 x →
      (fun n (y : PyFloat) => match y with
        | .fin x => if 2 ^ 1024 ≤ besselI n x then pinf else fin (besselI n x)
        | _ => nan : ℕ → PyFloat → PyFloat) 0 (fin x) = pinf) ∧ (1520 : ℝ) ≤ (4 * 10) ^ 2 :=
  ⟨fun x h => by simp [h], by norm_num⟩

end Verif.Tdem.Reference
