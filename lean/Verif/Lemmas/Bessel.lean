import Verif.Spec.Bessel
import Mathlib.Analysis.Calculus.ParametricIntervalIntegral
import Mathlib.MeasureTheory.Integral.IntervalIntegral.IntegrationByParts
import Mathlib.Analysis.SpecialFunctions.Trigonometric.Deriv

/-! # Recurrences and derivatives of the modified Bessel functions (helper lemmas) -/

namespace Verif

open Real MeasureTheory intervalIntegral

theorem hasDerivAt_besselI_int (n : ℕ) (x : ℝ) :
    HasDerivAt (besselI n) (1 / π * ∫ t in (0 : ℝ)..π, cos t * exp (x * cos t) * cos (n * t)) x := by
  refine HasDerivAt.const_mul _ (hasDerivAt_integral_of_dominated_loc_of_deriv_le (μ := volume) (a := 0) (b := π)
    (F := fun x t => exp (x * cos t) * cos (n * t)) (F' := fun x t => cos t * exp (x * cos t) * cos (n * t)) (x₀ := x)
    (bound := fun _ => exp (|x| + 1)) (Metric.ball_mem_nhds x one_pos) ?_ ?_ ?_ ?_ ?_ ?_).2
  · exact Filter.Eventually.of_forall fun y => Continuous.aestronglyMeasurable (by fun_prop)
  · exact Continuous.intervalIntegrable (by fun_prop) _ _
  · exact Continuous.aestronglyMeasurable (by fun_prop)
  · refine Filter.Eventually.of_forall fun t _ y hy => ?_
    rw [norm_eq_abs, abs_mul, abs_mul, abs_of_pos (exp_pos _)]
    have h1 := abs_cos_le_one t
    have h2 := abs_cos_le_one (n * t)
    have h3 : y * cos t ≤ |x| + 1 := by
      have h4 : |y| ≤ |x| + 1 := by
        have := abs_sub_abs_le_abs_sub y x
        rw [Metric.mem_ball, dist_eq] at hy
        linarith
      calc y * cos t ≤ |y * cos t| := le_abs_self _
        _ = |y| * |cos t| := abs_mul _ _
        _ ≤ |y| * 1 := by gcongr
        _ ≤ _ := by linarith
    have h5 := exp_le_exp.2 h3
    have h6 := exp_pos (y * cos t)
    calc |cos t| * exp (y * cos t) * |cos (n * t)| ≤ 1 * exp (y * cos t) * 1 := by gcongr
      _ ≤ _ := by linarith
  · exact intervalIntegrable_const
  · refine Filter.Eventually.of_forall fun t _ y _ => ?_
    have e : HasDerivAt (fun y : ℝ => y * cos t) (cos t) y := by simpa using (hasDerivAt_id y).mul_const (cos t)
    refine (e.exp.mul_const _).congr_deriv ?_
    ring

/-- `I_{n+1}' = (I_n + I_{n+2})/2` -/
theorem hasDerivAt_besselI_succ (n : ℕ) (x : ℝ) :
    HasDerivAt (besselI (n + 1)) ((besselI n x + besselI (n + 2) x) / 2) x := by
  refine (hasDerivAt_besselI_int (n + 1) x).congr_deriv ?_
  rw [besselI, besselI, ← mul_add, ← integral_add (Continuous.intervalIntegrable (by fun_prop) _ _)
    (Continuous.intervalIntegrable (by fun_prop) _ _), mul_div_assoc, ← intervalIntegral.integral_div]
  congr 1
  refine integral_congr fun t _ => ?_
  have h1 : cos ((n : ℝ) * t) + cos (((n + 2 : ℕ) : ℝ) * t) = 2 * cos (((n + 1 : ℕ) : ℝ) * t) * cos t := by
    rw [cos_add_cos]
    have e1 : ((n : ℝ) * t + ((n + 2 : ℕ) : ℝ) * t) / 2 = ((n + 1 : ℕ) : ℝ) * t := by push_cast; ring
    have e2 : ((n : ℝ) * t - ((n + 2 : ℕ) : ℝ) * t) / 2 = -t := by push_cast; ring
    rw [e1, e2, cos_neg]
  rw [← mul_add, h1]
  ring

/-- `x (I_n - I_{n+2}) = 2 (n+1) I_{n+1}` -/
theorem besselI_recurrence (n : ℕ) (x : ℝ) :
    x * (besselI n x - besselI (n + 2) x) = 2 * (n + 1) * besselI (n + 1) x := by
  have hibp := intervalIntegral.integral_mul_deriv_eq_deriv_mul (a := 0) (b := π) (u := fun t => exp (x * cos t))
    (u' := fun t => exp (x * cos t) * (x * -sin t)) (v := fun t => sin (((n + 1 : ℕ) : ℝ) * t))
    (v' := fun t => cos (((n + 1 : ℕ) : ℝ) * t) * ((n + 1 : ℕ) : ℝ))
    (fun t _ => ((hasDerivAt_cos t).const_mul x).exp)
    (fun t _ => by
      have e : HasDerivAt (fun t : ℝ => ((n + 1 : ℕ) : ℝ) * t) ((n + 1 : ℕ) : ℝ) t := by
        simpa using (hasDerivAt_id t).const_mul ((n + 1 : ℕ) : ℝ)
      exact e.sin)
    (Continuous.intervalIntegrable (by fun_prop) _ _) (Continuous.intervalIntegrable (by fun_prop) _ _)
  rw [sin_nat_mul_pi, mul_zero, mul_zero, sin_zero, mul_zero, sub_zero, zero_sub] at hibp
  have h1 : besselI n x - besselI (n + 2) x = 1 / π * ∫ t in (0 : ℝ)..π, 2 * (exp (x * cos t) * (sin (((n + 1 : ℕ) : ℝ) * t) * sin t)) := by
    rw [besselI, besselI, ← mul_sub, ← integral_sub (Continuous.intervalIntegrable (by fun_prop) _ _)
      (Continuous.intervalIntegrable (by fun_prop) _ _)]
    congr 1
    refine integral_congr fun t _ => ?_
    have h1 : cos ((n : ℝ) * t) - cos (((n + 2 : ℕ) : ℝ) * t) = 2 * (sin (((n + 1 : ℕ) : ℝ) * t) * sin t) := by
      rw [cos_sub_cos]
      have e1 : ((n : ℝ) * t + ((n + 2 : ℕ) : ℝ) * t) / 2 = ((n + 1 : ℕ) : ℝ) * t := by push_cast; ring
      have e2 : ((n : ℝ) * t - ((n + 2 : ℕ) : ℝ) * t) / 2 = -t := by push_cast; ring
      rw [e1, e2, sin_neg]; ring
    rw [← mul_sub, h1]; ring
  have h2 : ∫ t in (0 : ℝ)..π, exp (x * cos t) * (cos (((n + 1 : ℕ) : ℝ) * t) * ((n + 1 : ℕ) : ℝ)) =
      ((n + 1 : ℕ) : ℝ) * ∫ t in (0 : ℝ)..π, exp (x * cos t) * cos (((n + 1 : ℕ) : ℝ) * t) := by
    rw [← intervalIntegral.integral_const_mul]
    exact integral_congr fun t _ => by ring
  have h3 : -∫ t in (0 : ℝ)..π, exp (x * cos t) * (x * -sin t) * sin (((n + 1 : ℕ) : ℝ) * t) =
      x * ∫ t in (0 : ℝ)..π, exp (x * cos t) * (sin (((n + 1 : ℕ) : ℝ) * t) * sin t) := by
    rw [← intervalIntegral.integral_const_mul, ← intervalIntegral.integral_neg]
    exact integral_congr fun t _ => by ring
  rw [h2, h3] at hibp
  rw [h1, intervalIntegral.integral_const_mul, besselI]
  push_cast at hibp ⊢
  linear_combination (-2 / π) * hibp

end Verif
