import Verif.Spec.BesselJ
import Mathlib.Analysis.Calculus.ParametricIntervalIntegral
import Mathlib.MeasureTheory.Integral.IntervalIntegral.IntegrationByParts
import Mathlib.Analysis.SpecialFunctions.Trigonometric.Deriv

/-! # Derivatives of the Bessel functions (helper lemmas) -/

namespace Verif

open Real MeasureTheory intervalIntegral

theorem hasDerivAt_param (F F' : ℝ → ℝ → ℝ) (hF : Continuous fun p : ℝ × ℝ => F p.1 p.2) (hF' : Continuous fun p : ℝ × ℝ => F' p.1 p.2)
    (hb : ∀ x t, |F' x t| ≤ 1) (hd : ∀ x t, HasDerivAt (fun y => F y t) (F' x t) x) (x : ℝ) :
    HasDerivAt (fun x => ∫ t in (0 : ℝ)..π, F x t) (∫ t in (0 : ℝ)..π, F' x t) x := by
  have c : ∀ y, Continuous (F y) := fun y => hF.comp (continuous_const.prodMk continuous_id)
  have c' : ∀ y, Continuous (F' y) := fun y => hF'.comp (continuous_const.prodMk continuous_id)
  refine (hasDerivAt_integral_of_dominated_loc_of_deriv_le (μ := volume) (a := 0) (b := π) (F := F) (F' := F') (x₀ := x)
    (bound := fun _ => 1) (Metric.ball_mem_nhds x one_pos) ?_ ?_ ?_ ?_ ?_ ?_).2
  · exact Filter.Eventually.of_forall fun y => (c y).aestronglyMeasurable
  · exact (c x).intervalIntegrable _ _
  · exact (c' x).aestronglyMeasurable
  · exact Filter.Eventually.of_forall fun t _ y _ => by rw [norm_eq_abs]; exact hb y t
  · exact intervalIntegrable_const
  · exact Filter.Eventually.of_forall fun t _ y _ => hd y t

/-- `J_0' = -J_1` -/
theorem hasDerivAt_besselJ0 (x : ℝ) : HasDerivAt besselJ0 (-besselJ1 x) x := by
  have h := (hasDerivAt_param (fun x t => cos (x * cos t)) (fun x t => -(cos t * sin (x * cos t))) (by fun_prop) (by fun_prop)
    (fun x t => by
      rw [abs_neg, abs_mul]
      exact mul_le_one₀ (abs_cos_le_one _) (abs_nonneg _) (abs_sin_le_one _))
    (fun x t => by
      have e : HasDerivAt (fun y : ℝ => y * cos t) (cos t) x := by simpa using (hasDerivAt_id x).mul_const (cos t)
      exact e.cos.congr_deriv (by ring)) x).const_mul (1 / π)
  refine h.congr_deriv ?_
  rw [besselJ1, intervalIntegral.integral_neg]
  ring

/-- `J_1 = x/π ∫ sin² t cos(x cos t) dt` -/
theorem besselJ1_eq (x : ℝ) : besselJ1 x = x * (1 / π * ∫ t in (0 : ℝ)..π, sin t ^ 2 * cos (x * cos t)) := by
  have h := intervalIntegral.integral_mul_deriv_eq_deriv_mul (a := 0) (b := π) (u := fun t => sin (x * cos t))
    (u' := fun t => cos (x * cos t) * (x * -sin t)) (v := sin) (v' := cos)
    (fun t _ => ((hasDerivAt_cos t).const_mul x).sin) (fun t _ => hasDerivAt_sin t)
    (Continuous.intervalIntegrable (by fun_prop) _ _) (Continuous.intervalIntegrable (by fun_prop) _ _)
  rw [sin_pi, sin_zero, mul_zero, mul_zero, sub_zero, zero_sub, ← intervalIntegral.integral_neg] at h
  have e1 : ∫ t in (0 : ℝ)..π, cos t * sin (x * cos t) = ∫ t in (0 : ℝ)..π, sin (x * cos t) * cos t :=
    integral_congr fun t _ => by ring
  have e2 : ∫ t in (0 : ℝ)..π, -(cos (x * cos t) * (x * -sin t) * sin t) = x * ∫ t in (0 : ℝ)..π, sin t ^ 2 * cos (x * cos t) := by
    rw [← intervalIntegral.integral_const_mul]
    exact integral_congr fun t _ => by ring
  rw [besselJ1, e1, h, e2]
  ring

/-- `J_1' = J_0 - J_1/x` -/
theorem hasDerivAt_besselJ1 {x : ℝ} (hx : 0 < x) : HasDerivAt besselJ1 (besselJ0 x - besselJ1 x / x) x := by
  have h := (hasDerivAt_param (fun x t => cos t * sin (x * cos t)) (fun x t => cos t ^ 2 * cos (x * cos t)) (by fun_prop) (by fun_prop)
    (fun x t => by
      rw [abs_mul, abs_pow]
      exact mul_le_one₀ (pow_le_one₀ (abs_nonneg _) (abs_cos_le_one _)) (abs_nonneg _) (abs_cos_le_one _))
    (fun x t => by
      have e : HasDerivAt (fun y : ℝ => y * cos t) (cos t) x := by simpa using (hasDerivAt_id x).mul_const (cos t)
      exact (e.sin.const_mul (cos t)).congr_deriv (by ring)) x).const_mul (1 / π)
  refine h.congr_deriv ?_
  rw [besselJ1_eq, besselJ0, mul_div_cancel_left₀ _ hx.ne', ← mul_sub, ← integral_sub (Continuous.intervalIntegrable (by fun_prop) _ _)
      (Continuous.intervalIntegrable (by fun_prop) _ _)]
  congr 1
  refine integral_congr fun t _ => ?_
  rw [cos_sq']
  ring

end Verif
