import Verif.Spec.Elliptic
import Mathlib.Analysis.Calculus.ParametricIntervalIntegral
import Mathlib.MeasureTheory.Integral.IntervalIntegral.FundThmCalculus
import Mathlib.Analysis.SpecialFunctions.Trigonometric.Deriv
import Mathlib.Analysis.SpecialFunctions.Integrals.Basic
import Mathlib.Tactic.FieldSimp
import Mathlib.Tactic.LinearCombination

/-! # Integrals and derivatives of complete elliptic integrals (helper lemmas) -/

namespace Verif

open Real MeasureTheory intervalIntegral

/-- `1 - m sin² t` is positive. -/
theorem ellipD_pos {m : ℝ} (h1 : m < 1) (t : ℝ) : 0 < 1 - m * sin t ^ 2 := by
  have hs := sin_sq_le_one t
  rcases le_or_gt 0 m with h | h
  · nlinarith [sq_nonneg (sin t)]
  · nlinarith [sq_nonneg (sin t)]

theorem continuous_inv_sqrtD {m : ℝ} (h1 : m < 1) : Continuous fun t : ℝ => 1 / √(1 - m * sin t ^ 2) := by
  refine continuous_const.div (by fun_prop) fun t => ?_
  exact (sqrt_pos.2 (ellipD_pos h1 t)).ne'

theorem continuous_inv_D32 {m : ℝ} (h1 : m < 1) :
    Continuous fun t : ℝ => 1 / ((1 - m * sin t ^ 2) * √(1 - m * sin t ^ 2)) := by
  refine continuous_const.div (by fun_prop) fun t => ?_
  have := ellipD_pos h1 t
  have := sqrt_pos.2 this
  positivity

@[simp] theorem ellipK_zero : ellipK 0 = π / 2 := by simp [ellipK]
@[simp] theorem ellipE_zero : ellipE 0 = π / 2 := by simp [ellipE]

/-- `∫ sin²/√D = (K - E)/m` -/
theorem integral_sin_sq_div {m : ℝ} (h1 : m < 1) (h0 : m ≠ 0) :
    ∫ t in (0 : ℝ)..(π / 2), sin t ^ 2 / √(1 - m * sin t ^ 2) = (ellipK m - ellipE m) / m := by
  rw [ellipK, ellipE, ← integral_sub ((continuous_inv_sqrtD h1).intervalIntegrable _ _)
    (Continuous.intervalIntegrable (by fun_prop) _ _), ← intervalIntegral.integral_div]
  refine integral_congr fun t _ => ?_
  have hD := ellipD_pos h1 t
  have hs := sqrt_pos.2 hD
  have hsq := sq_sqrt hD.le
  generalize √(1 - m * sin t ^ 2) = r at *
  field_simp
  linarith

/-- `∫ D^(-3/2) = E/(1-m)` -/
theorem integral_inv_D32 {m : ℝ} (h1 : m < 1) :
    ∫ t in (0 : ℝ)..(π / 2), 1 / ((1 - m * sin t ^ 2) * √(1 - m * sin t ^ 2)) = ellipE m / (1 - m) := by
  have hd : ∀ t ∈ Set.uIcc (0 : ℝ) (π / 2), HasDerivAt (fun t => m * (sin t * cos t / √(1 - m * sin t ^ 2)))
      (√(1 - m * sin t ^ 2) - (1 - m) * (1 / ((1 - m * sin t ^ 2) * √(1 - m * sin t ^ 2)))) t := by
    intro t _
    have hD := ellipD_pos h1 t
    have hs := sqrt_pos.2 hD
    have hsq := sq_sqrt hD.le
    have e1 : HasDerivAt (fun t => 1 - m * sin t ^ 2) (-(m * (2 * sin t * cos t))) t := by
      refine (((hasDerivAt_sin t).pow 2).const_mul m).const_sub 1 |>.congr_deriv ?_
      simp
    have e2 := e1.sqrt hD.ne'
    have e3 := ((((hasDerivAt_sin t).mul (hasDerivAt_cos t)).div e2 hs.ne').const_mul m)
    refine e3.congr_deriv ?_
    have hc : cos t ^ 2 = 1 - sin t ^ 2 := by have := sin_sq_add_cos_sq t; linarith
    generalize hr : √(1 - m * sin t ^ 2) = r at *
    have hD' : 1 - m * sin t ^ 2 = r ^ 2 := hsq.symm
    rw [hD']
    field_simp
    simp only [Pi.mul_apply]
    generalize sin t = s at *
    generalize cos t = c at *
    have hm : m * s ^ 2 = 1 - r ^ 2 := by linarith
    linear_combination (m * r ^ 2 + m ^ 2 * s ^ 2) * hc + (m - m * s ^ 2 - r ^ 2 - 1) * hm
  have hint : IntervalIntegrable (fun t => √(1 - m * sin t ^ 2) -
      (1 - m) * (1 / ((1 - m * sin t ^ 2) * √(1 - m * sin t ^ 2)))) volume 0 (π / 2) :=
    Continuous.intervalIntegrable (Continuous.sub (by fun_prop) (continuous_const.mul (continuous_inv_D32 h1))) _ _
  have h := integral_eq_sub_of_hasDerivAt hd hint
  rw [integral_sub (Continuous.intervalIntegrable (by fun_prop) _ _)
    (((continuous_inv_D32 h1).intervalIntegrable _ _).const_mul _),
    intervalIntegral.integral_const_mul] at h
  simp only [sin_zero, cos_pi_div_two, mul_zero, zero_mul, zero_div, sub_zero] at h
  rw [eq_div_iff (by linarith), ellipE]
  linarith

/-- `∫ sin² D^(-3/2) = (E/(1-m) - K)/m` -/
theorem integral_sin_sq_D32 {m : ℝ} (h1 : m < 1) (h0 : m ≠ 0) :
    ∫ t in (0 : ℝ)..(π / 2), sin t ^ 2 / ((1 - m * sin t ^ 2) * √(1 - m * sin t ^ 2)) =
      (ellipE m / (1 - m) - ellipK m) / m := by
  rw [← integral_inv_D32 h1, ellipK, ← integral_sub ((continuous_inv_D32 h1).intervalIntegrable _ _)
    ((continuous_inv_sqrtD h1).intervalIntegrable _ _), ← intervalIntegral.integral_div]
  refine integral_congr fun t _ => ?_
  have hD := ellipD_pos h1 t
  have hs := sqrt_pos.2 hD
  generalize √(1 - m * sin t ^ 2) = r at *
  generalize hDd : 1 - m * sin t ^ 2 = d at *
  have : sin t ^ 2 = (1 - d) / m := by rw [← hDd]; field_simp; ring
  rw [this]
  field_simp

theorem hasDerivAt_ellipK {m : ℝ} (h0 : 0 < m) (h1 : m < 1) :
    HasDerivAt ellipK ((ellipE m / (1 - m) - ellipK m) / (2 * m)) m := by
  have hs : Set.Ioo 0 ((1 + m) / 2) ∈ nhds m := Ioo_mem_nhds h0 (by linarith)
  have hc : 0 < (1 - m) / 2 := by linarith
  have key := (hasDerivAt_integral_of_dominated_loc_of_deriv_le (μ := volume) (a := 0) (b := π / 2)
    (F := fun m t => 1 / √(1 - m * sin t ^ 2))
    (F' := fun m t => sin t ^ 2 / ((1 - m * sin t ^ 2) * √(1 - m * sin t ^ 2)) / 2) (x₀ := m)
    (bound := fun _ => 1 / ((1 - m) / 2 * √((1 - m) / 2)) / 2) hs ?_ ?_ ?_ ?_ ?_ ?_).2
  · refine key.congr_deriv ?_
    rw [intervalIntegral.integral_div, integral_sin_sq_D32 h1 h0.ne']
    rw [div_div, mul_comm m 2]
  · filter_upwards [Iio_mem_nhds h1] with x hx
    exact (continuous_inv_sqrtD hx).aestronglyMeasurable
  · exact (continuous_inv_sqrtD h1).intervalIntegrable _ _
  · refine Continuous.aestronglyMeasurable (Continuous.div_const (Continuous.div (by fun_prop) (by fun_prop) fun t => ?_) _)
    have := ellipD_pos h1 t
    have := sqrt_pos.2 this
    positivity
  · refine Filter.Eventually.of_forall fun t _ x hx => ?_
    have hD := ellipD_pos (show x < 1 by linarith [hx.2]) t
    have hs1 := sin_sq_le_one t
    have hge : (1 - m) / 2 ≤ 1 - x * sin t ^ 2 := by nlinarith [hx.1, hx.2, sq_nonneg (sin t)]
    have hsge := sqrt_le_sqrt hge
    have hsp := sqrt_pos.2 hc
    rw [norm_eq_abs, abs_of_nonneg (by have := sqrt_pos.2 hD; positivity)]
    refine div_le_div_of_nonneg_right ?_ (by norm_num)
    exact div_le_div₀ (by norm_num) hs1 (by positivity) (mul_le_mul hge hsge hsp.le hD.le)
  · exact intervalIntegrable_const
  · refine Filter.Eventually.of_forall fun t _ x hx => ?_
    have hD := ellipD_pos (show x < 1 by linarith [hx.2]) t
    have hsp := sqrt_pos.2 hD
    have e1 : HasDerivAt (fun x : ℝ => 1 - x * sin t ^ 2) (-(1 * sin t ^ 2)) x :=
      ((hasDerivAt_id x).mul_const _).const_sub 1
    have e2 := (hasDerivAt_const x (1 : ℝ)).div (e1.sqrt hD.ne') hsp.ne'
    refine e2.congr_deriv ?_
    have hsq := sq_sqrt hD.le
    generalize √(1 - x * sin t ^ 2) = r at *
    rw [← hsq]
    field_simp
    ring

theorem hasDerivAt_ellipE {m : ℝ} (h0 : 0 < m) (h1 : m < 1) :
    HasDerivAt ellipE ((ellipE m - ellipK m) / (2 * m)) m := by
  have hs : Set.Ioo 0 ((1 + m) / 2) ∈ nhds m := Ioo_mem_nhds h0 (by linarith)
  have hc : 0 < (1 - m) / 2 := by linarith
  have key := (hasDerivAt_integral_of_dominated_loc_of_deriv_le (μ := volume) (a := 0) (b := π / 2)
    (F := fun m t => √(1 - m * sin t ^ 2))
    (F' := fun m t => -(sin t ^ 2 / √(1 - m * sin t ^ 2) / 2)) (x₀ := m)
    (bound := fun _ => 1 / √((1 - m) / 2) / 2) hs ?_ ?_ ?_ ?_ ?_ ?_).2
  · refine key.congr_deriv ?_
    rw [intervalIntegral.integral_neg, intervalIntegral.integral_div, integral_sin_sq_div h1 h0.ne']
    field_simp
    ring
  · filter_upwards [Iio_mem_nhds h1] with x hx
    exact Continuous.aestronglyMeasurable (by fun_prop)
  · exact Continuous.intervalIntegrable (by fun_prop) _ _
  · refine Continuous.aestronglyMeasurable (Continuous.neg (Continuous.div_const
      (Continuous.div (by fun_prop) (by fun_prop) fun t => ?_) _))
    exact (sqrt_pos.2 (ellipD_pos h1 t)).ne'
  · refine Filter.Eventually.of_forall fun t _ x hx => ?_
    have hD := ellipD_pos (show x < 1 by linarith [hx.2]) t
    have hs1 := sin_sq_le_one t
    have hge : (1 - m) / 2 ≤ 1 - x * sin t ^ 2 := by nlinarith [hx.1, hx.2, sq_nonneg (sin t)]
    have hsge := sqrt_le_sqrt hge
    have hsp := sqrt_pos.2 hc
    rw [norm_eq_abs, abs_neg, abs_of_nonneg (by have := sqrt_pos.2 hD; positivity)]
    refine div_le_div_of_nonneg_right ?_ (by norm_num)
    exact div_le_div₀ (by norm_num) hs1 (by positivity) hsge
  · exact intervalIntegrable_const
  · refine Filter.Eventually.of_forall fun t _ x hx => ?_
    have hD := ellipD_pos (show x < 1 by linarith [hx.2]) t
    have hsp := sqrt_pos.2 hD
    have e1 : HasDerivAt (fun x : ℝ => 1 - x * sin t ^ 2) (-(1 * sin t ^ 2)) x :=
      ((hasDerivAt_id x).mul_const _).const_sub 1
    refine (e1.sqrt hD.ne').congr_deriv ?_
    field_simp
    try ring

end Verif
