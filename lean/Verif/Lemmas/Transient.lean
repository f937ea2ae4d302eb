import Verif.Spec.Erf
import Verif.Lemmas.Bessel
import Mathlib.Analysis.SpecialFunctions.Gaussian.GaussianIntegral
import Mathlib.MeasureTheory.Integral.IntegralEqImproper
import Mathlib.Analysis.Calculus.Deriv.MeanValue
import Mathlib.Analysis.SpecialFunctions.Trigonometric.Bounds

/-! # Limits and signs of the transient shape functions (helper lemmas) -/

namespace Verif

open Real Filter MeasureTheory
open scoped Topology

theorem tendsto_erf_atTop : Tendsto erf atTop (𝓝 1) := by
  have h := intervalIntegral_tendsto_integral_Ioi (f := fun t : ℝ => exp (-1 * t ^ 2)) 0
    (integrable_exp_neg_mul_sq one_pos).integrableOn tendsto_id
  rw [integral_gaussian_Ioi] at h
  have h2 := h.const_mul (2 / √π)
  have e : 2 / √π * (√(π / 1) / 2) = 1 := by
    have : √π ≠ 0 := (sqrt_pos.2 pi_pos).ne'
    rw [div_one]; field_simp
  rw [e] at h2
  simp only [neg_mul, one_mul] at h2
  exact h2

theorem erf_pos {u : ℝ} (hu : 0 < u) : 0 < erf u := by
  refine mul_pos (by positivity) (intervalIntegral.intervalIntegral_pos_of_pos ?_ (fun x => exp_pos _) hu)
  exact (by fun_prop : Continuous fun t : ℝ => exp (-t ^ 2)).intervalIntegrable _ _

/-- What is left of `erf` after its leading gaussian term. -/
noncomputable def erfRest (u : ℝ) : ℝ := erf u - 2 * u / √π * exp (-u ^ 2)

theorem hasDerivAt_exp_neg_sq (u : ℝ) : HasDerivAt (fun u : ℝ => exp (-u ^ 2)) (-2 * u * exp (-u ^ 2)) u := by
  have hp : HasDerivAt (fun u : ℝ => -u ^ 2) (-(2 * u)) u := by simpa using ((hasDerivAt_id u).fun_pow 2).fun_neg
  exact hp.exp.congr_deriv (by ring)

theorem hasDerivAt_erfRest (u : ℝ) : HasDerivAt erfRest (4 * u ^ 2 / √π * exp (-u ^ 2)) u := by
  have hpi : √π ≠ 0 := (sqrt_pos.2 pi_pos).ne'
  have hl : HasDerivAt (fun u : ℝ => 2 * u / √π) (2 / √π) u := by
    simpa using ((hasDerivAt_id u).const_mul (2 : ℝ)).div_const √π
  refine ((hasDerivAt_erf u).fun_sub (hl.fun_mul (hasDerivAt_exp_neg_sq u))).congr_deriv ?_
  field_simp
  ring

theorem erfRest_zero : erfRest 0 = 0 := by simp [erfRest]

/-- A function vanishing at 0 whose derivative is positive to the right of 0 is positive there. -/
theorem pos_of_deriv {f f' : ℝ → ℝ} (h0 : f 0 = 0) (hf : ∀ u, HasDerivAt f (f' u) u) (hp : ∀ u, 0 < u → 0 < f' u)
    {u : ℝ} (hu : 0 < u) : 0 < f u := by
  have hm : StrictMonoOn f (Set.Ici 0) := by
    refine strictMonoOn_of_deriv_pos (convex_Ici 0) (fun x _ => (hf x).continuousAt.continuousWithinAt) fun x hx => ?_
    rw [interior_Ici] at hx
    rw [(hf x).deriv]; exact hp x hx
  have := hm (Set.self_mem_Ici) hu.le hu
  rwa [h0] at this

theorem erfRest_lt {u : ℝ} (hu : 0 < u) : erfRest u < 4 * u ^ 3 / (3 * √π) := by
  have hpi : 0 < √π := sqrt_pos.2 pi_pos
  have hc : ∀ u : ℝ, HasDerivAt (fun u : ℝ => 4 * u ^ 3 / (3 * √π)) (4 * u ^ 2 / √π) u := fun u => by
    have h3 : HasDerivAt (fun u : ℝ => u ^ 3) (3 * u ^ 2) u := by simpa using (hasDerivAt_id u).fun_pow 3
    exact ((h3.const_mul 4).div_const _).congr_deriv (by field_simp)
  have := pos_of_deriv (f := fun u => 4 * u ^ 3 / (3 * √π) - erfRest u) (by simp [erfRest_zero])
    (fun u => (hc u).fun_sub (hasDerivAt_erfRest u)) (fun v hv => by
      have : exp (-v ^ 2) < 1 := by rw [← exp_zero]; exact exp_lt_exp.2 (by nlinarith)
      have h : 0 < 4 * v ^ 2 / √π := by positivity
      nlinarith) hu
  linarith

theorem lt_erfRest {u : ℝ} (hu : 0 < u) : 4 * u ^ 3 / (3 * √π) * exp (-u ^ 2) < erfRest u := by
  have hpi : 0 < √π := sqrt_pos.2 pi_pos
  have hc : ∀ u : ℝ, HasDerivAt (fun u : ℝ => 4 * u ^ 3 / (3 * √π)) (4 * u ^ 2 / √π) u := fun u => by
    have h3 : HasDerivAt (fun u : ℝ => u ^ 3) (3 * u ^ 2) u := by simpa using (hasDerivAt_id u).fun_pow 3
    exact ((h3.const_mul 4).div_const _).congr_deriv (by field_simp)
  have := pos_of_deriv (f := fun u => erfRest u - 4 * u ^ 3 / (3 * √π) * exp (-u ^ 2)) (by simp [erfRest_zero])
    (fun u => (hasDerivAt_erfRest u).fun_sub ((hc u).fun_mul (hasDerivAt_exp_neg_sq u))) (fun v hv => by
      have h : 0 < 4 * v ^ 3 / (3 * √π) * (2 * v * exp (-v ^ 2)) := by positivity
      nlinarith) hu
  linarith

/-- The gaussian tail times any power vanishes. -/
theorem tendsto_pow_mul_gauss (n : ℕ) : Tendsto (fun u : ℝ => u ^ n * exp (-u ^ 2)) atTop (𝓝 0) := by
  have h := tendsto_pow_mul_exp_neg_atTop_nhds_zero n
  refine squeeze_zero' ?_ ?_ h
  · filter_upwards [eventually_ge_atTop 0] with u hu
    positivity
  · filter_upwards [eventually_ge_atTop 1] with u hu
    have : -u ^ 2 ≤ -u := by nlinarith
    gcongr

/-- The difference of scaled Bessel functions vanishes faster than `1/w` at infinity. -/
theorem tendsto_bessel_atTop : Tendsto (fun w => w * (besselIe 1 w - besselIe 2 w)) atTop (𝓝 0) := by
  have hb : ∀ t : ℝ, |t| ≤ π → ∀ w : ℝ, 0 ≤ w →
      ‖w * (exp (-(w * (1 - cos t))) * (cos t - cos (2 * t)))‖ ≤ 3 := by
    intro t _ w hw
    have hc : cos t - cos (2 * t) = (1 - cos t) * (1 + 2 * cos t) := by rw [cos_two_mul]; ring
    have h1 : 0 ≤ 1 - cos t := by linarith [cos_le_one t]
    have hw1 : 0 ≤ w * (1 - cos t) := by positivity
    have he : w * (1 - cos t) * exp (-(w * (1 - cos t))) ≤ 1 := by
      have := add_one_le_exp (w * (1 - cos t))
      rw [exp_neg]
      rw [mul_inv_le_iff₀ (exp_pos _)]
      linarith
    have h3 : |1 + 2 * cos t| ≤ 3 := by
      rw [abs_le]; constructor <;> linarith [cos_le_one t, neg_one_le_cos t]
    rw [hc, show w * (exp (-(w * (1 - cos t))) * ((1 - cos t) * (1 + 2 * cos t))) =
      w * (1 - cos t) * exp (-(w * (1 - cos t))) * (1 + 2 * cos t) by ring, norm_mul, norm_eq_abs, norm_eq_abs,
      abs_of_nonneg (by positivity)]
    have := exp_pos (-(w * (1 - cos t)))
    nlinarith [abs_nonneg (1 + 2 * cos t)]
  have hlim : Tendsto (fun w : ℝ => ∫ t in (0 : ℝ)..π, w * (exp (-(w * (1 - cos t))) * (cos t - cos (2 * t)))) atTop
      (𝓝 (∫ _ in (0 : ℝ)..π, (0 : ℝ))) := by
    refine intervalIntegral.tendsto_integral_filter_of_dominated_convergence (fun _ => 3) ?_ ?_ ?_ ?_
    · refine Eventually.of_forall fun w => Continuous.aestronglyMeasurable (by fun_prop)
    · filter_upwards [eventually_ge_atTop 0] with w hw
      refine ae_of_all _ fun t ht => hb t ?_ w hw
      rw [Set.uIoc_of_le pi_pos.le] at ht
      rw [abs_of_pos ht.1]; exact ht.2
    · exact intervalIntegrable_const
    · refine ae_of_all _ fun t ht => ?_
      rw [Set.uIoc_of_le pi_pos.le] at ht
      have hc : 0 < 1 - cos t := by
        have := cos_lt_cos_of_nonneg_of_le_pi le_rfl ht.2 ht.1
        rw [cos_zero] at this
        linarith
      have h := (tendsto_pow_mul_exp_neg_atTop_nhds_zero 1).comp (tendsto_id.atTop_mul_const hc)
      have h2 := h.const_mul ((cos t - cos (2 * t)) / (1 - cos t))
      rw [mul_zero] at h2
      refine h2.congr fun w => ?_
      simp only [Function.comp, id, pow_one]
      field_simp
  rw [intervalIntegral.integral_zero] at hlim
  have hfin := hlim.const_mul (1 / π)
  rw [mul_zero] at hfin
  refine hfin.congr' ?_
  filter_upwards [eventually_ge_atTop 0] with w hw
  rw [besselIe, besselIe, abs_of_nonneg hw, ← mul_sub, besselI, besselI, ← mul_sub,
    ← intervalIntegral.integral_sub (Continuous.intervalIntegrable (by fun_prop) _ _)
      (Continuous.intervalIntegrable (by fun_prop) _ _)]
  rw [show w * (exp (-w) * (1 / π * ∫ t in (0 : ℝ)..π,
      (exp (w * cos t) * cos ((1 : ℕ) * t) - exp (w * cos t) * cos ((2 : ℕ) * t)))) =
    1 / π * ((w * exp (-w)) * ∫ t in (0 : ℝ)..π,
      (exp (w * cos t) * cos ((1 : ℕ) * t) - exp (w * cos t) * cos ((2 : ℕ) * t))) by ring]
  congr 1
  rw [← intervalIntegral.integral_const_mul]
  refine intervalIntegral.integral_congr fun t _ => ?_
  simp only [Nat.cast_one, one_mul, Nat.cast_ofNat]
  rw [show -(w * (1 - cos t)) = -w + w * cos t by ring, exp_add]
  ring

theorem continuous_besselI (n : ℕ) : Continuous (besselI n) :=
  continuous_iff_continuousAt.2 fun x => (hasDerivAt_besselI_int n x).continuousAt

theorem continuous_besselIe (n : ℕ) : Continuous (besselIe n) := by
  have := continuous_besselI n
  unfold besselIe
  fun_prop

end Verif
