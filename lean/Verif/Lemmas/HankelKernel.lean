import Verif.Lemmas.Lipschitz
import Verif.Lemmas.ComplexSqrt
import Mathlib.Analysis.SpecialFunctions.Gamma.Basic
import Mathlib.Analysis.SpecialFunctions.Gaussian.GaussianIntegral
import Mathlib.Analysis.SpecialFunctions.Pow.Deriv
import Mathlib.MeasureTheory.Integral.Prod

/-! # The kernel `x³ (x² + κ²)^(-5/2)` and its transforms (helper lemmas) -/

namespace Verif

open Real Filter MeasureTheory Set
open scoped Topology

/-! ## The real kernel -/

section RealKernel

variable {b : ℝ}

/-- `x³ (x² + b²)^(-5/2)` -/
noncomputable def ker (b x : ℝ) : ℝ := x ^ 3 / √(x ^ 2 + b ^ 2) ^ 5

theorem root_pos (hb : 0 < b) (x : ℝ) : 0 < √(x ^ 2 + b ^ 2) := sqrt_pos.2 (by positivity)

theorem ker_nonneg (b : ℝ) {x : ℝ} (hx : 0 ≤ x) : 0 ≤ ker b x := by unfold ker; positivity

theorem continuous_ker (hb : 0 < b) : Continuous (ker b) := by
  unfold ker
  exact Continuous.div (by fun_prop) (by fun_prop) fun x => pow_ne_zero _ (root_pos hb x).ne'

theorem hasDerivAt_kerPrim (hb : 0 < b) (x : ℝ) :
    HasDerivAt (fun x => -(3 * x ^ 2 + 2 * b ^ 2) / (3 * √(x ^ 2 + b ^ 2) ^ 3)) (ker b x) x := by
  have hq := root_pos hb x
  have hqq := sq_sqrt (show (0:ℝ) ≤ x ^ 2 + b ^ 2 by positivity)
  have hs : HasDerivAt (fun y : ℝ => √(y ^ 2 + b ^ 2)) (2 * x / (2 * √(x ^ 2 + b ^ 2))) x :=
    (((hasDerivAt_pow 2 x).add_const (b ^ 2)).sqrt (by positivity)).congr_deriv (by simp)
  have h1 : HasDerivAt (fun x : ℝ => -(3 * x ^ 2 + 2 * b ^ 2)) (-(3 * (2 * x))) x :=
    (((((hasDerivAt_pow 2 x).const_mul 3).add_const (2 * b ^ 2)).neg)).congr_deriv (by simp)
  refine (h1.fun_div ((hs.fun_pow 3).const_mul 3) (by positivity)).congr_deriv ?_
  rw [ker]
  generalize √(x ^ 2 + b ^ 2) = q at *
  have hbq : b ^ 2 = q ^ 2 - x ^ 2 := by linarith
  rw [hbq]
  field_simp
  ring

theorem tendsto_kerPrim (hb : 0 < b) :
    Tendsto (fun x => -(3 * x ^ 2 + 2 * b ^ 2) / (3 * √(x ^ 2 + b ^ 2) ^ 3)) atTop (𝓝 0) := by
  refine squeeze_zero_norm' (a := fun x : ℝ => 1 / x) ?_ (by simpa using tendsto_inv_atTop_zero (𝕜 := ℝ))
  filter_upwards [eventually_gt_atTop 0] with x hx
  have hq := root_pos hb x
  have hqq := sq_sqrt (show (0:ℝ) ≤ x ^ 2 + b ^ 2 by positivity)
  have hxq : x ≤ √(x ^ 2 + b ^ 2) := le_sqrt_of_sq_le (by nlinarith [sq_nonneg b])
  rw [norm_eq_abs, abs_div, abs_neg, abs_of_pos (by positivity), abs_of_pos (by positivity), div_le_div_iff₀ (by positivity) hx]
  generalize √(x ^ 2 + b ^ 2) = q at *
  have h1 : 3 * x ^ 2 + 2 * b ^ 2 ≤ 3 * q ^ 2 := by nlinarith [sq_nonneg b]
  calc (3 * x ^ 2 + 2 * b ^ 2) * x ≤ 3 * q ^ 2 * q := mul_le_mul h1 hxq hx.le (by positivity)
    _ = 1 * (3 * q ^ 3) := by ring

theorem ker_zero_lim (hb : 0 < b) :
    Tendsto (fun x => -(3 * x ^ 2 + 2 * b ^ 2) / (3 * √(x ^ 2 + b ^ 2) ^ 3)) (𝓝[>] 0) (𝓝 (-(2 / (3 * b)))) := by
  have h := (hasDerivAt_kerPrim hb 0).continuousAt.tendsto
  rw [zero_pow two_ne_zero, zero_add, sqrt_sq hb.le] at h
  have e : -(3 * 0 + 2 * b ^ 2) / (3 * b ^ 3) = -(2 / (3 * b)) := by field_simp; ring
  rw [e] at h
  exact h.mono_left nhdsWithin_le_nhds

theorem integrableOn_ker (hb : 0 < b) : IntegrableOn (ker b) (Ioi 0) :=
  integrableOn_Ioi_deriv_of_nonneg (l := 0) (hasDerivAt_kerPrim hb 0).continuousAt.continuousWithinAt
    (fun x _ => hasDerivAt_kerPrim hb x) (fun _ hx => ker_nonneg b (le_of_lt hx)) (tendsto_kerPrim hb)

theorem integral_ker (hb : 0 < b) : ∫ x in Ioi (0:ℝ), ker b x = 2 / (3 * b) := by
  rw [integral_Ioi_of_limits (ker_zero_lim hb) (fun x _ => hasDerivAt_kerPrim hb x) (integrableOn_ker hb) (tendsto_kerPrim hb)]
  ring

/-- The kernel is the Laplace transform of `t^(3/2)`. -/
theorem ker_laplace {p : ℝ} (hp : 0 < p) : ∫ t in Ioi (0:ℝ), t * √t * exp (-(p * t)) = 3 * √π / 4 / √p ^ 5 := by
  have h := integral_rpow_mul_exp_neg_mul_Ioi (a := 5 / 2) (r := p) (by norm_num) hp
  have e : ∫ t in Ioi (0:ℝ), t * √t * exp (-(p * t)) = ∫ t in Ioi (0:ℝ), t ^ ((5 / 2 : ℝ) - 1) * exp (-(p * t)) := by
    refine setIntegral_congr_fun measurableSet_Ioi fun t ht => ?_
    have ht0 : (0:ℝ) < t := ht
    show t * √t * _ = t ^ ((5 / 2 : ℝ) - 1) * _
    rw [show (5 / 2 : ℝ) - 1 = 1 + 1 / 2 by norm_num, rpow_add ht0, rpow_one, ← sqrt_eq_rpow]
  have g : Gamma (5 / 2) = 3 * √π / 4 := by
    rw [show (5 / 2 : ℝ) = (1 / 2 + 1) + 1 by norm_num, Gamma_add_one (by norm_num), Gamma_add_one (by norm_num), Gamma_one_half_eq]
    ring
  have q : (1 / p) ^ (5 / 2 : ℝ) = 1 / √p ^ 5 := by
    rw [one_div, inv_rpow hp.le, sqrt_eq_rpow, ← rpow_natCast, ← rpow_mul hp.le, one_div]
    norm_num
  rw [e, h, g, q]
  ring

theorem ker_laplace_integrable {p : ℝ} (hp : 0 < p) : IntegrableOn (fun t => t * √t * exp (-(p * t))) (Ioi 0) := by
  by_contra h
  have h2 := ker_laplace hp
  rw [integral_undef h] at h2
  have : 0 < 3 * √π / 4 / √p ^ 5 := by
    have := sqrt_pos.2 pi_pos
    have := sqrt_pos.2 hp
    positivity
  linarith

variable {g : ℝ → ℝ} {C : ℝ}

/-- A transform of the kernel, by the Gaussian transforms of the same function. -/
theorem ker_transform_integrable (hg : ContinuousOn g (Ioi 0)) (hC : ∀ x, 0 < x → |g x| ≤ C) {c : ℝ} (hc : 0 < c) :
    (∫ x in Ioi (0:ℝ), ker c x * g x
      = 4 / (3 * √π) * ∫ t in Ioi (0:ℝ), t * √t * exp (-(c ^ 2 * t)) * ∫ x in Ioi (0:ℝ), x ^ 3 * exp (-t * x ^ 2) * g x)
    ∧ IntegrableOn (fun t => t * √t * exp (-(c ^ 2 * t)) * ∫ x in Ioi (0:ℝ), x ^ 3 * exp (-t * x ^ 2) * g x) (Ioi 0) := by
  have hpi : (0:ℝ) < √π := sqrt_pos.2 pi_pos
  set F : ℝ → ℝ → ℝ := fun x t => t * √t * exp (-((x ^ 2 + c ^ 2) * t)) * (x ^ 3 * g x) with hF
  have hcont : ContinuousOn (Function.uncurry F) (Ioi 0 ×ˢ Ioi 0) := by
    refine ContinuousOn.mul (Continuous.continuousOn (by fun_prop)) (ContinuousOn.mul (Continuous.continuousOn (by fun_prop)) ?_)
    exact hg.comp continuous_fst.continuousOn fun p hp => hp.1
  have hmeas : AEStronglyMeasurable (Function.uncurry F) ((volume.restrict (Ioi (0:ℝ))).prod (volume.restrict (Ioi (0:ℝ)))) := by
    rw [Measure.prod_restrict]
    exact hcont.aestronglyMeasurable (measurableSet_Ioi.prod measurableSet_Ioi)
  have hfirst : ∀ x : ℝ, 0 < x → ∫ t in Ioi (0:ℝ), t * √t * exp (-((x ^ 2 + c ^ 2) * t)) = 3 * √π / 4 / √(x ^ 2 + c ^ 2) ^ 5 := fun x _ =>
    ker_laplace (by positivity)
  have hint : Integrable (Function.uncurry F) ((volume.restrict (Ioi (0:ℝ))).prod (volume.restrict (Ioi (0:ℝ)))) := by
    rw [integrable_prod_iff hmeas]
    refine ⟨Eventually.of_forall fun x =>
      (ker_laplace_integrable (p := x ^ 2 + c ^ 2) (by positivity)).mul_const (x ^ 3 * g x), ?_⟩
    refine Integrable.mono' (((integrableOn_ker hc).const_mul (3 * √π / 4 * C))) hmeas.norm.integral_prod_right' ?_
    filter_upwards [ae_restrict_mem measurableSet_Ioi] with x hx
    have hx0 : (0:ℝ) < x := hx
    have e : ∀ t ∈ Ioi (0:ℝ), ‖Function.uncurry F (x, t)‖ = t * √t * exp (-((x ^ 2 + c ^ 2) * t)) * (x ^ 3 * |g x|) := fun t ht => by
      have ht0 : (0:ℝ) < t := ht
      show |t * √t * exp (-((x ^ 2 + c ^ 2) * t)) * (x ^ 3 * g x)| = _
      rw [abs_mul, abs_mul (x ^ 3), abs_of_pos (by positivity : 0 < t * √t * exp (-((x ^ 2 + c ^ 2) * t))), abs_of_pos (by positivity : 0 < x ^ 3)]
    rw [setIntegral_congr_fun measurableSet_Ioi e, integral_mul_const, hfirst x hx0, norm_eq_abs, abs_of_nonneg (by positivity), ker]
    calc 3 * √π / 4 / √(x ^ 2 + c ^ 2) ^ 5 * (x ^ 3 * |g x|) ≤ 3 * √π / 4 / √(x ^ 2 + c ^ 2) ^ 5 * (x ^ 3 * C) := by
          refine mul_le_mul_of_nonneg_left (mul_le_mul_of_nonneg_left (hC x hx0) (by positivity)) (by positivity)
      _ = _ := by ring
  have hswap := integral_integral_swap hint
  have e1 : ∫ x in Ioi (0:ℝ), ∫ t in Ioi (0:ℝ), F x t = 3 * √π / 4 * ∫ x in Ioi (0:ℝ), ker c x * g x := by
    rw [← integral_const_mul]
    refine setIntegral_congr_fun measurableSet_Ioi fun x hx => ?_
    show ∫ t in Ioi (0:ℝ), t * √t * exp (-((x ^ 2 + c ^ 2) * t)) * (x ^ 3 * g x) = _
    rw [integral_mul_const, hfirst x hx, ker]
    ring
  have e3 : ∀ t : ℝ, ∫ x in Ioi (0:ℝ), F x t = t * √t * exp (-(c ^ 2 * t)) * ∫ x in Ioi (0:ℝ), x ^ 3 * exp (-t * x ^ 2) * g x := fun t => by
    show ∫ x in Ioi (0:ℝ), t * √t * exp (-((x ^ 2 + c ^ 2) * t)) * (x ^ 3 * g x) = _
    rw [← integral_const_mul]
    refine setIntegral_congr_fun measurableSet_Ioi fun x _ => ?_
    show _ = t * √t * exp (-(c ^ 2 * t)) * (x ^ 3 * exp (-t * x ^ 2) * g x)
    rw [show -((x ^ 2 + c ^ 2) * t) = -(c ^ 2 * t) + -t * x ^ 2 by ring, exp_add]
    ring
  refine ⟨?_, ?_⟩
  · simp only [← e3]
    rw [← hswap, e1]
    field_simp
  · exact hint.integral_prod_right.congr (Eventually.of_forall fun t => e3 t)

theorem ker_transform (hg : ContinuousOn g (Ioi 0)) (hC : ∀ x, 0 < x → |g x| ≤ C) {c : ℝ} (hc : 0 < c) :
    ∫ x in Ioi (0:ℝ), ker c x * g x
      = 4 / (3 * √π) * ∫ t in Ioi (0:ℝ), t * √t * exp (-(c ^ 2 * t)) * ∫ x in Ioi (0:ℝ), x ^ 3 * exp (-t * x ^ 2) * g x :=
  (ker_transform_integrable hg hC hc).1

/-- `∫ x³ (x²+c²)^(-5/2) J_0(rx) dx`. -/
theorem ker_J0 {r c : ℝ} (hr : 0 < r) (hc : 0 < c) :
    ∫ x in Ioi (0:ℝ), ker c x * besselJ0 (x * r) = exp (-r * c) * (2 / (3 * c) - r / 3) := by
  have hpi : (0:ℝ) < √π := sqrt_pos.2 pi_pos
  rw [ker_transform (continuous_J0_mul r).continuousOn (fun _ _ => abs_besselJ0_le _) hc]
  have e : ∫ t in Ioi (0:ℝ), t * √t * exp (-(c ^ 2 * t)) * ∫ x in Ioi (0:ℝ), x ^ 3 * exp (-t * x ^ 2) * besselJ0 (x * r)
      = ∫ t in Ioi (0:ℝ), (1 / 2 * (mom r 0 t * exp (-c ^ 2 * t)) - r ^ 2 / 8 * (mom r 1 t * exp (-c ^ 2 * t))) := by
    refine setIntegral_congr_fun measurableSet_Ioi fun t ht => ?_
    have ht0 : (0:ℝ) < t := ht
    have hq := sqrt_pos.2 ht0
    have hqq := sq_sqrt ht0.le
    show t * √t * exp (-(c ^ 2 * t)) * (∫ x in Ioi (0:ℝ), x ^ 3 * exp (-t * x ^ 2) * besselJ0 (x * r)) = _
    rw [weber_two ht0, mom, mom, neg_mul]
    generalize exp (-(r ^ 2 / (4 * t))) = E
    generalize √t = q at *
    rw [← hqq]
    field_simp
  rw [e, integral_sub ((real_integrable_mom hr 0 hc).const_mul _) ((real_integrable_mom hr 1 hc).const_mul _), integral_const_mul,
    integral_const_mul, real_mom_zero hr hc, real_mom_one hr hc]
  field_simp
  ring

/-- `∫ x² (x²+c²)^(-5/2) J_1(rx) dx`. -/
theorem ker_J1div {r c : ℝ} (hr : 0 < r) (hc : 0 < c) :
    ∫ x in Ioi (0:ℝ), ker c x * J1div r x = exp (-r * c) * (r / (3 * c)) := by
  have hpi : (0:ℝ) < √π := sqrt_pos.2 pi_pos
  rw [ker_transform (continuousOn_J1div r) (fun _ hx => abs_J1div_le r hx) hc]
  have e : ∫ t in Ioi (0:ℝ), t * √t * exp (-(c ^ 2 * t)) * ∫ x in Ioi (0:ℝ), x ^ 3 * exp (-t * x ^ 2) * J1div r x
      = ∫ t in Ioi (0:ℝ), (r / 4 * (mom r 0 t * exp (-c ^ 2 * t))) := by
    refine setIntegral_congr_fun measurableSet_Ioi fun t ht => ?_
    have ht0 : (0:ℝ) < t := ht
    have hq := sqrt_pos.2 ht0
    have hqq := sq_sqrt ht0.le
    show t * √t * exp (-(c ^ 2 * t)) * (∫ x in Ioi (0:ℝ), x ^ 3 * exp (-t * x ^ 2) * J1div r x) = _
    have e2 : ∫ x in Ioi (0:ℝ), x ^ 3 * exp (-t * x ^ 2) * J1div r x = ∫ x in Ioi (0:ℝ), x ^ 2 * exp (-t * x ^ 2) * besselJ1 (x * r) :=
      setIntegral_congr_fun measurableSet_Ioi fun x hx => by
        have hx0 : x ≠ 0 := ne_of_gt hx
        show x ^ 3 * exp (-t * x ^ 2) * (besselJ1 (x * r) / x) = _
        field_simp
    rw [e2, weber_one ht0, mom, neg_mul]
    generalize exp (-(r ^ 2 / (4 * t))) = E
    generalize √t = q at *
    rw [← hqq]
    field_simp
  rw [e, integral_const_mul, real_mom_zero hr hc]
  field_simp

end RealKernel

end Verif
