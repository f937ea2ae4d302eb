import Verif.Spec.BesselIK
import Mathlib.Analysis.SpecialFunctions.Gaussian.GaussianIntegral
import Mathlib.Analysis.SpecialFunctions.Trigonometric.Bounds
import Mathlib.Analysis.SpecialFunctions.Trigonometric.DerivHyp
import Mathlib.MeasureTheory.Integral.IntegralEqImproper
import Mathlib.MeasureTheory.Integral.DominatedConvergence

/-! # Modified Bessel functions: continuity, behaviour at zero and at infinity -/

namespace Verif.BesselIK

open Real MeasureTheory Set Filter Topology

theorem cosh_le_gauss {b : ℝ} (hb : 0 < b) (N s : ℝ) : cosh (N * s) ≤ exp (N ^ 2 / b) * exp (b / 4 * s ^ 2) := by
  have h1 : ∀ M : ℝ, M ^ 2 = N ^ 2 → exp (M * s) ≤ exp (N ^ 2 / b) * exp (b / 4 * s ^ 2) := by
    intro M hM
    rw [← exp_add, exp_le_exp, ← hM]
    have : M ^ 2 / b + b / 4 * s ^ 2 - M * s = (M - b / 2 * s) ^ 2 / b := by field_simp; ring
    have h2 : 0 ≤ (M - b / 2 * s) ^ 2 / b := by positivity
    linarith
  rw [cosh_eq]
  have := h1 N rfl
  have h3 := h1 (-N) (by ring)
  rw [neg_mul] at h3
  linarith

theorem sq_le_gauss {b : ℝ} (hb : 0 < b) (s : ℝ) : 1 + s ^ 2 ≤ (1 + 4 / b) * exp (b / 4 * s ^ 2) := by
  have h := add_one_le_exp (b / 4 * s ^ 2)
  have h0 : 0 ≤ b / 4 * s ^ 2 := by positivity
  have h1 : s ^ 2 ≤ 4 / b * exp (b / 4 * s ^ 2) := by
    have : s ^ 2 = 4 / b * (b / 4 * s ^ 2) := by field_simp
    rw [this]
    gcongr
    rw [← this]
    linarith
  nlinarith

theorem integrable_gauss_cosh {b : ℝ} (hb : 0 < b) (N : ℝ) :
    Integrable (fun s : ℝ => exp (-b * s ^ 2) * ((1 + s ^ 2) * cosh (N * s))) := by
  have hi := (integrable_exp_neg_mul_sq (b := b / 2) (by positivity)).const_mul ((1 + 4 / b) * exp (N ^ 2 / b))
  refine hi.mono' (by fun_prop) (ae_of_all _ fun s => ?_)
  have h1 := cosh_le_gauss hb N s
  have h2 := sq_le_gauss hb s
  rw [norm_of_nonneg (by positivity)]
  calc exp (-b * s ^ 2) * ((1 + s ^ 2) * cosh (N * s))
      ≤ exp (-b * s ^ 2) * (((1 + 4 / b) * exp (b / 4 * s ^ 2)) * (exp (N ^ 2 / b) * exp (b / 4 * s ^ 2))) := by gcongr
    _ = (1 + 4 / b) * exp (N ^ 2 / b) * (exp (-b * s ^ 2) * exp (b / 4 * s ^ 2) * exp (b / 4 * s ^ 2)) := by ring
    _ = _ := by
      rw [← exp_add, ← exp_add]
      congr 2
      ring

theorem norm_cexp_ray (t c : ℂ) (x : ℝ) (ht : t.im = 0) : ‖Complex.exp (-(t * c) * (x : ℂ))‖ = exp (-(t.re * c.re) * x) := by
  rw [Complex.norm_exp]
  simp [ht]

/-- Laplace's method on a ray: a phase that starts like `u²/2` and a weight that starts like `l u^(2k)`. -/
theorem ray_limit {phi w : ℝ → ℝ} {b C N l : ℝ} {c : ℂ} (k : ℕ) (hk : k ≤ 1) (hb : 0 < b) (hc : 0 < c.re)
    (hpm : Measurable phi) (hwm : Measurable w)
    (hphi : ∀ u, 0 < u → w u ≠ 0 → b * u ^ 2 ≤ phi u)
    (hphil : Tendsto (fun u => phi u / u ^ 2) (𝓝[>] 0) (𝓝 (1 / 2)))
    (hwl : Tendsto (fun u => w u / u ^ (2 * k)) (𝓝[>] 0) (𝓝 l))
    (hC : 0 ≤ C) (hwb : ∀ u, 0 < u → |w u| ≤ C * u ^ (2 * k) * cosh (N * u)) :
    Tendsto (fun t : ℝ => ((√t * t ^ k : ℝ) : ℂ) * ∫ u in Ioi (0 : ℝ), Complex.exp (-(t * c) * (phi u : ℝ)) * (w u : ℝ))
      atTop (𝓝 (∫ s in Ioi (0 : ℝ), Complex.exp (-c * ((s ^ 2 / 2 : ℝ) : ℂ)) * ((l * s ^ (2 * k) : ℝ) : ℂ))) := by
  have hscale : ∀ t : ℝ, 0 < t →
      ((√t * t ^ k : ℝ) : ℂ) * ∫ u in Ioi (0 : ℝ), Complex.exp (-(t * c) * (phi u : ℝ)) * (w u : ℝ)
      = ∫ s in Ioi (0 : ℝ), Complex.exp (-c * ((t * phi ((√t)⁻¹ * s) : ℝ) : ℂ)) * ((t ^ k * w ((√t)⁻¹ * s) : ℝ) : ℂ) := by
    intro t ht
    have hs : 0 < √t := sqrt_pos.2 ht
    have h := integral_comp_mul_left_Ioi (fun u => Complex.exp (-c * ((t * phi u : ℝ) : ℂ)) * ((t ^ k * w u : ℝ) : ℂ)) 0
      (inv_pos.2 hs)
    rw [mul_zero, inv_inv] at h
    rw [h, ← integral_smul, ← integral_const_mul]
    refine setIntegral_congr_fun measurableSet_Ioi fun u _ => ?_
    simp only [Complex.real_smul]
    push_cast
    rw [show -(t * c) * (phi u : ℂ) = -c * (t * phi u) by ring]
    ring
  have hev : ∀ᶠ t : ℝ in atTop, (∫ s in Ioi (0 : ℝ), Complex.exp (-c * ((t * phi ((√t)⁻¹ * s) : ℝ) : ℂ)) * ((t ^ k * w ((√t)⁻¹ * s) : ℝ) : ℂ))
      = ((√t * t ^ k : ℝ) : ℂ) * ∫ u in Ioi (0 : ℝ), Complex.exp (-(t * c) * (phi u : ℝ)) * (w u : ℝ) := by
    filter_upwards [eventually_gt_atTop 0] with t ht
    exact (hscale t ht).symm
  refine Tendsto.congr' hev ?_
  have hbc : 0 < b * c.re := mul_pos hb hc
  refine tendsto_integral_filter_of_dominated_convergence
    (fun s => C * (exp (-(b * c.re) * s ^ 2) * ((1 + s ^ 2) * cosh (N * s)))) ?_ ?_ ?_ ?_
  · refine Eventually.of_forall fun t => ?_
    refine Measurable.aestronglyMeasurable ?_
    fun_prop
  · filter_upwards [eventually_ge_atTop 1] with t ht
    filter_upwards [ae_restrict_mem measurableSet_Ioi] with s hs
    rw [mem_Ioi] at hs
    have ht0 : 0 < t := by linarith
    have hst : 0 < √t := sqrt_pos.2 ht0
    have hst1 : 1 ≤ √t := by rw [one_le_sqrt]; exact ht
    have hu : 0 < (√t)⁻¹ * s := by positivity
    have hus : (√t)⁻¹ * s ≤ s := by
      have : (√t)⁻¹ ≤ 1 := inv_le_one_of_one_le₀ hst1
      nlinarith
    have hsq : ((√t)⁻¹ * s) ^ 2 = t⁻¹ * s ^ 2 := by
      rw [mul_pow, inv_pow, sq_sqrt ht0.le]
    have hsq2 : t ^ k * ((√t)⁻¹ * s) ^ (2 * k) = s ^ (2 * k) := by
      rw [pow_mul, hsq, ← mul_pow, ← mul_assoc, mul_inv_cancel₀ ht0.ne', one_mul, ← pow_mul]
    by_cases hw0 : w ((√t)⁻¹ * s) = 0
    · rw [hw0]
      simp only [mul_zero, Complex.ofReal_zero, norm_zero]
      positivity
    · have hp := hphi _ hu hw0
      have hwb' := hwb _ hu
      rw [norm_mul, Complex.norm_exp, Complex.norm_real]
      have hre : (-c * ((t * phi ((√t)⁻¹ * s) : ℝ) : ℂ)).re = -c.re * (t * phi ((√t)⁻¹ * s)) := by
        rw [Complex.mul_re, Complex.neg_re, Complex.ofReal_im, Complex.ofReal_re, mul_zero, sub_zero]
      rw [hre]
      have h1 : exp (-c.re * (t * phi ((√t)⁻¹ * s))) ≤ exp (-(b * c.re) * s ^ 2) := by
        rw [exp_le_exp]
        rw [hsq] at hp
        have : b * s ^ 2 ≤ t * phi ((√t)⁻¹ * s) := by
          calc b * s ^ 2 = t * (b * (t⁻¹ * s ^ 2)) := by field_simp
            _ ≤ _ := by gcongr
        nlinarith
      have h2 : ‖t ^ k * w ((√t)⁻¹ * s)‖ ≤ C * ((1 + s ^ 2) * cosh (N * s)) := by
        rw [norm_mul, norm_of_nonneg (by positivity), norm_eq_abs]
        have hch : cosh (N * ((√t)⁻¹ * s)) ≤ cosh (N * s) := by
          rw [cosh_le_cosh, abs_mul N ((√t)⁻¹ * s), abs_mul N s, abs_of_pos hu, abs_of_pos hs]
          gcongr
        have hpow : s ^ (2 * k) ≤ 1 + s ^ 2 := by
          interval_cases k
          · simp; positivity
          · simp
        calc t ^ k * |w ((√t)⁻¹ * s)| ≤ t ^ k * (C * ((√t)⁻¹ * s) ^ (2 * k) * cosh (N * ((√t)⁻¹ * s))) := by gcongr
          _ = C * ((t ^ k * ((√t)⁻¹ * s) ^ (2 * k)) * cosh (N * ((√t)⁻¹ * s))) := by ring
          _ = C * (s ^ (2 * k) * cosh (N * ((√t)⁻¹ * s))) := by rw [hsq2]
          _ ≤ _ := by gcongr
      calc _ ≤ exp (-(b * c.re) * s ^ 2) * (C * ((1 + s ^ 2) * cosh (N * s))) := by gcongr
        _ = _ := by ring
  · exact ((integrable_gauss_cosh hbc N).const_mul C).integrableOn
  · filter_upwards [ae_restrict_mem measurableSet_Ioi] with s hs
    rw [mem_Ioi] at hs
    have hu0 : Tendsto (fun t : ℝ => (√t)⁻¹ * s) atTop (𝓝[>] 0) := by
      rw [tendsto_nhdsWithin_iff]
      constructor
      · have : Tendsto (fun t : ℝ => (√t)⁻¹ * s) atTop (𝓝 (0 * s)) :=
          (tendsto_inv_atTop_zero.comp tendsto_sqrt_atTop).mul_const s
        simpa using this
      · filter_upwards [eventually_gt_atTop 0] with t ht
        have : 0 < √t := sqrt_pos.2 ht
        exact mem_Ioi.2 (by positivity)
    have hp : Tendsto (fun t : ℝ => t * phi ((√t)⁻¹ * s)) atTop (𝓝 (s ^ 2 / 2)) := by
      have h := (hphil.comp hu0).const_mul (s ^ 2)
      rw [show s ^ 2 * (1 / 2) = s ^ 2 / 2 by ring] at h
      refine h.congr' ?_
      filter_upwards [eventually_gt_atTop 0] with t ht
      have hst : 0 < √t := sqrt_pos.2 ht
      simp only [Function.comp_apply, mul_pow, inv_pow, sq_sqrt ht.le]
      field_simp
    have hw : Tendsto (fun t : ℝ => t ^ k * w ((√t)⁻¹ * s)) atTop (𝓝 (l * s ^ (2 * k))) := by
      have h := (hwl.comp hu0).const_mul (s ^ (2 * k))
      rw [mul_comm (s ^ (2 * k)) l] at h
      refine h.congr' ?_
      filter_upwards [eventually_gt_atTop 0] with t ht
      have hst : 0 < √t := sqrt_pos.2 ht
      simp only [Function.comp_apply, pow_mul, mul_pow, inv_pow, sq_sqrt ht.le]
      field_simp
    have hpc : Tendsto (fun t : ℝ => ((t * phi ((√t)⁻¹ * s) : ℝ) : ℂ)) atTop (𝓝 ((s ^ 2 / 2 : ℝ) : ℂ)) :=
      (Complex.continuous_ofReal.tendsto _).comp hp
    have hwc : Tendsto (fun t : ℝ => ((t ^ k * w ((√t)⁻¹ * s) : ℝ) : ℂ)) atTop (𝓝 ((l * s ^ (2 * k) : ℝ) : ℂ)) :=
      (Complex.continuous_ofReal.tendsto _).comp hw
    exact ((Complex.continuous_exp.tendsto _).comp (hpc.const_mul (-c))).mul hwc

/-! ## Elementary limits and bounds -/

theorem tendsto_sin_div : Tendsto (fun u : ℝ => sin u / u) (𝓝[≠] 0) (𝓝 1) := by
  have h := (hasDerivAt_sin 0).tendsto_slope
  rw [cos_zero] at h
  refine h.congr fun u => ?_
  simp [slope_def_field]

theorem tendsto_sinh_div : Tendsto (fun u : ℝ => sinh u / u) (𝓝[≠] 0) (𝓝 1) := by
  have h := (hasDerivAt_sinh 0).tendsto_slope
  rw [cosh_zero] at h
  refine h.congr fun u => ?_
  simp [slope_def_field]

theorem tendsto_mul_zero {a : ℝ} (ha : 0 < a) : Tendsto (fun u : ℝ => a * u) (𝓝[>] 0) (𝓝[≠] 0) := by
  rw [tendsto_nhdsWithin_iff]
  constructor
  · have : Tendsto (fun u : ℝ => a * u) (𝓝 0) (𝓝 (a * 0)) := (continuous_const.mul continuous_id).tendsto 0
    rw [mul_zero] at this
    exact this.mono_left nhdsWithin_le_nhds
  · filter_upwards [self_mem_nhdsWithin] with u hu
    exact (mul_pos ha hu).ne'

theorem one_sub_cos_div {a : ℝ} (ha : 0 < a) :
    Tendsto (fun u : ℝ => (1 - cos (a * u)) / u ^ 2) (𝓝[>] 0) (𝓝 (a ^ 2 / 2)) := by
  have h := ((tendsto_sin_div.comp (tendsto_mul_zero (half_pos ha))).pow 2).const_mul (a ^ 2 / 2)
  rw [one_pow, mul_one] at h
  refine h.congr' ?_
  filter_upwards [self_mem_nhdsWithin] with u hu
  have hu' : u ≠ 0 := ne_of_gt hu
  have hc : 1 - cos (a * u) = 2 * sin (a / 2 * u) ^ 2 := by
    rw [show a * u = 2 * (a / 2 * u) by ring, cos_two_mul]
    linarith [sin_sq_add_cos_sq (a / 2 * u)]
  rw [hc, Function.comp_apply]
  field_simp

theorem cosh_sub_one_div {a : ℝ} (ha : 0 < a) :
    Tendsto (fun u : ℝ => (cosh (a * u) - 1) / u ^ 2) (𝓝[>] 0) (𝓝 (a ^ 2 / 2)) := by
  have h := ((tendsto_sinh_div.comp (tendsto_mul_zero (half_pos ha))).pow 2).const_mul (a ^ 2 / 2)
  rw [one_pow, mul_one] at h
  refine h.congr' ?_
  filter_upwards [self_mem_nhdsWithin] with u hu
  have hu' : u ≠ 0 := ne_of_gt hu
  have hc : cosh (a * u) - 1 = 2 * sinh (a / 2 * u) ^ 2 := by
    rw [show a * u = 2 * (a / 2 * u) by ring, cosh_two_mul]
    linarith [cosh_sq (a / 2 * u)]
  rw [hc, Function.comp_apply]
  field_simp

theorem sinh_le_mul_cosh {x : ℝ} (hx : 0 ≤ x) : sinh x ≤ 2 * x * cosh x := by
  have h := add_one_le_exp (-(2 * x))
  have h1 : exp x * exp (-(2 * x)) = exp (-x) := by rw [← exp_add]; ring_nf
  rw [sinh_eq, cosh_eq]
  have hp := exp_pos x
  have hn := exp_pos (-x)
  nlinarith [mul_nonneg hx hn.le]

theorem half_sq_le_cosh {x : ℝ} (hx : 0 ≤ x) : 1 / 2 * x ^ 2 ≤ cosh x - 1 := by
  have h : cosh x - 1 = 2 * sinh (x / 2) ^ 2 := by
    conv_lhs => rw [show x = 2 * (x / 2) by ring, cosh_two_mul]
    linarith [cosh_sq (x / 2)]
  have h2 : x / 2 ≤ sinh (x / 2) := self_le_sinh_iff.2 (by positivity)
  rw [h]
  nlinarith

theorem cosh_two_sub_le {u : ℝ} (hu : 0 ≤ u) : |cosh (2 * u) - cosh u| ≤ 8 * u ^ 2 * cosh (2 * u) := by
  have h0 : cosh u ≤ cosh (2 * u) := by
    rw [cosh_le_cosh, abs_of_nonneg hu, abs_of_nonneg (by positivity)]
    linarith
  rw [abs_of_nonneg (by linarith)]
  have h1 := one_le_cosh u
  have h2 := sinh_le_mul_cosh hu
  have h3 : 0 ≤ sinh u := sinh_nonneg_iff.2 hu
  have h4 := cosh_sq u
  have h5 := cosh_two_mul u
  have h6 : sinh u ^ 2 ≤ (2 * u * cosh u) ^ 2 := pow_le_pow_left₀ h3 h2 2
  have h7 : cosh u ^ 2 ≤ cosh (2 * u) := by nlinarith
  nlinarith [mul_le_mul_of_nonneg_left h7 (sq_nonneg u)]

theorem cos_two_sub_le (u : ℝ) : |cos u - cos (2 * u)| ≤ 2 * u ^ 2 := by
  have h1 := one_sub_sq_div_two_le_cos (x := u)
  have h2 : cos u - cos (2 * u) = (1 - cos u) * (1 + 2 * cos u) := by rw [cos_two_mul]; ring
  have h3 : |1 + 2 * cos u| ≤ 3 := by
    rw [abs_le]
    constructor <;> linarith [neg_one_le_cos u, cos_le_one u]
  have h4 : |1 - cos u| ≤ u ^ 2 / 2 := by
    rw [abs_of_nonneg (by linarith [cos_le_one u])]
    linarith
  rw [h2, abs_mul]
  nlinarith [abs_nonneg (1 - cos u), abs_nonneg (1 + 2 * cos u), sq_nonneg u]

theorem one_sub_cos_ge {u : ℝ} (h0 : 0 < u) (h1 : u ≤ π) : 2 / π ^ 2 * u ^ 2 ≤ 1 - cos u := by
  have := cos_le_one_sub_mul_cos_sq (x := u) (by rw [abs_of_pos h0]; exact h1)
  linarith

/-! ## The scaled functions as integrals over the half line -/

/-- the weight `cos(nu)` cut at `π` -/
noncomputable def cutCos (f : ℝ → ℝ) : ℝ → ℝ := (Iic π).indicator f

theorem scaled_I (n : ℕ) (z : ℂ) : Complex.exp (-z) * cbesselI n z
    = 1 / (π : ℂ) * ∫ u in Ioi (0 : ℝ), Complex.exp (-z * ((1 - cos u : ℝ) : ℂ)) * ((cutCos (fun u => cos (n * u)) u : ℝ) : ℂ) := by
  have h : ∀ u : ℝ, Complex.exp (-z * ((1 - cos u : ℝ) : ℂ)) * ((cutCos (fun u => cos (n * u)) u : ℝ) : ℂ)
      = (Iic π).indicator (fun u : ℝ => Complex.exp (-z * ((1 - cos u : ℝ) : ℂ)) * ((cos (n * u) : ℝ) : ℂ)) u := by
    intro u
    unfold cutCos
    by_cases hu : u ∈ Iic π
    · rw [indicator_of_mem hu, indicator_of_mem hu]
    · rw [indicator_of_notMem hu, indicator_of_notMem hu]
      simp
  simp_rw [h]
  rw [setIntegral_indicator measurableSet_Iic, Ioi_inter_Iic, ← intervalIntegral.integral_of_le pi_pos.le]
  unfold cbesselI
  rw [mul_left_comm, ← intervalIntegral.integral_const_mul]
  congr 1
  refine intervalIntegral.integral_congr fun u _ => ?_
  rw [← mul_assoc, ← Complex.exp_add]
  congr 2
  push_cast
  ring

theorem scaled_K (n : ℕ) (z : ℂ) : Complex.exp z * cbesselK n z
    = ∫ u in Ioi (0 : ℝ), Complex.exp (-z * ((cosh u - 1 : ℝ) : ℂ)) * ((cosh (n * u) : ℝ) : ℂ) := by
  unfold cbesselK
  rw [← integral_const_mul]
  refine setIntegral_congr_fun measurableSet_Ioi fun u _ => ?_
  rw [← mul_assoc, ← Complex.exp_add]
  congr 2
  push_cast
  ring

theorem scaled_I_integrable (f : ℝ → ℝ) (hf : Continuous f) (z : ℂ) :
    IntegrableOn (fun u : ℝ => Complex.exp (-z * ((1 - cos u : ℝ) : ℂ)) * ((cutCos f u : ℝ) : ℂ)) (Ioi 0) := by
  have h : (fun u : ℝ => Complex.exp (-z * ((1 - cos u : ℝ) : ℂ)) * ((cutCos f u : ℝ) : ℂ))
      = (Iic π).indicator (fun u : ℝ => Complex.exp (-z * ((1 - cos u : ℝ) : ℂ)) * ((f u : ℝ) : ℂ)) := by
    funext u
    unfold cutCos
    by_cases hu : u ∈ Iic π
    · rw [indicator_of_mem hu, indicator_of_mem hu]
    · rw [indicator_of_notMem hu, indicator_of_notMem hu]
      simp
  rw [h, integrableOn_indicator_iff measurableSet_Iic]
  exact (Continuous.integrableOn_Icc (by fun_prop)).mono_set fun u hu => ⟨le_of_lt hu.2, hu.1⟩

theorem K_bound {z : ℂ} {a : ℝ} (ha : 0 < a) (hz : a ≤ z.re) (N : ℝ) {u : ℝ} (hu : 0 ≤ u) :
    ‖Complex.exp (-z * ((cosh u : ℝ) : ℂ)) * ((cosh (N * u) : ℝ) : ℂ)‖
    ≤ exp (-(a / 2) * u ^ 2) * ((1 + u ^ 2) * cosh (N * u)) := by
  rw [norm_mul, Complex.norm_exp, Complex.norm_real, norm_of_nonneg (cosh_pos _).le, ← mul_assoc]
  have hre : (-z * ((cosh u : ℝ) : ℂ)).re = -(z.re * cosh u) := by simp
  have hc := half_sq_le_cosh hu
  have h1 : exp (-(z.re * cosh u)) ≤ exp (-(a / 2) * u ^ 2) := by
    rw [exp_le_exp]
    nlinarith [cosh_pos u, sq_nonneg u]
  have h2 : (1 : ℝ) ≤ 1 + u ^ 2 := by nlinarith [sq_nonneg u]
  rw [hre]
  have := cosh_pos (N * u)
  calc _ ≤ exp (-(a / 2) * u ^ 2) * cosh (N * u) := by gcongr
    _ ≤ _ := by
      gcongr
      exact le_mul_of_one_le_right (exp_pos _).le h2

theorem K_integrable {z : ℂ} (hz : 0 < z.re) (N : ℝ) :
    IntegrableOn (fun u : ℝ => Complex.exp (-z * ((cosh u : ℝ) : ℂ)) * ((cosh (N * u) : ℝ) : ℂ)) (Ioi 0) := by
  refine ((integrable_gauss_cosh (half_pos hz) N).integrableOn (s := Ioi 0)).mono' (by fun_prop) ?_
  filter_upwards [ae_restrict_mem measurableSet_Ioi] with u hu
  exact K_bound hz le_rfl N (le_of_lt hu)

theorem scaled_K_integrable {z : ℂ} (hz : 0 < z.re) (N : ℝ) :
    IntegrableOn (fun u : ℝ => Complex.exp (-z * ((cosh u - 1 : ℝ) : ℂ)) * ((cosh (N * u) : ℝ) : ℂ)) (Ioi 0) := by
  refine ((K_integrable hz N).const_mul (Complex.exp z)).congr ?_
  refine ae_of_all _ fun u => ?_
  simp only
  rw [← mul_assoc, ← Complex.exp_add]
  congr 2
  push_cast
  ring

/-! ## Continuity in the right half plane -/

theorem continuous_cbesselI (n : ℕ) : Continuous (cbesselI n) := by
  unfold cbesselI
  refine continuous_const.mul ?_
  exact intervalIntegral.continuous_parametric_intervalIntegral_of_continuous' (by fun_prop) _ _

theorem continuousOn_cbesselK (n : ℕ) : ContinuousOn (cbesselK n) {z | 0 < z.re} := by
  intro z hz
  have hz' : 0 < z.re := hz
  refine ContinuousAt.continuousWithinAt ?_
  unfold cbesselK
  refine continuousAt_of_dominated (bound := fun u => exp (-(z.re / 2 / 2) * u ^ 2) * ((1 + u ^ 2) * cosh (n * u))) ?_ ?_
    ((integrable_gauss_cosh (by positivity) n).integrableOn) ?_
  · exact Eventually.of_forall fun w => by fun_prop
  · have : ∀ᶠ w : ℂ in 𝓝 z, z.re / 2 < w.re := Complex.continuous_re.continuousAt.eventually (lt_mem_nhds (by linarith))
    filter_upwards [this] with w hw
    filter_upwards [ae_restrict_mem measurableSet_Ioi] with u hu
    exact K_bound (by positivity) hw.le n (le_of_lt hu)
  · exact ae_of_all _ fun u => by fun_prop

/-! ## Infinity -/

theorem ray_A (n : ℕ) {c : ℂ} (hc : 0 < c.re) :
    Tendsto (fun t : ℝ => ((√t : ℝ) : ℂ) * (Complex.exp (-(t * c)) * cbesselI n (t * c))) atTop
      (𝓝 (1 / (π : ℂ) * ∫ s in Ioi (0 : ℝ), Complex.exp (-c * ((s ^ 2 / 2 : ℝ) : ℂ)))) := by
  have hw : Tendsto (fun u : ℝ => cutCos (fun u => cos (n * u)) u) (𝓝[>] 0) (𝓝 1) := by
    have h : Tendsto (fun u : ℝ => cos (n * u)) (𝓝[>] 0) (𝓝 1) := by
      have : Tendsto (fun u : ℝ => cos (n * u)) (𝓝 0) (𝓝 (cos (n * 0))) := Continuous.tendsto (by fun_prop) 0
      rw [mul_zero, cos_zero] at this
      exact this.mono_left nhdsWithin_le_nhds
    refine h.congr' ?_
    filter_upwards [mem_nhdsWithin_of_mem_nhds (Iic_mem_nhds pi_pos)] with u hu
    unfold cutCos
    rw [indicator_of_mem hu]
  have h := ray_limit (phi := fun u => 1 - cos u) (w := cutCos fun u => cos (n * u)) (b := 2 / π ^ 2) (C := 1) (N := 0) (l := 1)
    0 (by norm_num) (by positivity) hc (by fun_prop) (Measurable.indicator (by fun_prop) measurableSet_Iic) ?_ ?_ ?_ zero_le_one ?_
  · have h2 := h.const_mul (1 / (π : ℂ))
    simp only [mul_zero, pow_zero, mul_one, Complex.ofReal_one] at h2
    refine h2.congr fun t => ?_
    rw [scaled_I]
    ring
  · intro u hu hw0
    unfold cutCos at hw0
    exact one_sub_cos_ge hu (mem_Iic.1 (mem_of_indicator_ne_zero hw0))
  · have := one_sub_cos_div one_pos
    simpa using this
  · simpa using hw
  · intro u _
    unfold cutCos
    simp only [mul_zero, pow_zero, zero_mul, cosh_zero, mul_one]
    by_cases hu : u ∈ Iic π
    · rw [indicator_of_mem hu]; exact abs_cos_le_one _
    · rw [indicator_of_notMem hu]; simp

theorem ray_dA {c : ℂ} (hc : 0 < c.re) :
    Tendsto (fun t : ℝ => ((√t * t : ℝ) : ℂ) * (Complex.exp (-(t * c)) * (cbesselI 1 (t * c) - cbesselI 2 (t * c)))) atTop
      (𝓝 (1 / (π : ℂ) * ∫ s in Ioi (0 : ℝ), Complex.exp (-c * ((s ^ 2 / 2 : ℝ) : ℂ)) * ((3 / 2 * s ^ 2 : ℝ) : ℂ))) := by
  have hw : Tendsto (fun u : ℝ => cutCos (fun u => cos u - cos (2 * u)) u / u ^ 2) (𝓝[>] 0) (𝓝 (3 / 2)) := by
    have h1 := (one_sub_cos_div two_pos).sub (one_sub_cos_div one_pos)
    rw [show (2 : ℝ) ^ 2 / 2 - 1 ^ 2 / 2 = 3 / 2 by norm_num] at h1
    refine h1.congr' ?_
    filter_upwards [mem_nhdsWithin_of_mem_nhds (Iic_mem_nhds pi_pos)] with u hu
    unfold cutCos
    rw [indicator_of_mem hu, ← sub_div, one_mul]
    congr 1
    ring
  have h := ray_limit (phi := fun u => 1 - cos u) (w := cutCos fun u => cos u - cos (2 * u)) (b := 2 / π ^ 2) (C := 2) (N := 0)
    (l := 3 / 2) 1 (by norm_num) (by positivity) hc (by fun_prop) (Measurable.indicator (by fun_prop) measurableSet_Iic) ?_ ?_ ?_
    zero_le_two ?_
  · have h2 := h.const_mul (1 / (π : ℂ))
    simp only [mul_one, pow_one] at h2
    refine h2.congr fun t => ?_
    have h1 := scaled_I 1 (t * c)
    have h3 := scaled_I 2 (t * c)
    rw [mul_sub, h1, h3, ← mul_sub, ← integral_sub (scaled_I_integrable _ (by fun_prop) _) (scaled_I_integrable _ (by fun_prop) _),
      mul_left_comm]
    congr 2
    refine setIntegral_congr_fun measurableSet_Ioi fun u _ => ?_
    unfold cutCos
    by_cases hu : u ∈ Iic π
    · simp only [indicator_of_mem hu]
      push_cast
      rw [one_mul]
      ring
    · simp only [indicator_of_notMem hu]
      simp
  · intro u hu hw0
    unfold cutCos at hw0
    exact one_sub_cos_ge hu (mem_Iic.1 (mem_of_indicator_ne_zero hw0))
  · have := one_sub_cos_div one_pos
    simpa using this
  · simpa using hw
  · intro u _
    unfold cutCos
    simp only [mul_one, zero_mul, cosh_zero]
    by_cases hu : u ∈ Iic π
    · rw [indicator_of_mem hu]; exact cos_two_sub_le u
    · rw [indicator_of_notMem hu]; simp; positivity

theorem ray_B (n : ℕ) {c : ℂ} (hc : 0 < c.re) :
    Tendsto (fun t : ℝ => ((√t : ℝ) : ℂ) * (Complex.exp (t * c) * cbesselK n (t * c))) atTop
      (𝓝 (∫ s in Ioi (0 : ℝ), Complex.exp (-c * ((s ^ 2 / 2 : ℝ) : ℂ)))) := by
  have h := ray_limit (phi := fun u => cosh u - 1) (w := fun u => cosh (n * u)) (b := 1 / 2) (C := 1) (N := n) (l := 1)
    0 (by norm_num) (by positivity) hc (by fun_prop) (by fun_prop) ?_ ?_ ?_ zero_le_one ?_
  · simp only [mul_zero, pow_zero, mul_one, Complex.ofReal_one] at h
    refine h.congr fun t => ?_
    rw [scaled_K]
  · intro u hu _
    exact half_sq_le_cosh hu.le
  · have := cosh_sub_one_div one_pos
    simpa using this
  · have : Tendsto (fun u : ℝ => cosh (n * u)) (𝓝 0) (𝓝 (cosh (n * 0))) := Continuous.tendsto (by fun_prop) 0
    rw [mul_zero, cosh_zero] at this
    simpa using this.mono_left nhdsWithin_le_nhds
  · intro u _
    simp only [mul_zero, pow_zero, mul_one, one_mul]
    rw [abs_of_pos (cosh_pos _)]

theorem ray_dB {c : ℂ} (hc : 0 < c.re) :
    Tendsto (fun t : ℝ => ((√t * t : ℝ) : ℂ) * (Complex.exp (t * c) * (cbesselK 2 (t * c) - cbesselK 1 (t * c)))) atTop
      (𝓝 (∫ s in Ioi (0 : ℝ), Complex.exp (-c * ((s ^ 2 / 2 : ℝ) : ℂ)) * ((3 / 2 * s ^ 2 : ℝ) : ℂ))) := by
  have h := ray_limit (phi := fun u => cosh u - 1) (w := fun u => cosh (2 * u) - cosh u) (b := 1 / 2) (C := 8) (N := 2) (l := 3 / 2)
    1 (by norm_num) (by positivity) hc (by fun_prop) (by fun_prop) ?_ ?_ ?_ (by norm_num) ?_
  · simp only [mul_one, pow_one] at h
    refine h.congr' ?_
    filter_upwards [eventually_gt_atTop 0] with t ht
    have htc : 0 < (t * c : ℂ).re := by simp; positivity
    have h1 := scaled_K 1 (t * c)
    have h3 := scaled_K 2 (t * c)
    rw [mul_sub, h1, h3, ← integral_sub (scaled_K_integrable htc _) (scaled_K_integrable htc _)]
    congr 1
    refine setIntegral_congr_fun measurableSet_Ioi fun u _ => ?_
    push_cast
    rw [one_mul]
    ring
  · intro u hu _
    exact half_sq_le_cosh hu.le
  · have := cosh_sub_one_div one_pos
    simpa using this
  · have h1 := (cosh_sub_one_div two_pos).sub (cosh_sub_one_div one_pos)
    rw [show (2 : ℝ) ^ 2 / 2 - 1 ^ 2 / 2 = 3 / 2 by norm_num] at h1
    refine h1.congr fun u => ?_
    rw [← sub_div, one_mul, mul_one]
    congr 1
    ring
  · intro u hu
    simpa using cosh_two_sub_le hu.le

/-- `z² (I₁K₁ - I₂K₂)` vanishes at infinity along every ray of the right half plane. -/
theorem ray_infinity {c : ℂ} (hc : 0 < c.re) :
    Tendsto (fun t : ℝ => (t * c) ^ 2 * (cbesselI 1 (t * c) * cbesselK 1 (t * c) - cbesselI 2 (t * c) * cbesselK 2 (t * c)))
      atTop (𝓝 0) := by
  have h := (((ray_dA hc).mul (ray_B 2 hc)).sub ((ray_A 1 hc).mul (ray_dB hc))).const_mul (c ^ 2)
  have hz : ∀ x y p : ℂ, c ^ 2 * (p * x * y - p * y * x) = 0 := fun x y p => by ring
  rw [hz] at h
  refine h.congr' ?_
  filter_upwards [eventually_gt_atTop 0] with t ht
  have hst : ((√t : ℝ) : ℂ) * ((√t : ℝ) : ℂ) = t := by
    rw [← Complex.ofReal_mul, mul_self_sqrt ht.le]
  have he : Complex.exp (-(t * c)) * Complex.exp (t * c) = 1 := by rw [← Complex.exp_add]; simp
  push_cast
  generalize Complex.exp (-(t * c)) = E at *
  generalize Complex.exp (t * c) = F at *
  generalize cbesselI 1 (t * c) = a
  generalize cbesselI 2 (t * c) = b
  generalize cbesselK 1 (t * c) = d
  generalize cbesselK 2 (t * c) = e
  generalize ((√t : ℝ) : ℂ) = q at *
  linear_combination (c ^ 2 * E * F * t * (a * d - b * e)) * hst + (c ^ 2 * t ^ 2 * (a * d - b * e)) * he

/-! ## Zero -/

theorem I1_eq (z : ℂ) : cbesselI 1 z = z * (1 / (π : ℂ) * ∫ t in (0 : ℝ)..π, Complex.exp (z * (cos t : ℝ)) * ((sin t ^ 2 : ℝ) : ℂ)) := by
  have hd : ∀ t ∈ uIcc 0 π, HasDerivAt (fun t : ℝ => ((sin t : ℝ) : ℂ) * Complex.exp (z * (cos t : ℝ)))
      (Complex.exp (z * (cos t : ℝ)) * ((cos t : ℝ) : ℂ) - z * (Complex.exp (z * (cos t : ℝ)) * ((sin t ^ 2 : ℝ) : ℂ))) t := by
    intro t _
    have h1 := (hasDerivAt_sin t).ofReal_comp
    have h2 := (((hasDerivAt_cos t).ofReal_comp).const_mul z).cexp
    refine (h1.mul h2).congr_deriv ?_
    push_cast
    ring
  have h := intervalIntegral.integral_eq_sub_of_hasDerivAt hd (Continuous.intervalIntegrable (by fun_prop) _ _)
  rw [intervalIntegral.integral_sub (Continuous.intervalIntegrable (by fun_prop) _ _) (Continuous.intervalIntegrable (by fun_prop) _ _),
    intervalIntegral.integral_const_mul] at h
  simp only [sin_pi, sin_zero, Complex.ofReal_zero, zero_mul, sub_zero] at h
  unfold cbesselI
  simp only [Nat.cast_one, one_mul]
  rw [sub_eq_zero.1 h]
  ring

theorem I2_eq (z : ℂ) : cbesselI 2 z = z ^ 2 * (1 / (π : ℂ) * (1 / 3 * ∫ t in (0 : ℝ)..π, Complex.exp (z * (cos t : ℝ)) * ((sin t ^ 4 : ℝ) : ℂ))) := by
  have hd : ∀ t ∈ uIcc 0 π, HasDerivAt
      (fun t : ℝ => ((sin t : ℝ) * (cos t : ℝ) + z / 3 * ((sin t : ℝ) : ℂ) ^ 3) * Complex.exp (z * (cos t : ℝ)))
      (Complex.exp (z * (cos t : ℝ)) * ((cos (2 * t) : ℝ) : ℂ) - z ^ 2 / 3 * (Complex.exp (z * (cos t : ℝ)) * ((sin t ^ 4 : ℝ) : ℂ))) t := by
    intro t _
    have h1 := (hasDerivAt_sin t).ofReal_comp
    have h2 := (hasDerivAt_cos t).ofReal_comp
    refine (((h1.fun_mul h2).fun_add ((h1.fun_pow 3).const_mul (z / 3))).fun_mul ((h2.const_mul z).cexp)).congr_deriv ?_
    rw [cos_two_mul']
    push_cast
    ring
  have h := intervalIntegral.integral_eq_sub_of_hasDerivAt hd (Continuous.intervalIntegrable (by fun_prop) _ _)
  rw [intervalIntegral.integral_sub (Continuous.intervalIntegrable (by fun_prop) _ _) (Continuous.intervalIntegrable (by fun_prop) _ _),
    intervalIntegral.integral_const_mul] at h
  simp only [sin_pi, sin_zero, Complex.ofReal_zero, zero_mul, sub_zero, ne_eq, OfNat.ofNat_ne_zero, not_false_eq_true, zero_pow,
    mul_zero, add_zero] at h
  unfold cbesselI
  simp only [Nat.cast_ofNat]
  rw [sub_eq_zero.1 h]
  ring

theorem tendsto_I1_div : Tendsto (fun z : ℂ => 1 / (π : ℂ) * ∫ t in (0 : ℝ)..π, Complex.exp (z * (cos t : ℝ)) * ((sin t ^ 2 : ℝ) : ℂ))
    (𝓝 0) (𝓝 (1 / 2)) := by
  have hc : Continuous (fun z : ℂ => 1 / (π : ℂ) * ∫ t in (0 : ℝ)..π, Complex.exp (z * (cos t : ℝ)) * ((sin t ^ 2 : ℝ) : ℂ)) :=
    continuous_const.mul (intervalIntegral.continuous_parametric_intervalIntegral_of_continuous' (by fun_prop) _ _)
  have h := hc.tendsto 0
  simp only [zero_mul, Complex.exp_zero, one_mul] at h
  rw [intervalIntegral.integral_ofReal, integral_sin_sq] at h
  convert h using 2
  have := pi_ne_zero
  simp
  field_simp

theorem tendsto_I2_div : Tendsto
    (fun z : ℂ => 1 / (π : ℂ) * (1 / 3 * ∫ t in (0 : ℝ)..π, Complex.exp (z * (cos t : ℝ)) * ((sin t ^ 4 : ℝ) : ℂ)))
    (𝓝 0) (𝓝 (1 / 8)) := by
  have hc : Continuous
      (fun z : ℂ => 1 / (π : ℂ) * (1 / 3 * ∫ t in (0 : ℝ)..π, Complex.exp (z * (cos t : ℝ)) * ((sin t ^ 4 : ℝ) : ℂ))) :=
    continuous_const.mul (continuous_const.mul
      (intervalIntegral.continuous_parametric_intervalIntegral_of_continuous' (by fun_prop) _ _))
  have h := hc.tendsto 0
  simp only [zero_mul, Complex.exp_zero, one_mul] at h
  have h4 : ∫ t in (0 : ℝ)..π, sin t ^ 4 = 3 * π / 8 := by
    have := integral_sin_pow (a := 0) (b := π) 2
    simp only [integral_sin_sq] at this
    rw [this]
    simp
    ring
  rw [intervalIntegral.integral_ofReal, h4] at h
  convert h using 2
  have := pi_ne_zero
  push_cast
  field_simp

theorem tail_bound {z : ℂ} (hz : 0 < z.re) {N : ℝ} (hN : 1 ≤ N) :
    ‖∫ u in Ioi (0 : ℝ), Complex.exp (-z * ((cosh u : ℝ) : ℂ)) * ((exp (-(N * u)) : ℝ) : ℂ)‖ ≤ 1 := by
  have hi : IntegrableOn (fun u : ℝ => exp (-u)) (Ioi 0) := integrableOn_exp_neg_Ioi 0
  have h1 : ∫ u in Ioi (0 : ℝ), exp (-u) = 1 := by simpa using integral_exp_neg_Ioi 0
  rw [← h1]
  refine norm_integral_le_of_norm_le hi ?_
  filter_upwards [ae_restrict_mem measurableSet_Ioi] with u hu
  have hu' : 0 < u := hu
  rw [norm_mul, Complex.norm_exp, Complex.norm_real, norm_of_nonneg (exp_pos _).le]
  have hre : (-z * ((cosh u : ℝ) : ℂ)).re = -(z.re * cosh u) := by simp
  rw [hre, ← exp_add, exp_le_exp]
  nlinarith [mul_pos hz (cosh_pos u)]

theorem exp_cosh_tendsto {z : ℂ} (hz : 0 < z.re) :
    Tendsto (fun u : ℝ => ‖z‖ * cosh u * exp (-(z.re * cosh u)) + exp (-(z.re * cosh u))) atTop (𝓝 0) := by
  have hy : Tendsto (fun u : ℝ => z.re * cosh u) atTop atTop := by
    refine Tendsto.const_mul_atTop hz ?_
    refine tendsto_atTop_mono' _ ?_ tendsto_id
    filter_upwards [eventually_ge_atTop 0] with u hu
    have h1 := half_sq_le_cosh hu
    simp only [id]
    nlinarith [sq_nonneg (u - 1)]
  have h1 := ((tendsto_pow_mul_exp_neg_atTop_nhds_zero 1).comp hy).const_mul (‖z‖ / z.re)
  have h0 := (tendsto_pow_mul_exp_neg_atTop_nhds_zero 0).comp hy
  have h := h1.add h0
  rw [mul_zero, zero_add] at h
  refine h.congr fun u => ?_
  simp only [Function.comp_apply, pow_one, pow_zero, one_mul]
  field_simp

theorem norm_cexp_cosh (z : ℂ) (u : ℝ) : ‖Complex.exp (-z * ((cosh u : ℝ) : ℂ))‖ = exp (-(z.re * cosh u)) := by
  rw [Complex.norm_exp]
  simp

theorem K1_tendsto {z : ℂ} (hz : 0 < z.re) :
    Tendsto (fun u : ℝ => Complex.exp (-z * ((cosh u : ℝ) : ℂ))) atTop (𝓝 0) := by
  refine squeeze_zero_norm (fun u => ?_) (exp_cosh_tendsto hz)
  rw [norm_cexp_cosh]
  have := cosh_pos u
  have : 0 ≤ ‖z‖ * cosh u * exp (-(z.re * cosh u)) := by positivity
  linarith

theorem K2_tendsto {z : ℂ} (hz : 0 < z.re) :
    Tendsto (fun u : ℝ => (z * ((cosh u : ℝ) : ℂ) + 1) * Complex.exp (-z * ((cosh u : ℝ) : ℂ))) atTop (𝓝 0) := by
  refine squeeze_zero_norm (fun u => ?_) (exp_cosh_tendsto hz)
  rw [norm_mul, norm_cexp_cosh]
  have h1 : ‖z * ((cosh u : ℝ) : ℂ) + 1‖ ≤ ‖z‖ * cosh u + 1 := by
    refine (norm_add_le _ _).trans ?_
    rw [norm_mul, Complex.norm_real, norm_of_nonneg (cosh_pos u).le, norm_one]
  calc _ ≤ (‖z‖ * cosh u + 1) * exp (-(z.re * cosh u)) := by gcongr
    _ = _ := by ring

theorem weight_integrable {z : ℂ} (hz : 0 < z.re) {N : ℝ} {f : ℝ → ℝ} (hf : Continuous f) (hb : ∀ u, 0 < u → |f u| ≤ cosh (N * u)) :
    IntegrableOn (fun u : ℝ => Complex.exp (-z * ((cosh u : ℝ) : ℂ)) * ((f u : ℝ) : ℂ)) (Ioi 0) := by
  have hm : AEStronglyMeasurable (fun u : ℝ => Complex.exp (-z * ((cosh u : ℝ) : ℂ)) * ((f u : ℝ) : ℂ)) (volume.restrict (Ioi 0)) := by
    fun_prop
  refine Integrable.mono (K_integrable hz N) hm ?_
  filter_upwards [ae_restrict_mem measurableSet_Ioi] with u hu
  rw [norm_mul, norm_mul]
  gcongr
  rw [Complex.norm_real, Complex.norm_real, norm_of_nonneg (cosh_pos _).le]
  exact hb u hu

theorem sinh_bound (x : ℝ) : |sinh x| ≤ cosh x := by
  rw [abs_le]
  constructor
  · linarith [exp_pos x, cosh_add_sinh x]
  · exact (sinh_lt_cosh x).le

theorem exp_bound {N u : ℝ} (hN : 0 ≤ N) (hu : 0 < u) : |exp (-(N * u))| ≤ cosh (N * u) := by
  rw [abs_of_pos (exp_pos _), ← cosh_sub_sinh]
  have : 0 ≤ sinh (N * u) := sinh_nonneg_iff.2 (by positivity)
  linarith

theorem K_split {z : ℂ} (hz : 0 < z.re) {N : ℝ} (hN : 0 ≤ N) :
    ∫ u in Ioi (0 : ℝ), Complex.exp (-z * ((cosh u : ℝ) : ℂ)) * ((cosh (N * u) : ℝ) : ℂ)
    = (∫ u in Ioi (0 : ℝ), Complex.exp (-z * ((cosh u : ℝ) : ℂ)) * ((sinh (N * u) : ℝ) : ℂ))
      + ∫ u in Ioi (0 : ℝ), Complex.exp (-z * ((cosh u : ℝ) : ℂ)) * ((exp (-(N * u)) : ℝ) : ℂ) := by
  rw [← integral_add (weight_integrable (N := N) hz (by fun_prop) fun u _ => sinh_bound _)
    (weight_integrable (N := N) hz (by fun_prop) fun u hu => exp_bound hN hu)]
  refine setIntegral_congr_fun measurableSet_Ioi fun u _ => ?_
  rw [← mul_add, ← Complex.ofReal_add, ← cosh_sub_sinh]
  congr 2
  ring

theorem K1_eq {z : ℂ} (hz : 0 < z.re) :
    z * cbesselK 1 z = Complex.exp (-z) + z * ∫ u in Ioi (0 : ℝ), Complex.exp (-z * ((cosh u : ℝ) : ℂ)) * ((exp (-(1 * u)) : ℝ) : ℂ) := by
  have hd : ∀ u ∈ Ici (0 : ℝ), HasDerivAt (fun u : ℝ => -Complex.exp (-z * ((cosh u : ℝ) : ℂ)))
      (z * (Complex.exp (-z * ((cosh u : ℝ) : ℂ)) * ((sinh (1 * u) : ℝ) : ℂ))) u := by
    intro u _
    refine ((((hasDerivAt_cosh u).ofReal_comp).const_mul (-z)).cexp.neg).congr_deriv ?_
    rw [one_mul]
    ring
  have hi := (weight_integrable (N := 1) hz (f := fun u => sinh (1 * u)) (by fun_prop) fun u _ => sinh_bound _).const_mul z
  have h := integral_Ioi_of_hasDerivAt_of_tendsto' hd hi (K1_tendsto hz).neg
  rw [integral_const_mul] at h
  have hK : cbesselK 1 z = _ := K_split hz (N := ((1 : ℕ) : ℝ)) (by norm_num)
  rw [hK, Nat.cast_one, mul_add, h]
  simp

theorem K2_eq {z : ℂ} (hz : 0 < z.re) :
    z ^ 2 * cbesselK 2 z = 2 * ((z + 1) * Complex.exp (-z))
      + z ^ 2 * ∫ u in Ioi (0 : ℝ), Complex.exp (-z * ((cosh u : ℝ) : ℂ)) * ((exp (-(2 * u)) : ℝ) : ℂ) := by
  have hd : ∀ u ∈ Ici (0 : ℝ), HasDerivAt (fun u : ℝ => -2 * ((z * ((cosh u : ℝ) : ℂ) + 1) * Complex.exp (-z * ((cosh u : ℝ) : ℂ))))
      (z ^ 2 * (Complex.exp (-z * ((cosh u : ℝ) : ℂ)) * ((sinh (2 * u) : ℝ) : ℂ))) u := by
    intro u _
    have h1 := (hasDerivAt_cosh u).ofReal_comp
    refine ((((h1.const_mul z).add_const 1).fun_mul (h1.const_mul (-z)).cexp).const_mul (-2)).congr_deriv ?_
    rw [sinh_two_mul]
    push_cast
    ring
  have hi := (weight_integrable (N := 2) hz (f := fun u => sinh (2 * u)) (by fun_prop) fun u _ => sinh_bound _).const_mul (z ^ 2)
  have h := integral_Ioi_of_hasDerivAt_of_tendsto' hd hi ((K2_tendsto hz).const_mul (-2))
  rw [integral_const_mul] at h
  have hK : cbesselK 2 z = _ := K_split hz (N := ((2 : ℕ) : ℝ)) (by norm_num)
  rw [hK, Nat.cast_ofNat, mul_add, h]
  simp

theorem tendsto_zero_mul_tail {N : ℝ} (hN : 1 ≤ N) :
    Tendsto (fun z : ℂ => z * ∫ u in Ioi (0 : ℝ), Complex.exp (-z * ((cosh u : ℝ) : ℂ)) * ((exp (-(N * u)) : ℝ) : ℂ))
      (𝓝[{z | 0 < z.re}] 0) (𝓝 0) := by
  have h0 : Tendsto (fun z : ℂ => ‖z‖) (𝓝[{z | 0 < z.re}] 0) (𝓝 0) := by
    have := (continuous_norm (E := ℂ)).tendsto 0
    rw [norm_zero] at this
    exact this.mono_left nhdsWithin_le_nhds
  refine squeeze_zero_norm' ?_ h0
  filter_upwards [self_mem_nhdsWithin] with z hz
  rw [norm_mul]
  exact mul_le_of_le_one_right (norm_nonneg _) (tail_bound hz hN)

theorem tendsto_K1 : Tendsto (fun z : ℂ => z * cbesselK 1 z) (𝓝[{z | 0 < z.re}] 0) (𝓝 1) := by
  have h1 : Tendsto (fun z : ℂ => Complex.exp (-z)) (𝓝[{z | 0 < z.re}] 0) (𝓝 1) := by
    have : Tendsto (fun z : ℂ => Complex.exp (-z)) (𝓝 0) (𝓝 (Complex.exp (-0))) := Continuous.tendsto (by fun_prop) 0
    rw [neg_zero, Complex.exp_zero] at this
    exact this.mono_left nhdsWithin_le_nhds
  have h := h1.add (tendsto_zero_mul_tail (N := 1) le_rfl)
  rw [add_zero] at h
  refine h.congr' ?_
  filter_upwards [self_mem_nhdsWithin] with z hz
  exact (K1_eq hz).symm

theorem tendsto_K2 : Tendsto (fun z : ℂ => z ^ 2 * cbesselK 2 z) (𝓝[{z | 0 < z.re}] 0) (𝓝 2) := by
  have h1 : Tendsto (fun z : ℂ => 2 * ((z + 1) * Complex.exp (-z))) (𝓝[{z | 0 < z.re}] 0) (𝓝 2) := by
    have : Tendsto (fun z : ℂ => 2 * ((z + 1) * Complex.exp (-z))) (𝓝 0) (𝓝 (2 * ((0 + 1) * Complex.exp (-0)))) :=
      Continuous.tendsto (by fun_prop) 0
    simp only [neg_zero, Complex.exp_zero, zero_add, mul_one] at this
    exact this.mono_left nhdsWithin_le_nhds
  have hz0 : Tendsto (fun z : ℂ => z) (𝓝[{z | 0 < z.re}] 0) (𝓝 0) := nhdsWithin_le_nhds
  have h := h1.add (hz0.mul (tendsto_zero_mul_tail (N := 2) one_le_two))
  rw [mul_zero, add_zero] at h
  refine h.congr' ?_
  filter_upwards [self_mem_nhdsWithin] with z hz
  rw [K2_eq hz]
  ring

/-- `I₁(z) K₁(z) → 1/2` -/
theorem tendsto_IK1 : Tendsto (fun z : ℂ => cbesselI 1 z * cbesselK 1 z) (𝓝[{z | 0 < z.re}] 0) (𝓝 (1 / 2)) := by
  have h := (tendsto_I1_div.mono_left nhdsWithin_le_nhds).mul tendsto_K1
  rw [mul_one] at h
  refine h.congr fun z => ?_
  rw [I1_eq]
  ring

/-- `I₂(z) K₂(z) → 1/4` -/
theorem tendsto_IK2 : Tendsto (fun z : ℂ => cbesselI 2 z * cbesselK 2 z) (𝓝[{z | 0 < z.re}] 0) (𝓝 (1 / 4)) := by
  have h := (tendsto_I2_div.mono_left nhdsWithin_le_nhds).mul tendsto_K2
  rw [show (1 : ℂ) / 8 * 2 = 1 / 4 by norm_num] at h
  refine h.congr fun z => ?_
  rw [I2_eq]
  ring

end Verif.BesselIK
