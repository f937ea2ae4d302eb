import Verif.Spec.StepOff
import Verif.Lemmas.LaplaceMoments
import Verif.Props.TransientDecay

/-! # Fourier transforms of the transient shapes (helper lemmas) -/

namespace Verif

open Real Filter MeasureTheory Set
open scoped Topology

variable {f g : ℝ → ℝ} {ω : ℝ} {F G : ℂ}

theorem IsStepOff.const_mul (h : IsStepOff f ω F) (c : ℝ) : IsStepOff (fun t => c * f t) ω (c * F) := by
  obtain ⟨d, h1, h2, h3, h4⟩ := h
  refine ⟨fun t => c * d t, fun t ht => (h1 t ht).const_mul c, by simpa using h2.const_mul c, h3.const_mul c, ?_⟩
  rw [← h4, ← integral_const_mul]
  refine integral_congr_ae (Eventually.of_forall fun t => ?_)
  push_cast; ring

theorem stepOff_re (ω : ℝ) : (0:ℝ) ≤ (Complex.I * ω).re := by simp

theorem IsStepOff.add (hf : IsStepOff f ω F) (hg : IsStepOff g ω G) : IsStepOff (fun t => f t + g t) ω (F + G) := by
  obtain ⟨d, h1, h2, h3, h4⟩ := hf
  obtain ⟨e, k1, k2, k3, k4⟩ := hg
  refine ⟨fun t => d t + e t, fun t ht => (h1 t ht).add (k1 t ht), by simpa using h2.add k2, h3.add k3, ?_⟩
  rw [← h4, ← k4, ← integral_add]
  · refine integral_congr_ae (Eventually.of_forall fun t => ?_)
    push_cast; ring
  · exact weight_exp_integrable (w := fun t => -d t) h3.neg (stepOff_re ω)
  · exact weight_exp_integrable (w := fun t => -e t) k3.neg (stepOff_re ω)

theorem IsStepOff.congr (hf : IsStepOff f ω F) (h : ∀ t, 0 < t → g t = f t) (hF : F = G) : IsStepOff g ω G := by
  obtain ⟨d, h1, h2, h3, h4⟩ := hf
  refine ⟨d, fun t ht => (h1 t ht).congr_of_eventuallyEq ?_, h2.congr' ?_, h3, hF ▸ h4⟩
  · filter_upwards [lt_mem_nhds ht] with u hu using h u hu
  · filter_upwards [eventually_gt_atTop 0] with u hu using (h u hu).symm

theorem IsImpulse.const_mul (h : IsImpulse f ω F) (c : ℝ) : IsImpulse (fun t => c * f t) ω (c * F) := by
  refine ⟨fun T hT => (h.1 T hT).const_mul c, (h.2.const_mul (c:ℂ)).congr fun T => ?_⟩
  rw [← intervalIntegral.integral_const_mul]
  refine intervalIntegral.integral_congr fun t _ => ?_
  push_cast; ring

theorem IsImpulse.congr (h : IsImpulse f ω F) (hg : ∀ t, 0 < t → g t = f t) (hF : F = G) : IsImpulse g ω G := by
  have hT : ∀ T : ℝ, 0 < T → EqOn f g (uIoc 0 T) := fun _ hT t ht => by
    rw [uIoc_of_le hT.le] at ht
    exact (hg t ht.1).symm
  refine ⟨fun T h0 => (h.1 T h0).congr (hT T h0), (hF ▸ h.2).congr' ?_⟩
  filter_upwards [eventually_gt_atTop 0] with T h0
  refine intervalIntegral.integral_congr_ae (Eventually.of_forall fun t ht => ?_)
  rw [hT T h0 ht]

/-- An absolutely integrable impulse response. -/
theorem isImpulse_of_integrable (hi : IntegrableOn f (Ioi 0)) : IsImpulse f ω (lap f (Complex.I * ω)) :=
  ⟨fun _ hT => (intervalIntegrable_iff_integrableOn_Ioc_of_le hT.le).2 (hi.mono_set Ioc_subset_Ioi_self),
    intervalIntegral_tendsto_integral_Ioi 0 (weight_exp_integrable hi (stepOff_re ω)) tendsto_id⟩

/-- The kernel `exp(-a²/4t) / √t`, whose transform converges conditionally. -/
theorem isImpulse_mom_zero {a : ℝ} (ha : 0 < a) {κ : ℂ} (hκ : |κ.im| ≤ κ.re) (hω : κ ^ 2 = Complex.I * ω) (h0 : κ ≠ 0) :
    IsImpulse (mom a 0) ω (√π / κ * Complex.exp (-a * κ)) := by
  have hre : 0 ≤ (Complex.I * ω : ℂ).re := stepOff_re ω
  have w1 := weight_exp_integrable (mom_integrable ha 0) hre
  have w2 := weight_exp_integrable (mom_integrable ha 1) hre
  have hn : ∀ t : ℝ, ‖Complex.exp (-(Complex.I * ω) * t)‖ = 1 := fun t => by rw [Complex.norm_exp]; simp
  have hi : ∀ T : ℝ, 0 < T → IntegrableOn (mom a 0) (Ioc 0 T) := by
    intro T hT
    have hb : ∀ t ∈ Ioc 0 T, mom a 0 t ≤ T * mom a 1 t := fun t ht => by
      rw [mom_succ 0 ht.1]
      exact mul_le_mul_of_nonneg_right ht.2 (mom_pos _ ht.1).le
    refine Integrable.mono' (((mom_integrable ha 0).mono_set Ioc_subset_Ioi_self).const_mul T)
      (((continuousOn_mom 0).mono Ioc_subset_Ioi_self).aestronglyMeasurable measurableSet_Ioc) ?_
    filter_upwards [ae_restrict_mem measurableSet_Ioc] with t ht
    rw [norm_eq_abs, abs_of_pos (mom_pos _ ht.1)]
    exact hb t ht
  refine ⟨fun T hT => (intervalIntegrable_iff_integrableOn_Ioc_of_le hT.le).2 (hi T hT), ?_⟩
  have hs0 : Complex.I * (ω:ℂ) ≠ 0 := by rw [← hω]; exact pow_ne_zero 2 h0
  have wi : ∀ T : ℝ, 0 < T → IntervalIntegrable (fun t : ℝ => (mom a 0 t : ℂ) * Complex.exp (-(Complex.I * ω) * t)) volume 0 T := by
    intro T hT
    rw [intervalIntegrable_iff_integrableOn_Ioc_of_le hT.le]
    refine Integrable.mono (hi T hT) ?_ ?_
    · exact (Complex.continuous_ofReal.comp_aestronglyMeasurable (hi T hT).aestronglyMeasurable).mul
        (by fun_prop : Continuous fun t : ℝ => Complex.exp (-(Complex.I * ω) * t)).aestronglyMeasurable
    · refine Eventually.of_forall fun t => ?_
      rw [norm_mul, hn, mul_one, Complex.norm_real]
  have key : ∀ T : ℝ, 0 < T → ∫ t in (0:ℝ)..T, (mom a 0 t : ℂ) * Complex.exp (-(Complex.I * ω) * t) =
      (Complex.I * ω)⁻¹ * ((∫ t in (0:ℝ)..T, ((a:ℂ) ^ 2 / 4 * ((mom a 2 t : ℂ) * Complex.exp (-(Complex.I * ω) * t)) -
        1 / 2 * ((mom a 1 t : ℂ) * Complex.exp (-(Complex.I * ω) * t)))) -
        (mom a 0 T : ℂ) * Complex.exp (-(Complex.I * ω) * T)) := by
    intro T hT
    have hsub : IntervalIntegrable (fun t : ℝ => (a:ℂ) ^ 2 / 4 * ((mom a 2 t : ℂ) * Complex.exp (-(Complex.I * ω) * t)) -
        1 / 2 * ((mom a 1 t : ℂ) * Complex.exp (-(Complex.I * ω) * t))) volume 0 T := by
      rw [intervalIntegrable_iff_integrableOn_Ioc_of_le hT.le]
      exact IntegrableOn.mono_set ((w2.const_mul _).sub (w1.const_mul _)) Ioc_subset_Ioi_self
    have hd : ∀ t : ℝ, 0 < t → HasDerivAt (fun t : ℝ => (mom a 0 t : ℂ) * Complex.exp (-(Complex.I * ω) * t))
        (((a:ℂ) ^ 2 / 4 * ((mom a 2 t : ℂ) * Complex.exp (-(Complex.I * ω) * t)) -
          1 / 2 * ((mom a 1 t : ℂ) * Complex.exp (-(Complex.I * ω) * t))) -
          Complex.I * ω * ((mom a 0 t : ℂ) * Complex.exp (-(Complex.I * ω) * t))) t := by
      intro t ht
      have h1 := (hasDerivAt_mom (a := a) 0 ht).ofReal_comp
      have h3 : HasDerivAt (fun t : ℝ => -(Complex.I * ω) * (t:ℂ)) (-(Complex.I * ω) * 1) t :=
        (hasDerivAt_id t).ofReal_comp.const_mul _
      refine (h1.fun_mul h3.cexp).congr_deriv ?_
      push_cast
      simp only [zero_add]
      ring
    have h := intervalIntegral.integral_eq_sub_of_hasDerivAt_of_tendsto hT (fun t ht => hd t ht.1)
      (hsub.sub ((wi T hT).const_mul (Complex.I * ω))) (fa := 0)
      (fb := (mom a 0 T : ℂ) * Complex.exp (-(Complex.I * ω) * T)) ?_ ?_
    · rw [intervalIntegral.integral_sub hsub ((wi T hT).const_mul _), intervalIntegral.integral_const_mul] at h
      rw [eq_inv_mul_iff_mul_eq₀ hs0]
      linear_combination -h
    · rw [tendsto_zero_iff_norm_tendsto_zero]
      refine (tendsto_mom_zero ha 0).congr' ?_
      filter_upwards [self_mem_nhdsWithin] with t ht
      rw [norm_mul, hn, mul_one, Complex.norm_real, norm_eq_abs, abs_of_pos (mom_pos _ ht)]
    · exact ((hd T hT).continuousAt.tendsto).mono_left nhdsWithin_le_nhds
  have hlim : Tendsto (fun T : ℝ => (Complex.I * ω)⁻¹ * ((∫ t in (0:ℝ)..T, ((a:ℂ) ^ 2 / 4 * ((mom a 2 t : ℂ) * Complex.exp (-(Complex.I * ω) * t)) -
        1 / 2 * ((mom a 1 t : ℂ) * Complex.exp (-(Complex.I * ω) * t)))) -
        (mom a 0 T : ℂ) * Complex.exp (-(Complex.I * ω) * T))) atTop
      (𝓝 ((Complex.I * ω)⁻¹ * (((a:ℂ) ^ 2 / 4 * lap (mom a 2) (Complex.I * ω) - 1 / 2 * lap (mom a 1) (Complex.I * ω)) - 0))) := by
    refine Tendsto.const_mul _ (Tendsto.sub ?_ ?_)
    · have hsub : IntegrableOn (fun t : ℝ => (a:ℂ) ^ 2 / 4 * ((mom a 2 t : ℂ) * Complex.exp (-(Complex.I * ω) * t)) -
          1 / 2 * ((mom a 1 t : ℂ) * Complex.exp (-(Complex.I * ω) * t))) (Ioi 0) := (w2.const_mul _).sub (w1.const_mul _)
      have h := intervalIntegral_tendsto_integral_Ioi (f := fun t : ℝ => (a:ℂ) ^ 2 / 4 * ((mom a 2 t : ℂ) * Complex.exp (-(Complex.I * ω) * t)) -
        1 / 2 * ((mom a 1 t : ℂ) * Complex.exp (-(Complex.I * ω) * t))) 0 hsub tendsto_id
      rw [integral_sub (w2.const_mul _) (w1.const_mul _), integral_const_mul, integral_const_mul] at h
      exact h
    · rw [tendsto_zero_iff_norm_tendsto_zero]
      refine (tendsto_mom_atTop (a := a) 0).congr' ?_
      filter_upwards [eventually_gt_atTop 0] with t ht
      rw [norm_mul, hn, mul_one, Complex.norm_real, norm_eq_abs, abs_of_pos (mom_pos _ ht)]
  have hv : √π / κ * Complex.exp (-a * κ) =
      (Complex.I * ω)⁻¹ * (((a:ℂ) ^ 2 / 4 * lap (mom a 2) (Complex.I * ω) - 1 / 2 * lap (mom a 1) (Complex.I * ω)) - 0) := by
    rw [← hω, lap_mom_one ha hκ, lap_mom_two ha hκ]
    have hac : (a : ℂ) ≠ 0 := by exact_mod_cast ha.ne'
    field_simp
    ring
  rw [hv]
  refine hlim.congr' ?_
  filter_upwards [eventually_gt_atTop 0] with T hT using (key T hT).symm

namespace Tdem

variable {sigma mu r : ℝ}

/-- `θ r` in terms of the square root of the time. -/
theorem theta_mul (hs : 0 < sigma) (hm : 0 < mu) (r : ℝ) {t : ℝ} :
    theta t sigma mu * r = r * √(mu * sigma) / (2 * √t) := by
  rw [theta, sqrt_div (by positivity), show (4 * t : ℝ) = 2 ^ 2 * t by ring, sqrt_mul (show (0:ℝ) ≤ 2 ^ 2 by positivity), sqrt_sq two_pos.le]
  ring

theorem theta_gauss (hs : 0 < sigma) (hm : 0 < mu) (r : ℝ) {t : ℝ} (ht : 0 < t) (n : ℕ) :
    (theta t sigma mu * r) ^ (2 * n + 1) / t * exp (-(theta t sigma mu * r) ^ 2) =
      (r * √(mu * sigma)) ^ (2 * n + 1) / 2 ^ (2 * n + 1) * mom (r * √(mu * sigma)) (n + 1) t := by
  rw [theta_mul hs hm r, mom]
  have hs := (sqrt_pos.2 ht).ne'
  have hss : √t ^ 2 = t := sq_sqrt ht.le
  generalize r * √(mu * sigma) = a
  have e : (a / (2 * √t)) ^ 2 = a ^ 2 / (4 * t) := by rw [div_pow, mul_pow, hss]; norm_num
  rw [e, div_pow, mul_pow]
  generalize exp (-(a ^ 2 / (4 * t))) = X
  have e2 : √t ^ (2 * n + 1) = t ^ n * √t := by rw [pow_succ, pow_mul, hss]
  rw [e2, pow_succ t n]
  have := ht.ne'
  field_simp

/-- The transient of a shape whose slope is a gaussian times an even polynomial. -/
theorem stepOff_shape (hs : 0 < sigma) (hm : 0 < mu) (hr : 0 < r) {κ : ℂ} (hκ : |κ.im| ≤ κ.re) (hω : κ ^ 2 = Complex.I * ω)
    {g : ℝ → ℝ} (c1 c3 c5 c7 : ℝ)
    (hg : ∀ x, HasDerivAt g (2 / √π * (c1 + c3 * x ^ 2 + c5 * x ^ 4 + c7 * x ^ 6) * exp (-x ^ 2)) x) (h0 : g 0 = 0) :
    let u : ℂ := r * √(mu * sigma) * κ
    IsStepOff (fun t => g (theta t sigma mu * r)) ω
      ((c1 + c3 / 2 * (1 + u) + c5 / 4 * (3 + 3 * u + u ^ 2) + c7 / 8 * (15 + 15 * u + 6 * u ^ 2 + u ^ 3)) * Complex.exp (-u)) := by
  intro u
  have hq : 0 < √(mu * sigma) := sqrt_pos.2 (by positivity)
  have hpi : √π ≠ 0 := (sqrt_pos.2 pi_pos).ne'
  set a := r * √(mu * sigma) with ha
  have hap : 0 < a := by positivity
  set w : ℝ → ℝ := fun t => c1 * (a / 2 / √π * mom a 1 t) + c3 * (a ^ 3 / 8 / √π * mom a 2 t) + c5 * (a ^ 5 / 32 / √π * mom a 3 t) +
    c7 * (a ^ 7 / 128 / √π * mom a 4 t) with hw
  have i1 := mom_integrable hap 0
  have i2 := mom_integrable hap 1
  have i3 := mom_integrable hap 2
  have i4 := mom_integrable hap 3
  refine ⟨fun t => -w t, fun t ht => ?_, ?_, ?_, ?_⟩
  · refine ((hg _).comp t ((hasDerivAt_theta ht hs hm).mul_const r)).congr_deriv ?_
    have e1 := theta_gauss hs hm r ht 0
    have e2 := theta_gauss hs hm r ht 1
    have e3 := theta_gauss hs hm r ht 2
    have e4 := theta_gauss hs hm r ht 3
    norm_num at e1 e2 e3 e4
    rw [← ha] at e1 e2 e3 e4
    have ht0 := ht.ne'
    generalize exp (-(theta t sigma mu * r) ^ 2) = X at *
    have hb : -(theta t sigma mu / (2 * t)) * r = -(theta t sigma mu * r) / (2 * t) := by ring
    rw [hb]
    generalize theta t sigma mu * r = x at *
    simp only [hw]
    linear_combination (-1 / √π) * (c1 * e1 + c3 * e2 + c5 * e3 + c7 * e4)
  · have h1 : Tendsto (fun t => theta t sigma mu * r) atTop (𝓝 0) := by
      simpa using (tendsto_theta_atTop sigma mu).mul_const r
    have h2 := ((hg 0).continuousAt.tendsto).comp h1
    rw [h0] at h2
    exact h2
  · exact (((((i1.const_mul _).const_mul c1).add ((i2.const_mul _).const_mul c3)).add ((i3.const_mul _).const_mul c5)).add
      ((i4.const_mul _).const_mul c7)).neg
  · have hre : 0 ≤ (Complex.I * ω : ℂ).re := stepOff_re ω
    have l1 := lap_mom_one hap hκ
    have l2 := lap_mom_two hap hκ
    have l3 := lap_mom_three hap hκ
    have l4 := lap_mom_four hap hκ
    rw [hω] at l1 l2 l3 l4
    have w1 := weight_exp_integrable i1 hre
    have w2 := weight_exp_integrable i2 hre
    have w3 := weight_exp_integrable i3 hre
    have w4 := weight_exp_integrable i4 hre
    have hu : (a:ℂ) * κ = u := by simp only [u, ha]; push_cast; ring
    have hsplit : ∫ t in Ioi (0:ℝ), ((- -w t : ℝ) : ℂ) * Complex.exp (-(Complex.I * ω) * t) =
        c1 * (a / 2 / √π) * lap (mom a 1) (Complex.I * ω) + c3 * (a ^ 3 / 8 / √π) * lap (mom a 2) (Complex.I * ω) +
        c5 * (a ^ 5 / 32 / √π) * lap (mom a 3) (Complex.I * ω) + c7 * (a ^ 7 / 128 / √π) * lap (mom a 4) (Complex.I * ω) := by
      simp only [lap]
      rw [← integral_const_mul, ← integral_const_mul, ← integral_const_mul, ← integral_const_mul, ← integral_add, ← integral_add,
        ← integral_add]
      · refine integral_congr_ae (Eventually.of_forall fun t => ?_)
        simp only [hw]
        push_cast; ring
      · exact ((w1.const_mul _).add (w2.const_mul _)).add (w3.const_mul _)
      · exact w4.const_mul _
      · exact (w1.const_mul _).add (w2.const_mul _)
      · exact w3.const_mul _
      · exact w1.const_mul _
      · exact w2.const_mul _
    rw [hsplit, l1, l2, l3, l4, neg_mul, hu]
    have hpic : (√π : ℂ) ≠ 0 := by exact_mod_cast hpi
    have hac : (a : ℂ) ≠ 0 := by exact_mod_cast hap.ne'
    generalize Complex.exp (-u) = X
    field_simp
    ring

/-- Integration by parts: the transform of an absolutely integrable transient. -/
theorem integral_of_stepOff {f0 : ℝ} (h : IsStepOff f ω F) (hi : IntegrableOn f (Ioi 0)) (h0 : Tendsto f (𝓝[>] 0) (𝓝 f0)) :
    Complex.I * ω * ∫ t in Ioi (0:ℝ), (f t : ℂ) * Complex.exp (-(Complex.I * ω) * t) = f0 - F := by
  obtain ⟨d, h1, h2, h3, h4⟩ := h
  have hre : 0 ≤ (Complex.I * ω : ℂ).re := stepOff_re ω
  have wd := weight_exp_integrable (w := fun t => -d t) h3.neg hre
  have wf := weight_exp_integrable hi hre
  have hn : ∀ t : ℝ, ‖Complex.exp (-(Complex.I * ω) * t)‖ = 1 := fun t => by rw [Complex.norm_exp]; simp
  have key := integral_Ioi_of_limits (f := fun t => (f t : ℂ) * Complex.exp (-(Complex.I * ω) * t))
    (f' := fun t => -(((-d t : ℝ) : ℂ) * Complex.exp (-(Complex.I * ω) * t)) - Complex.I * ω * ((f t : ℂ) * Complex.exp (-(Complex.I * ω) * t)))
    (l := f0) (m := 0) ?_ ?_ ?_ ?_
  · rw [integral_sub, integral_neg, integral_const_mul, h4] at key
    · linear_combination -key
    · exact wd.neg
    · exact wf.const_mul _
  · have hc : Tendsto (fun t : ℝ => Complex.exp (-(Complex.I * ω) * t)) (𝓝[>] 0) (𝓝 1) := by
      have := (Continuous.tendsto (by fun_prop : Continuous fun t : ℝ => Complex.exp (-(Complex.I * ω) * t)) 0)
      simp only [Complex.ofReal_zero, mul_zero, Complex.exp_zero] at this
      exact this.mono_left nhdsWithin_le_nhds
    simpa using ((Complex.continuous_ofReal.tendsto f0).comp h0).mul hc
  · intro t ht
    have hd := (h1 t ht).ofReal_comp
    have h3 : HasDerivAt (fun t : ℝ => -(Complex.I * ω) * (t:ℂ)) (-(Complex.I * ω) * 1) t := (hasDerivAt_id t).ofReal_comp.const_mul _
    refine (hd.fun_mul h3.cexp).congr_deriv ?_
    push_cast; ring
  · exact wd.neg.sub (wf.const_mul _)
  · rw [tendsto_zero_iff_norm_tendsto_zero]
    refine (h2.norm.congr fun t => ?_).trans (by simp)
    rw [norm_mul, hn, mul_one, Complex.norm_real]

/-- A transient with a limit at `t = 0` that falls off like `t^(-3/2)` is integrable. -/
theorem integrable_of_decay {l C : ℝ} (hc : ContinuousOn f (Ioi 0)) (h0 : Tendsto f (𝓝[>] 0) (𝓝 l))
    (hb : ∀ t, 1 < t → |f t| ≤ C * t ^ (-(3 / 2) : ℝ)) : IntegrableOn f (Ioi 0) := by
  rw [← Ioc_union_Ioi_eq_Ioi zero_le_one]
  refine IntegrableOn.union ?_ ?_
  · have hcont : ContinuousOn (Function.update f 0 l) (Icc 0 1) := by
      intro t ht
      rcases ht.1.eq_or_lt with rfl | h
      · refine ContinuousWithinAt.mono ?_ Icc_subset_Ici_self
        rw [← Ioi_union_left, continuousWithinAt_union]
        refine ⟨?_, by simp [continuousWithinAt_singleton]⟩
        rw [ContinuousWithinAt, Function.update_self]
        refine h0.congr' ?_
        filter_upwards [self_mem_nhdsWithin] with t ht
        rw [Function.update_of_ne (ne_of_gt ht)]
      · refine ContinuousAt.continuousWithinAt ((hc.continuousAt (Ioi_mem_nhds h)).congr ?_)
        filter_upwards [isOpen_ne.mem_nhds (ne_of_gt h)] with u hu
        rw [Function.update_of_ne hu]
    refine ((hcont.integrableOn_Icc).mono_set Ioc_subset_Icc_self).congr_fun (fun t ht => ?_) measurableSet_Ioc
    rw [Function.update_of_ne (ne_of_gt ht.1)]
  · refine Integrable.mono' ((integrableOn_Ioi_rpow_of_lt (a := -(3 / 2)) (by norm_num) one_pos).const_mul C)
      ((hc.mono (Ioi_subset_Ioi zero_le_one)).aestronglyMeasurable measurableSet_Ioi) ?_
    filter_upwards [ae_restrict_mem measurableSet_Ioi] with t ht
    rw [norm_eq_abs]
    exact hb t ht

theorem pow_mul_gauss_le (n : ℕ) (x : ℝ) : x ^ (2 * n) * exp (-x ^ 2) ≤ n.factorial := by
  have h := pow_div_factorial_le_exp (x := x ^ 2) (by positivity) n
  have hf : (0:ℝ) < n.factorial := by exact_mod_cast Nat.factorial_pos _
  rw [exp_neg, ← div_eq_mul_inv, div_le_iff₀ (exp_pos _), pow_mul]
  rw [div_le_iff₀ hf] at h
  linarith

/-- Shapes that start with the third power of the argument. -/
theorem shape_le {g : ℝ → ℝ} (c5 c7 : ℝ) (hg : ∀ x, HasDerivAt g (2 / √π * (0 + 0 * x ^ 2 + c5 * x ^ 4 + c7 * x ^ 6) * exp (-x ^ 2)) x)
    (h0 : g 0 = 0) {x : ℝ} (hx : 0 ≤ x) : |g x| ≤ 2 / √π * (|c5| + 2 * |c7|) * x ^ 3 := by
  have hpi : 0 < √π := sqrt_pos.2 pi_pos
  have hb : ∀ y ∈ Icc 0 x, ‖deriv g y‖ ≤ 2 / √π * (|c5| + 2 * |c7|) * x ^ 2 := by
    intro y hy
    rw [(hg y).deriv, norm_eq_abs]
    have e : 2 / √π * (0 + 0 * y ^ 2 + c5 * y ^ 4 + c7 * y ^ 6) * exp (-y ^ 2) =
        2 / √π * (c5 * (y ^ (2 * 1) * exp (-y ^ 2)) + c7 * (y ^ (2 * 2) * exp (-y ^ 2))) * y ^ 2 := by ring
    rw [e, abs_mul, abs_mul, abs_of_pos (show 0 < 2 / √π by positivity), abs_of_nonneg (sq_nonneg y)]
    have hy2 : y ^ 2 ≤ x ^ 2 := pow_le_pow_left₀ hy.1 hy.2 2
    refine mul_le_mul (mul_le_mul_of_nonneg_left ?_ (by positivity)) hy2 (sq_nonneg _) (by positivity)
    refine (abs_add_le _ _).trans ?_
    have h1 := pow_mul_gauss_le 1 y
    have h2 := pow_mul_gauss_le 2 y
    norm_num only [Nat.factorial, Nat.cast_one, Nat.cast_ofNat] at h1 h2
    rw [abs_mul c5, abs_mul c7, abs_of_nonneg (show 0 ≤ y ^ (2 * 1) * exp (-y ^ 2) from mul_nonneg (pow_nonneg hy.1 _) (exp_pos _).le),
      abs_of_nonneg (show 0 ≤ y ^ (2 * 2) * exp (-y ^ 2) from mul_nonneg (pow_nonneg hy.1 _) (exp_pos _).le)]
    have a1 := mul_le_mul_of_nonneg_left h1 (abs_nonneg c5)
    have a2 := mul_le_mul_of_nonneg_left h2 (abs_nonneg c7)
    norm_num at a1 a2 ⊢
    linarith
  have h := Convex.norm_image_sub_le_of_norm_deriv_le (fun y _ => (hg y).differentiableAt) hb (convex_Icc 0 x) (left_mem_Icc.2 hx)
    (right_mem_Icc.2 hx)
  rw [h0, sub_zero, sub_zero, norm_eq_abs, norm_eq_abs, abs_of_nonneg hx] at h
  linarith [h, show 2 / √π * (|c5| + 2 * |c7|) * x ^ 3 = 2 / √π * (|c5| + 2 * |c7|) * x ^ 2 * x by ring]

/-- A transient whose time derivative is such a shape. -/
theorem stepOff_of_deriv_shape (hs : 0 < sigma) (hm : 0 < mu) (hr : 0 < r) {κ : ℂ} (hκ : |κ.im| ≤ κ.re) (hω : κ ^ 2 = Complex.I * ω)
    (hω0 : ω ≠ 0) {g : ℝ → ℝ} (c5 c7 l c : ℝ)
    (hg : ∀ x, HasDerivAt g (2 / √π * (0 + 0 * x ^ 2 + c5 * x ^ 4 + c7 * x ^ 6) * exp (-x ^ 2)) x) (h0 : g 0 = 0)
    (hl : Tendsto g atTop (𝓝 l)) (hf : ∀ t, 0 < t → HasDerivAt f (-c * g (theta t sigma mu * r)) t) (hf0 : Tendsto f atTop (𝓝 0)) :
    let u : ℂ := r * √(mu * sigma) * κ
    IsStepOff f ω (c * (l - (c5 / 4 * (3 + 3 * u + u ^ 2) + c7 / 8 * (15 + 15 * u + 6 * u ^ 2 + u ^ 3)) * Complex.exp (-u)) /
      (Complex.I * ω)) := by
  intro u
  have hq : 0 < √(mu * sigma) := sqrt_pos.2 (by positivity)
  have hG := stepOff_shape hs hm hr hκ hω 0 0 c5 c7 hg h0
  have hstart : Tendsto (fun t => g (theta t sigma mu * r)) (𝓝[>] 0) (𝓝 l) :=
    hl.comp ((tendsto_theta_zero hs hm).atTop_mul_const hr)
  have hcont : ContinuousOn (fun t => g (theta t sigma mu * r)) (Ioi 0) := fun t ht =>
    ((hg _).comp t ((hasDerivAt_theta ht hs hm).mul_const r)).continuousAt.continuousWithinAt
  have hint : IntegrableOn (fun t => g (theta t sigma mu * r)) (Ioi 0) := by
    refine integrable_of_decay (C := 2 / √π * (|c5| + 2 * |c7|) * ((r * √(mu * sigma)) ^ 3 / 8)) hcont hstart fun t ht => ?_
    have ht0 : 0 < t := by linarith
    have hx := theta_pos ht0 hs hm
    refine (shape_le c5 c7 hg h0 (by positivity)).trans (le_of_eq ?_)
    rw [theta_mul hs hm r, rpow_neg ht0.le, show (3 / 2 : ℝ) = 1 + 1 / 2 by norm_num, rpow_add ht0, rpow_one, ← sqrt_eq_rpow]
    have hss : √t ^ 2 = t := sq_sqrt ht0.le
    have h1 := (sqrt_pos.2 ht0).ne'
    have h2 := (sqrt_pos.2 pi_pos).ne'
    have e : (r * √(mu * sigma) / (2 * √t)) ^ 3 = (r * √(mu * sigma)) ^ 3 / (8 * (√t ^ 2 * √t)) := by
      rw [div_pow]; congr 1; ring
    rw [e, hss]
    have h3 := ht0.ne'
    generalize r * √(mu * sigma) = a
    field_simp
  have key := integral_of_stepOff hG hint hstart
  have hω' : Complex.I * (ω:ℂ) ≠ 0 := mul_ne_zero Complex.I_ne_zero (by exact_mod_cast hω0)
  refine ⟨fun t => -c * g (theta t sigma mu * r), hf, hf0, hint.const_mul _, ?_⟩
  rw [eq_div_iff hω']
  have e : ∫ t in Ioi (0:ℝ), ((-(-c * g (theta t sigma mu * r)) : ℝ) : ℂ) * Complex.exp (-(Complex.I * ω) * t) =
      c * ∫ t in Ioi (0:ℝ), (g (theta t sigma mu * r) : ℂ) * Complex.exp (-(Complex.I * ω) * t) := by
    rw [← integral_const_mul]
    refine integral_congr_ae (Eventually.of_forall fun t => ?_)
    push_cast; ring
  rw [e, mul_assoc, mul_comm _ (Complex.I * (ω:ℂ)), key]
  push_cast
  ring

end Tdem

end Verif
