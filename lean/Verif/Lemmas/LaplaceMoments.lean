import Verif.Lemmas.Laplace

/-! # The Laplace transforms of the diffusive kernels (helper lemmas) -/

namespace Verif

open Real Filter MeasureTheory Set
open scoped Topology

/-- The kernels `exp(-a²/4t) / t^(n + 1/2)`. -/
noncomputable def mom (a : ℝ) (n : ℕ) (t : ℝ) : ℝ := exp (-(a ^ 2 / (4 * t))) / (t ^ n * √t)

variable {a t : ℝ}

theorem mom_pos (n : ℕ) (ht : 0 < t) : 0 < mom a n t := by
  have := sqrt_pos.2 ht
  exact div_pos (exp_pos _) (by positivity)

theorem mom_succ (n : ℕ) (ht : 0 < t) : mom a n t = t * mom a (n + 1) t := by
  have := (sqrt_pos.2 ht).ne'
  have := ht.ne'
  rw [mom, mom]; field_simp; rw [pow_succ]; ring

theorem hasDerivAt_mom (n : ℕ) (ht : 0 < t) :
    HasDerivAt (mom a n) (a ^ 2 / 4 * mom a (n + 2) t - (n + 1 / 2) * mom a (n + 1) t) t := by
  have h0 := ht.ne'
  have hs := (sqrt_pos.2 ht).ne'
  have h1 : HasDerivAt (fun t : ℝ => exp (-(a ^ 2 / (4 * t)))) (exp (-(a ^ 2 / (4 * t))) * (a ^ 2 / (4 * t ^ 2))) t := by
    have h2 : HasDerivAt (fun t : ℝ => a ^ 2 / (4 * t)) (-(a ^ 2 / (4 * t ^ 2))) t := by
      have := (hasDerivAt_const t (a ^ 2)).fun_div ((hasDerivAt_id t).const_mul 4) (by simpa using h0)
      refine this.congr_deriv ?_
      simp only [id]; field_simp; ring
    exact (h2.fun_neg.exp).congr_deriv (by ring)
  have h3 : HasDerivAt (fun t : ℝ => t ^ n * √t) (n * t ^ n / t * √t + t ^ n * (1 / (2 * √t))) t := by
    refine ((hasDerivAt_pow n t).fun_mul (hasDerivAt_sqrt h0)).congr_deriv ?_
    rcases n with _ | n
    · simp
    · rw [Nat.add_sub_cancel, pow_succ]; field_simp
  refine (h1.fun_div h3 (by positivity)).congr_deriv ?_
  rw [mom, mom, pow_succ, pow_succ, pow_succ]
  have hss : √t ^ 2 = t := sq_sqrt ht.le
  generalize exp (-(a ^ 2 / (4 * t))) = e at *
  generalize √t = r at *
  subst hss
  field_simp
  ring

theorem mom_le_of_one_lt (n : ℕ) (ht : 0 < t) : mom a n t ≤ 1 / (t ^ n * √t) := by
  have := sqrt_pos.2 ht
  rw [mom]
  refine div_le_div_of_nonneg_right (exp_le_one_iff.2 ?_) (by positivity)
  have : 0 ≤ a ^ 2 / (4 * t) := by positivity
  linarith

/-- Near zero the kernels vanish. -/
theorem mom_le_sqrt (ha : 0 < a) (n : ℕ) (ht : 0 < t) : mom a n t ≤ (n + 1).factorial * (4 / a ^ 2) ^ (n + 1) * √t := by
  have hs := sqrt_pos.2 ht
  have h := pow_div_factorial_le_exp (x := a ^ 2 / (4 * t)) (by positivity) (n + 1)
  have hf : (0:ℝ) < (n + 1).factorial := by exact_mod_cast Nat.factorial_pos _
  have hp : (0:ℝ) < (a ^ 2 / (4 * t)) ^ (n + 1) / (n + 1).factorial := by positivity
  rw [mom, exp_neg, div_le_iff₀ (by positivity)]
  refine (inv_anti₀ hp h).trans (le_of_eq ?_)
  rw [div_pow, div_pow, mul_pow, inv_div]
  have hss : √t ^ 2 = t := sq_sqrt ht.le
  have e : √t * (t ^ n * √t) = t ^ (n + 1) := by rw [pow_succ]; linear_combination t ^ n * hss
  rw [mul_assoc _ (√t), e]
  field_simp

theorem tendsto_mom_zero (ha : 0 < a) (n : ℕ) : Tendsto (mom a n) (𝓝[>] 0) (𝓝 0) := by
  have h : Tendsto (fun t : ℝ => (n + 1).factorial * (4 / a ^ 2) ^ (n + 1) * √t) (𝓝[>] 0) (𝓝 0) := by
    have : Tendsto (fun t : ℝ => (n + 1).factorial * (4 / a ^ 2) ^ (n + 1) * √t) (𝓝 0)
        (𝓝 ((n + 1).factorial * (4 / a ^ 2) ^ (n + 1) * √0)) := Continuous.tendsto (by fun_prop) 0
    rw [sqrt_zero, mul_zero] at this
    exact this.mono_left nhdsWithin_le_nhds
  refine tendsto_of_tendsto_of_tendsto_of_le_of_le' tendsto_const_nhds h ?_ ?_
  · filter_upwards [self_mem_nhdsWithin] with t ht using (mom_pos n ht).le
  · filter_upwards [self_mem_nhdsWithin] with t ht using mom_le_sqrt ha n ht

theorem tendsto_mom_atTop (n : ℕ) : Tendsto (mom a n) atTop (𝓝 0) := by
  have h : Tendsto (fun t : ℝ => 1 / √t) atTop (𝓝 0) := tendsto_const_nhds.div_atTop tendsto_sqrt_atTop
  refine tendsto_of_tendsto_of_tendsto_of_le_of_le' tendsto_const_nhds h ?_ ?_
  · filter_upwards [eventually_gt_atTop 0] with t ht using (mom_pos n ht).le
  · filter_upwards [eventually_ge_atTop 1] with t ht
    have ht0 : 0 < t := by linarith
    have hs := sqrt_pos.2 ht0
    refine (mom_le_of_one_lt n ht0).trans (one_div_le_one_div_of_le hs ?_)
    exact le_mul_of_one_le_left hs.le (one_le_pow₀ ht)

theorem continuousOn_mom (n : ℕ) : ContinuousOn (mom a n) (Ioi 0) := fun _ ht =>
  (hasDerivAt_mom n ht).continuousAt.continuousWithinAt

theorem mom_integrable (ha : 0 < a) (n : ℕ) : IntegrableOn (mom a (n + 1)) (Ioi 0) := by
  rw [← Ioc_union_Ioi_eq_Ioi zero_le_one]
  refine IntegrableOn.union ?_ ?_
  · refine Integrable.of_bound (C := (n + 1 + 1).factorial * (4 / a ^ 2) ^ (n + 1 + 1)) ?_ ?_
    · exact ((continuousOn_mom _).mono Ioc_subset_Ioi_self).aestronglyMeasurable measurableSet_Ioc
    · filter_upwards [ae_restrict_mem measurableSet_Ioc] with t ht
      rw [norm_eq_abs, abs_of_pos (mom_pos _ ht.1)]
      refine (mom_le_sqrt ha _ ht.1).trans (mul_le_of_le_one_right (by positivity) ?_)
      exact sqrt_le_one.2 ht.2
  · have hi : IntegrableOn (fun t : ℝ => t ^ (-(3 / 2) : ℝ)) (Ioi 1) := integrableOn_Ioi_rpow_of_lt (by norm_num) one_pos
    refine Integrable.mono' hi (((continuousOn_mom _).mono (Ioi_subset_Ioi zero_le_one)).aestronglyMeasurable measurableSet_Ioi) ?_
    filter_upwards [ae_restrict_mem measurableSet_Ioi] with t ht
    have ht1 : (1:ℝ) < t := ht
    have ht0 : 0 < t := by linarith
    have hs := sqrt_pos.2 ht0
    rw [norm_eq_abs, abs_of_pos (mom_pos _ ht0)]
    refine (mom_le_of_one_lt _ ht0).trans ?_
    have e : t ^ (-(3 / 2) : ℝ) = 1 / (t * √t) := by
      rw [rpow_neg ht0.le, show (3 / 2 : ℝ) = 1 + 1 / 2 by norm_num, rpow_add ht0, rpow_one, sqrt_eq_rpow, one_div (t * _)]
    rw [e]
    refine one_div_le_one_div_of_le (by positivity) (mul_le_mul_of_nonneg_right ?_ hs.le)
    rw [pow_succ]
    exact le_mul_of_one_le_left ht0.le (one_le_pow₀ ht1.le)

/-! ## The real transforms -/

theorem erf_atBot : Tendsto erf atBot (𝓝 (-1)) := by
  have h := (tendsto_erf_atTop.comp tendsto_neg_atBot_atTop).neg
  refine h.congr fun x => ?_
  simp [Function.comp, erf_neg]

/-- The arguments of the error functions in the antiderivatives. -/
noncomputable def lapArg (a c t : ℝ) : ℝ := a / (2 * √t) + c * √t

theorem hasDerivAt_lapArg (c : ℝ) (ht : 0 < t) :
    HasDerivAt (lapArg a c) (-(a / (4 * (t * √t))) + c / (2 * √t)) t := by
  have h0 := ht.ne'
  have hs := (sqrt_pos.2 ht).ne'
  have h1 := hasDerivAt_sqrt h0
  have h2 := ((hasDerivAt_const t a).fun_div (h1.const_mul 2) (by positivity)).fun_add (h1.const_mul c)
  refine h2.congr_deriv ?_
  have hss : √t ^ 2 = t := sq_sqrt ht.le
  generalize √t = r at *
  subst hss
  field_simp
  ring

theorem hasDerivAt_erf_lapArg (c : ℝ) (ht : 0 < t) :
    HasDerivAt (fun t => exp (a * c) * erf (lapArg a c t))
      (2 / √π * (-(a / 4) * mom a 1 t + c / 2 * mom a 0 t) * exp (-c ^ 2 * t)) t := by
  have h0 := ht.ne'
  have hs := (sqrt_pos.2 ht).ne'
  refine (((hasDerivAt_erf (lapArg a c t)).comp t (hasDerivAt_lapArg c ht)).const_mul (exp (a * c))).congr_deriv ?_
  have e : exp (a * c) * exp (-lapArg a c t ^ 2) = exp (-(a ^ 2 / (4 * t))) * exp (-c ^ 2 * t) := by
    rw [← exp_add, ← exp_add]
    congr 1
    have hss : √t ^ 2 = t := sq_sqrt ht.le
    rw [lapArg]
    generalize √t = r at *
    subst hss
    field_simp
    ring
  have e2 : 2 / √π * (-(a / 4) * mom a 1 t + c / 2 * mom a 0 t) * exp (-c ^ 2 * t) =
      2 / √π * (-(a / (4 * (t * √t))) + c / (2 * √t)) * (exp (-(a ^ 2 / (4 * t))) * exp (-c ^ 2 * t)) := by
    rw [mom, mom, pow_one, pow_zero, one_mul]
    field_simp
  rw [e2, ← e]; ring

theorem tendsto_lapArg_zero (ha : 0 < a) (c : ℝ) : Tendsto (lapArg a c) (𝓝[>] 0) atTop := by
  have hs : Tendsto (fun t : ℝ => √t) (𝓝[>] 0) (𝓝[>] 0) := by
    refine tendsto_nhdsWithin_iff.2 ⟨?_, ?_⟩
    · have := continuous_sqrt.tendsto 0
      rw [sqrt_zero] at this
      exact this.mono_left nhdsWithin_le_nhds
    · filter_upwards [self_mem_nhdsWithin] with t ht using sqrt_pos.2 ht
  have h1 : Tendsto (fun t : ℝ => a / 2 * (√t)⁻¹) (𝓝[>] 0) atTop :=
    (tendsto_inv_nhdsGT_zero.comp hs).const_mul_atTop (by positivity)
  have h2 : Tendsto (fun t : ℝ => c * √t) (𝓝[>] 0) (𝓝 (c * 0)) := (tendsto_nhdsWithin_iff.1 hs).1.const_mul c
  refine (h1.atTop_add h2).congr fun t => ?_
  rw [lapArg, mul_comm 2, ← div_div, div_right_comm]; rfl

theorem tendsto_lapArg_atTop {c : ℝ} (hc : 0 < c) : Tendsto (lapArg a c) atTop atTop := by
  have h1 : Tendsto (fun t : ℝ => a / (2 * √t)) atTop (𝓝 0) :=
    tendsto_const_nhds.div_atTop (tendsto_sqrt_atTop.const_mul_atTop two_pos)
  exact h1.add_atTop (tendsto_sqrt_atTop.const_mul_atTop hc)

theorem tendsto_lapArg_atBot {c : ℝ} (hc : 0 < c) : Tendsto (lapArg a (-c)) atTop atBot := by
  have h := (tendsto_lapArg_atTop (a := -a) hc)
  refine (tendsto_neg_atTop_atBot.comp h).congr fun t => ?_
  simp only [Function.comp, lapArg]; ring

theorem real_integrable_mom (ha : 0 < a) (n : ℕ) {c : ℝ} (hc : 0 < c) : IntegrableOn (fun t => mom a n t * exp (-c ^ 2 * t)) (Ioi 0) := by
  refine Integrable.mono' ((mom_integrable ha n).const_mul (1 / c ^ 2)) ?_ ?_
  · exact ((continuousOn_mom n).mul (by fun_prop)).aestronglyMeasurable measurableSet_Ioi
  · filter_upwards [ae_restrict_mem measurableSet_Ioi] with t ht
    have ht0 : (0:ℝ) < t := ht
    rw [norm_eq_abs, abs_of_pos (mul_pos (mom_pos _ ht0) (exp_pos _)), mom_succ n ht0, mul_comm t, mul_assoc, mul_comm (1 / c ^ 2)]
    refine mul_le_mul_of_nonneg_left ?_ (mom_pos _ ht0).le
    have h := add_one_le_exp (c ^ 2 * t)
    rw [neg_mul, exp_neg, ← div_eq_mul_inv, div_le_div_iff₀ (exp_pos _) (by positivity)]
    nlinarith

/-- `∫ t^(-3/2) exp(-a²/4t - c²t) dt`. -/
theorem real_mom_one (ha : 0 < a) {c : ℝ} (hc : 0 < c) :
    ∫ t in Ioi (0:ℝ), mom a 1 t * exp (-c ^ 2 * t) = 2 * √π / a * exp (-a * c) := by
  have hpi : √π ≠ 0 := (sqrt_pos.2 pi_pos).ne'
  have key := integral_Ioi_of_limits (f := fun t => -(√π / a) * (exp (a * c) * erf (lapArg a c t) + exp (a * (-c)) * erf (lapArg a (-c) t)))
    (f' := fun t => mom a 1 t * exp (-c ^ 2 * t)) (l := -(√π / a) * (exp (a * c) * 1 + exp (a * (-c)) * 1))
    (m := -(√π / a) * (exp (a * c) * 1 + exp (a * (-c)) * (-1))) ?_ ?_ (real_integrable_mom ha 1 hc) ?_
  · rw [key]; ring_nf
  · exact ((((tendsto_erf_atTop.comp (tendsto_lapArg_zero ha c)).const_mul _).add
      ((tendsto_erf_atTop.comp (tendsto_lapArg_zero ha (-c))).const_mul _)).const_mul _)
  · intro t ht
    refine (((hasDerivAt_erf_lapArg c ht).fun_add (hasDerivAt_erf_lapArg (-c) ht)).const_mul _).congr_deriv ?_
    rw [neg_sq]
    field_simp
    ring
  · exact ((((tendsto_erf_atTop.comp (tendsto_lapArg_atTop hc)).const_mul _).add
      ((erf_atBot.comp (tendsto_lapArg_atBot hc)).const_mul _)).const_mul _)

/-- `∫ t^(-1/2) exp(-a²/4t - c²t) dt`. -/
theorem real_mom_zero (ha : 0 < a) {c : ℝ} (hc : 0 < c) :
    ∫ t in Ioi (0:ℝ), mom a 0 t * exp (-c ^ 2 * t) = √π / c * exp (-a * c) := by
  have hpi : √π ≠ 0 := (sqrt_pos.2 pi_pos).ne'
  have key := integral_Ioi_of_limits (f := fun t => √π / (2 * c) * (exp (a * c) * erf (lapArg a c t) - exp (a * (-c)) * erf (lapArg a (-c) t)))
    (f' := fun t => mom a 0 t * exp (-c ^ 2 * t)) (l := √π / (2 * c) * (exp (a * c) * 1 - exp (a * (-c)) * 1))
    (m := √π / (2 * c) * (exp (a * c) * 1 - exp (a * (-c)) * (-1))) ?_ ?_ (real_integrable_mom ha 0 hc) ?_
  · rw [key]; field_simp; ring_nf
  · exact ((((tendsto_erf_atTop.comp (tendsto_lapArg_zero ha c)).const_mul _).sub
      ((tendsto_erf_atTop.comp (tendsto_lapArg_zero ha (-c))).const_mul _)).const_mul _)
  · intro t ht
    refine (((hasDerivAt_erf_lapArg c ht).fun_sub (hasDerivAt_erf_lapArg (-c) ht)).const_mul _).congr_deriv ?_
    rw [neg_sq]
    field_simp
    ring
  · exact ((((tendsto_erf_atTop.comp (tendsto_lapArg_atTop hc)).const_mul _).sub
      ((erf_atBot.comp (tendsto_lapArg_atBot hc)).const_mul _)).const_mul _)

/-- `∫ t^(-5/2) exp(-a²/4t - c²t) dt`. -/
theorem real_mom_two (ha : 0 < a) {c : ℝ} (hc : 0 < c) :
    ∫ t in Ioi (0:ℝ), mom a 2 t * exp (-c ^ 2 * t) = 4 * √π / a ^ 3 * (1 + a * c) * exp (-a * c) := by
  have hi0 := real_integrable_mom ha 0 hc
  have hi1 := real_integrable_mom ha 1 hc
  have hi2 := real_integrable_mom ha 2 hc
  have key := integral_Ioi_of_limits (f := fun t => mom a 0 t * exp (-c ^ 2 * t))
    (f' := fun t => a ^ 2 / 4 * (mom a 2 t * exp (-c ^ 2 * t)) - 1 / 2 * (mom a 1 t * exp (-c ^ 2 * t)) -
      c ^ 2 * (mom a 0 t * exp (-c ^ 2 * t))) (l := 0) (m := 0) ?_ ?_ ?_ ?_
  · rw [integral_sub, integral_sub, integral_const_mul, integral_const_mul, integral_const_mul, real_mom_zero ha hc,
      real_mom_one ha hc] at key
    · have e : ∫ t in Ioi (0:ℝ), mom a 2 t * exp (-c ^ 2 * t) =
          4 / a ^ 2 * (1 / 2 * (2 * √π / a * exp (-a * c)) + c ^ 2 * (√π / c * exp (-a * c))) := by
        have ha2 : a ^ 2 ≠ 0 := by positivity
        rw [div_mul_eq_mul_div, eq_div_iff ha2]
        linarith
      rw [e]; field_simp
    · exact hi2.const_mul _
    · exact hi1.const_mul _
    · exact (hi2.const_mul _).sub (hi1.const_mul _)
    · exact hi0.const_mul _
  · have h := (tendsto_mom_zero ha 0).mul ((Continuous.tendsto (by fun_prop : Continuous fun t : ℝ => exp (-c ^ 2 * t)) 0).mono_left
      (nhdsWithin_le_nhds (s := Ioi 0)))
    simpa using h
  · intro t ht
    have h2 : HasDerivAt (fun t : ℝ => exp (-c ^ 2 * t)) (exp (-c ^ 2 * t) * (-c ^ 2)) t := by
      simpa using (((hasDerivAt_id t).const_mul (-c ^ 2)).exp)
    refine ((hasDerivAt_mom 0 ht).fun_mul h2).congr_deriv ?_
    simp only [Nat.cast_zero, zero_add]
    ring
  · exact ((hi2.const_mul _).sub (hi1.const_mul _)).sub (hi0.const_mul _)
  · have h : Tendsto (fun t : ℝ => exp (-c ^ 2 * t)) atTop (𝓝 0) := by
      refine tendsto_exp_atBot.comp ?_
      have := (tendsto_id (α := ℝ) (x := atTop)).const_mul_atTop_of_neg (show -c ^ 2 < 0 by have := pow_pos hc 2; linarith)
      exact this
    simpa using (tendsto_mom_atTop (a := a) 0).mul h

/-! ## The complex transforms -/

theorem lap_ofReal (w : ℝ → ℝ) (c : ℝ) : lap w ((c:ℂ) ^ 2) = ((∫ t in Ioi (0:ℝ), w t * exp (-c ^ 2 * t) : ℝ) : ℂ) := by
  rw [lap, ← integral_complex_ofReal]
  refine integral_congr_ae (Eventually.of_forall fun t => ?_)
  simp

theorem lap_mom_one (ha : 0 < a) {κ : ℂ} (hκ : |κ.im| ≤ κ.re) :
    lap (mom a 1) (κ ^ 2) = 2 * √π / a * Complex.exp (-a * κ) := by
  refine lap_continuation (mom_integrable ha 0) (H := fun κ => 2 * √π / a * Complex.exp (-a * κ)) (by fun_prop) ?_ hκ
  intro c hc
  rw [lap_ofReal, real_mom_one ha hc]
  push_cast; rfl

theorem lap_mom_two (ha : 0 < a) {κ : ℂ} (hκ : |κ.im| ≤ κ.re) :
    lap (mom a 2) (κ ^ 2) = 4 * √π / a ^ 3 * (1 + a * κ) * Complex.exp (-a * κ) := by
  refine lap_continuation (mom_integrable ha 1) (H := fun κ => 4 * √π / a ^ 3 * (1 + a * κ) * Complex.exp (-a * κ)) (by fun_prop) ?_ hκ
  intro c hc
  rw [lap_ofReal, real_mom_two ha hc]
  push_cast; rfl

theorem sq_re_nonneg {κ : ℂ} (hκ : |κ.im| ≤ κ.re) : 0 ≤ (κ ^ 2).re := by
  have : (κ ^ 2).re = κ.re ^ 2 - κ.im ^ 2 := by simp [sq]
  rw [this, sub_nonneg, ← sq_abs κ.im]
  exact pow_le_pow_left₀ (abs_nonneg _) hκ 2

theorem lap_mom_rec (ha : 0 < a) (n : ℕ) {s : ℂ} (hs : 0 ≤ s.re) :
    (a:ℂ) ^ 2 / 4 * lap (mom a (n + 3)) s = (n + 1 + 1 / 2) * lap (mom a (n + 2)) s + s * lap (mom a (n + 1)) s := by
  have hi := fun k => weight_exp_integrable (mom_integrable ha k) hs
  have key := integral_Ioi_of_limits (f := fun t => (mom a (n + 1) t : ℂ) * Complex.exp (-s * t))
    (f' := fun t => (a:ℂ) ^ 2 / 4 * ((mom a (n + 3) t : ℂ) * Complex.exp (-s * t)) -
      (n + 1 + 1 / 2 : ℂ) * ((mom a (n + 2) t : ℂ) * Complex.exp (-s * t)) - s * ((mom a (n + 1) t : ℂ) * Complex.exp (-s * t)))
      (l := 0) (m := 0) ?_ ?_ ?_ ?_
  · rw [integral_sub, integral_sub, integral_const_mul, integral_const_mul, integral_const_mul] at key
    · rw [lap, lap, lap]
      linear_combination key
    · exact (hi (n + 2)).const_mul _
    · exact (hi (n + 1)).const_mul _
    · exact ((hi (n + 2)).const_mul _).sub ((hi (n + 1)).const_mul _)
    · exact (hi n).const_mul _
  · rw [tendsto_zero_iff_norm_tendsto_zero]
    have h := tendsto_mom_zero ha (n + 1)
    refine tendsto_of_tendsto_of_tendsto_of_le_of_le' tendsto_const_nhds h (Eventually.of_forall fun t => norm_nonneg _) ?_
    filter_upwards [self_mem_nhdsWithin] with t ht
    rw [norm_weight_exp, abs_of_pos (mom_pos _ ht)]
    refine mul_le_of_le_one_right (mom_pos _ ht).le (exp_le_one_iff.2 ?_)
    have := mul_nonneg hs (le_of_lt ht); linarith
  · intro t ht
    have h1 := (hasDerivAt_mom (a := a) (n + 1) ht).ofReal_comp
    have h2 : HasDerivAt (fun t : ℝ => Complex.exp (-s * t)) (Complex.exp (-s * t) * (-s)) t := by
      have h3 : HasDerivAt (fun t : ℝ => -s * (t:ℂ)) (-s * 1) t := (hasDerivAt_id t).ofReal_comp.const_mul _
      simpa using h3.cexp
    refine (h1.fun_mul h2).congr_deriv ?_
    push_cast
    ring
  · exact (((hi (n + 2)).const_mul _).sub ((hi (n + 1)).const_mul _)).sub ((hi n).const_mul _)
  · rw [tendsto_zero_iff_norm_tendsto_zero]
    have h := tendsto_mom_atTop (a := a) (n + 1)
    refine tendsto_of_tendsto_of_tendsto_of_le_of_le' tendsto_const_nhds h (Eventually.of_forall fun t => norm_nonneg _) ?_
    filter_upwards [eventually_gt_atTop 0] with t ht
    rw [norm_weight_exp, abs_of_pos (mom_pos _ ht)]
    refine mul_le_of_le_one_right (mom_pos _ ht).le (exp_le_one_iff.2 ?_)
    have := mul_nonneg hs (le_of_lt ht); linarith

theorem lap_mom_three (ha : 0 < a) {κ : ℂ} (hκ : |κ.im| ≤ κ.re) :
    lap (mom a 3) (κ ^ 2) = 8 * √π / a ^ 5 * (3 + 3 * (a * κ) + (a * κ) ^ 2) * Complex.exp (-a * κ) := by
  have h := lap_mom_rec ha 0 (sq_re_nonneg hκ)
  have ha' : (a:ℂ) ≠ 0 := by exact_mod_cast ha.ne'
  rw [lap_mom_two ha hκ, lap_mom_one ha hκ] at h
  simp only [zero_add] at h
  have e : lap (mom a 3) (κ ^ 2) = 4 / a ^ 2 * ((a:ℂ) ^ 2 / 4 * lap (mom a 3) (κ ^ 2)) := by field_simp
  rw [e, h]
  field_simp
  push_cast
  ring

theorem lap_mom_four (ha : 0 < a) {κ : ℂ} (hκ : |κ.im| ≤ κ.re) :
    lap (mom a 4) (κ ^ 2) = 16 * √π / a ^ 7 * (15 + 15 * (a * κ) + 6 * (a * κ) ^ 2 + (a * κ) ^ 3) * Complex.exp (-a * κ) := by
  have h := lap_mom_rec ha 1 (sq_re_nonneg hκ)
  have ha' : (a:ℂ) ≠ 0 := by exact_mod_cast ha.ne'
  have h3 := lap_mom_three ha hκ
  have h2 := lap_mom_two ha hκ
  norm_num only at h
  rw [h3, h2] at h
  have e : lap (mom a 4) (κ ^ 2) = 4 / a ^ 2 * ((a:ℂ) ^ 2 / 4 * lap (mom a 4) (κ ^ 2)) := by field_simp
  rw [e, h]
  field_simp
  ring

end Verif
