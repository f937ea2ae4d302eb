import Verif.Lemmas.HankelComplex

/-! # Hankel transforms of the reflection coefficient of a uniform halfspace (helper lemmas) -/

namespace Verif

open Real Filter MeasureTheory Set
open scoped Topology

variable {κ : ℂ}

/-- The reflection coefficient `(x - u)/(x + u)`, `u² = x² + κ²`. -/
noncomputable def hsRefl (κ : ℂ) (x : ℝ) : ℂ := (x - cru κ x) / (x + cru κ x)

theorem cru_slit_scaled (hκ : 0 < κ.re) {x : ℝ} (hx : 0 < x) (v : ℝ) : (x : ℂ) ^ 2 + (v * κ) ^ 2 ∈ Complex.slitPlane := by
  rcases lt_trichotomy v 0 with hv | hv | hv
  · have : 0 < ((-v : ℝ) * κ : ℂ).re := by
      rw [Complex.re_ofReal_mul]; exact mul_pos (by linarith) hκ
    have h := cru_slit this x
    simpa using h
  · subst hv
    rw [Complex.mem_slitPlane_iff]
    left
    have : ((x : ℂ) ^ 2 + (((0:ℝ) : ℂ) * κ) ^ 2).re = x ^ 2 := by simp [sq]
    rw [this]; positivity
  · have : 0 < ((v : ℝ) * κ : ℂ).re := by
      rw [Complex.re_ofReal_mul]; exact mul_pos hv hκ
    exact cru_slit this x

theorem cru_scaled_ne (hκ : 0 < κ.re) {x : ℝ} (hx : 0 < x) (v : ℝ) : cru (v * κ) x ≠ 0 := fun h => by
  have := cru_sq (v * κ) x
  rw [h, zero_pow two_ne_zero] at this
  exact Complex.slitPlane_ne_zero (cru_slit_scaled hκ hx v) this.symm

theorem hasDerivAt_cru_scaled (hκ : 0 < κ.re) {x : ℝ} (hx : 0 < x) (v : ℝ) :
    HasDerivAt (fun v : ℝ => cru (v * κ) x) (v * κ ^ 2 / cru (v * κ) x) v := by
  have h0 : HasDerivAt (fun v : ℝ => (v : ℂ)) 1 v := Complex.ofRealCLM.hasDerivAt
  have h1 : HasDerivAt (fun v : ℝ => (x : ℂ) ^ 2 + ((v : ℂ) * κ) ^ 2) (2 * v * κ ^ 2) v :=
    (((h0.mul_const κ).fun_pow 2).const_add ((x : ℂ) ^ 2)).congr_deriv (by simp; ring)
  have hne := Complex.slitPlane_ne_zero (cru_slit_scaled hκ hx v)
  have h3 : HasDerivAt (fun w : ℂ => w ^ (2⁻¹ : ℂ)) (2⁻¹ * ((x : ℂ) ^ 2 + ((v : ℂ) * κ) ^ 2) ^ ((2⁻¹ : ℂ) - 1)) ((x : ℂ) ^ 2 + ((v : ℂ) * κ) ^ 2) := by
    simpa using (hasDerivAt_id _).cpow_const (c := (2⁻¹ : ℂ)) (cru_slit_scaled hκ hx v)
  refine (h3.comp v h1).congr_deriv ?_
  rw [Complex.cpow_sub _ _ hne, Complex.cpow_one]
  show 2⁻¹ * (cru (v * κ) x / _) * (2 * v * κ ^ 2) = _
  rw [← cru_sq]
  have := cru_scaled_ne hκ hx v
  field_simp

theorem cru_zero {x : ℝ} (hx : 0 < x) : cru (((0:ℝ) : ℂ) * κ) x = x := by
  have : (x : ℂ) ^ 2 + (((0:ℝ) : ℂ) * κ) ^ 2 = ((x ^ 2 : ℝ) : ℂ) := by simp
  rw [cru, this]
  have h := Complex.sqrt_of_nonneg (a := ((x ^ 2 : ℝ) : ℂ)) (by open scoped ComplexOrder in exact_mod_cast sq_nonneg x)
  rw [h, Complex.ofReal_re, sqrt_sq hx.le]

theorem kappa_ne (hκ : 0 < κ.re) : κ ≠ 0 := fun h => by rw [h] at hκ; simp at hκ

theorem re_cru_pos (hκ : 0 < κ.re) (x : ℝ) : 0 < (cru κ x).re := by
  rw [cru]
  by_cases hi : ((x : ℂ) ^ 2 + κ ^ 2).im = 0
  · rw [csqrt_re]
    apply Real.sqrt_pos.2
    rcases Complex.mem_slitPlane_iff.1 (cru_slit hκ x) with h | h
    · have := norm_nonneg ((x : ℂ) ^ 2 + κ ^ 2); linarith
    · exact absurd hi h
  · exact csqrt_re_pos hi

theorem sum_ne (hκ : 0 < κ.re) {x : ℝ} (hx : 0 ≤ x) : (x : ℂ) + cru κ x ≠ 0 := fun h => by
  have := congrArg Complex.re h
  simp only [Complex.add_re, Complex.ofReal_re, Complex.zero_re] at this
  linarith [re_cru_pos hκ x]

/-- The second order expansion of the reflection coefficient with its remainder. -/
theorem hsRefl_expansion (hκ : 0 < κ.re) {x : ℝ} (hx : 0 < x) :
    (x : ℂ) ^ 2 * hsRefl κ x
      = -κ ^ 2 / 4 + 3 / 4 * κ ^ 4 * ∫ v in (0:ℝ)..1, (v * (1 - v ^ 2) ^ 2 : ℂ) * cker (v * κ) x := by
  have hk := kappa_ne hκ
  have hx' : (x : ℂ) ≠ 0 := by exact_mod_cast hx.ne'
  set A : ℂ := (x : ℂ) ^ 2 + κ ^ 2 with hA
  have hd : ∀ v : ℝ, HasDerivAt (fun v : ℝ => (x : ℂ) ^ 3 / (2 * κ ^ 6) *
      (-(2 / 3) * (A ^ 2 / cru (v * κ) x ^ 3) + 4 * (A / cru (v * κ) x) + 2 * cru (v * κ) x))
      ((v * (1 - v ^ 2) ^ 2 : ℂ) * cker (v * κ) x) v := by
    intro v
    have hu := hasDerivAt_cru_scaled hκ hx v
    have hne := cru_scaled_ne hκ hx v
    have hsq := cru_sq (v * κ) x
    refine (((((hasDerivAt_const v (A ^ 2)).fun_div (hu.fun_pow 3) (pow_ne_zero _ hne)).const_mul (-(2 / 3))).fun_add
      ((((hasDerivAt_const v A).fun_div hu hne).const_mul 4))).fun_add (hu.const_mul 2) |>.const_mul _).congr_deriv ?_
    rw [cker]
    have hA' : A = cru (v * κ) x ^ 2 + κ ^ 2 * (1 - v ^ 2) := by rw [hsq, hA]; ring
    rw [hA']
    generalize cru (v * κ) x = u at *
    field_simp
    ring
  have hcont : Continuous fun v : ℝ => (v * (1 - v ^ 2) ^ 2 : ℂ) * cker (v * κ) x := by
    refine Continuous.mul (by fun_prop) (Continuous.div continuous_const (Continuous.pow ?_ 5) fun v => pow_ne_zero _ (cru_scaled_ne hκ hx v))
    exact continuous_iff_continuousAt.2 fun v => (hasDerivAt_cru_scaled hκ hx v).continuousAt
  rw [intervalIntegral.integral_eq_sub_of_hasDerivAt (fun v _ => hd v) (hcont.intervalIntegrable _ _), cru_zero hx, hsRefl]
  simp only [Complex.ofReal_one, one_mul]
  have hsq := cru_sq κ x
  have hne := cru_ne hκ x
  have hsum := sum_ne hκ hx.le
  have hA' : A = cru κ x ^ 2 := by rw [hsq]
  have hk2 : κ ^ 2 = cru κ x ^ 2 - (x : ℂ) ^ 2 := by rw [hsq]; ring
  have e4 : κ ^ 4 = (cru κ x ^ 2 - (x : ℂ) ^ 2) ^ 2 := by rw [← hk2]; ring
  have e6 : κ ^ 6 = (cru κ x ^ 2 - (x : ℂ) ^ 2) ^ 3 := by rw [← hk2]; ring
  have hnk : cru κ x ^ 2 - (x : ℂ) ^ 2 ≠ 0 := by rw [← hk2]; exact pow_ne_zero _ hk
  rw [hA', hk2, e4, e6]
  generalize cru κ x = U at *
  have hm : U - x ≠ 0 := fun h => hnk (by linear_combination (U + x) * h)
  have hf : U ^ 2 - (x : ℂ) ^ 2 = (U - x) * (x + U) := by ring
  rw [hf]
  field_simp
  ring

/-! ## Exchanging the order of integration -/

variable {g : ℝ → ℝ} {C : ℝ}

/-- The remainder of the expansion as a function of both variables. -/
noncomputable def rem (κ : ℂ) (v x : ℝ) : ℂ := (v * (1 - v ^ 2) ^ 2 : ℂ) * cker (v * κ) x

theorem rem_dominated {b : ℝ} (hb : 0 < b) : Integrable (fun p : ℝ × ℝ => p.1 * ker (p.1 * b) p.2)
    ((volume.restrict (Ioc (0:ℝ) 1)).prod (volume.restrict (Ioi (0:ℝ)))) := by
  have hmeas : AEStronglyMeasurable (fun p : ℝ × ℝ => p.1 * ker (p.1 * b) p.2)
      ((volume.restrict (Ioc (0:ℝ) 1)).prod (volume.restrict (Ioi (0:ℝ)))) := by
    rw [Measure.prod_restrict]
    refine ContinuousOn.aestronglyMeasurable ?_ (measurableSet_Ioc.prod measurableSet_Ioi)
    refine ContinuousOn.mul (by fun_prop) (ContinuousOn.div (by fun_prop) (by fun_prop) fun p hp => pow_ne_zero _ ?_)
    have : (0:ℝ) < p.1 := hp.1.1
    exact (root_pos (by positivity) _).ne'
  rw [integrable_prod_iff hmeas]
  constructor
  · filter_upwards [ae_restrict_mem measurableSet_Ioc] with v hv
    have hv0 : (0:ℝ) < v := hv.1
    exact (integrableOn_ker (by positivity : 0 < v * b)).const_mul v
  · have hc : IntegrableOn (fun _ : ℝ => 2 / (3 * b)) (Ioc 0 1) := integrableOn_const (by simp)
    refine hc.congr_fun (fun v hv => ?_) measurableSet_Ioc
    have hv0 : (0:ℝ) < v := hv.1
    have e : ∀ x ∈ Ioi (0:ℝ), ‖v * ker (v * b) x‖ = v * ker (v * b) x := fun x hx => by
      rw [norm_eq_abs, abs_of_nonneg]
      exact mul_nonneg hv0.le (ker_nonneg _ (le_of_lt hx))
    show _ = ∫ x in Ioi (0:ℝ), ‖v * ker (v * b) x‖
    rw [setIntegral_congr_fun measurableSet_Ioi e, integral_const_mul, integral_ker (by positivity)]
    field_simp

theorem rem_integrable (hκ : 0 < κ.re) (hg : ContinuousOn g (Ioi 0)) (hC : ∀ x, 0 < x → |g x| ≤ C) :
    Integrable (fun p : ℝ × ℝ => rem κ p.1 p.2 * (g p.2 : ℂ)) ((volume.restrict (Ioc (0:ℝ) 1)).prod (volume.restrict (Ioi (0:ℝ)))) := by
  have hk : 0 < ‖κ‖ := norm_pos_iff.2 (kappa_ne hκ)
  refine Integrable.mono' ((rem_dominated hk).const_mul (kerC κ * C)) ?_ ?_
  · rw [Measure.prod_restrict]
    refine ContinuousOn.aestronglyMeasurable ?_ (measurableSet_Ioc.prod measurableSet_Ioi)
    refine ContinuousOn.mul (ContinuousOn.mul (by fun_prop) (ContinuousOn.div (by fun_prop) (ContinuousOn.pow ?_ 5) fun p hp =>
      pow_ne_zero _ (cru_scaled_ne hκ hp.2 p.1))) ?_
    · unfold cru Complex.sqrt
      exact ContinuousOn.cpow (by fun_prop) continuousOn_const fun p hp => cru_slit_scaled hκ hp.2 p.1
    · exact Complex.continuous_ofReal.comp_continuousOn (hg.comp continuous_snd.continuousOn fun p hp => hp.2)
  · rw [Measure.prod_restrict]
    filter_upwards [ae_restrict_mem (measurableSet_Ioc.prod measurableSet_Ioi)] with p hp
    have hv : (0:ℝ) < p.1 := hp.1.1
    have hv1 : p.1 ≤ 1 := hp.1.2
    have hx : (0:ℝ) < p.2 := hp.2
    have h1 : ‖((p.1 : ℂ) * (1 - (p.1 : ℂ) ^ 2) ^ 2)‖ ≤ p.1 := by
      have e : ((p.1 : ℂ) * (1 - (p.1 : ℂ) ^ 2) ^ 2) = ((p.1 * (1 - p.1 ^ 2) ^ 2 : ℝ) : ℂ) := by push_cast; ring
      rw [e, Complex.norm_real, norm_eq_abs, abs_of_nonneg (by positivity)]
      refine mul_le_of_le_one_right hv.le ?_
      have : 0 ≤ 1 - p.1 ^ 2 := by nlinarith
      exact pow_le_one₀ this (by nlinarith)
    have h2 := norm_cker_le hκ hv hx.le
    have h3 := hC p.2 hx
    have hK : 0 ≤ kerC κ * ker (p.1 * ‖κ‖) p.2 := (norm_nonneg _).trans h2
    rw [rem, norm_mul, norm_mul, Complex.norm_real, norm_eq_abs]
    calc _ ≤ p.1 * (kerC κ * ker (p.1 * ‖κ‖) p.2) * C := mul_le_mul (mul_le_mul h1 h2 (norm_nonneg _) hv.le) h3 (abs_nonneg _) (by positivity)
      _ = _ := by ring

/-- The remainder integrated over its parameter. -/
noncomputable def remInt (κ : ℂ) (x : ℝ) : ℂ := ∫ v in (0:ℝ)..1, rem κ v x

theorem remInt_integrable (hκ : 0 < κ.re) (hg : ContinuousOn g (Ioi 0)) (hC : ∀ x, 0 < x → |g x| ≤ C) :
    IntegrableOn (fun x => remInt κ x * (g x : ℂ)) (Ioi 0) := by
  have h := (rem_integrable hκ hg hC).integral_prod_right
  refine h.congr (Eventually.of_forall fun x => ?_)
  show ∫ v in Ioc (0:ℝ) 1, rem κ v x * (g x : ℂ) = _
  rw [integral_mul_const]
  simp only [remInt]
  rw [intervalIntegral.integral_of_le zero_le_one]

theorem remInt_integral (hκ : 0 < κ.re) (hg : ContinuousOn g (Ioi 0)) (hC : ∀ x, 0 < x → |g x| ≤ C) {K : ℝ → ℂ}
    (hK : ∀ v : ℝ, 0 < v → ∫ x in Ioi (0:ℝ), cker (v * κ) x * (g x : ℂ) = K v) :
    ∫ x in Ioi (0:ℝ), remInt κ x * (g x : ℂ) = ∫ v in (0:ℝ)..1, (v * (1 - v ^ 2) ^ 2 : ℂ) * K v := by
  have h := integral_integral_swap (f := fun v x => rem κ v x * (g x : ℂ)) (rem_integrable hκ hg hC)
  rw [intervalIntegral.integral_of_le zero_le_one]
  have e1 : ∫ v in Ioc (0:ℝ) 1, ∫ x in Ioi (0:ℝ), rem κ v x * (g x : ℂ) = ∫ v in Ioc (0:ℝ) 1, (v * (1 - v ^ 2) ^ 2 : ℂ) * K v := by
    refine setIntegral_congr_fun measurableSet_Ioc fun v hv => ?_
    show ∫ x in Ioi (0:ℝ), _ * cker (v * κ) x * (g x : ℂ) = _
    simp only [mul_assoc]
    rw [integral_const_mul, integral_const_mul, hK v hv.1]
  rw [← e1, h]
  refine integral_congr_ae (Eventually.of_forall fun x => ?_)
  show _ = ∫ v in Ioc (0:ℝ) 1, rem κ v x * (g x : ℂ)
  rw [integral_mul_const]
  simp only [remInt]
  rw [intervalIntegral.integral_of_le zero_le_one]

theorem remK_integrable (hκ : 0 < κ.re) (hg : ContinuousOn g (Ioi 0)) (hC : ∀ x, 0 < x → |g x| ≤ C) {K : ℝ → ℂ}
    (hK : ∀ v : ℝ, 0 < v → ∫ x in Ioi (0:ℝ), cker (v * κ) x * (g x : ℂ) = K v) :
    IntervalIntegrable (fun v : ℝ => (v * (1 - v ^ 2) ^ 2 : ℂ) * K v) volume 0 1 := by
  rw [intervalIntegrable_iff_integrableOn_Ioc_of_le zero_le_one]
  refine IntegrableOn.congr_fun (rem_integrable hκ hg hC).integral_prod_left (fun v hv => ?_) measurableSet_Ioc
  show ∫ x in Ioi (0:ℝ), _ * cker (v * κ) x * (g x : ℂ) = _
  simp only [mul_assoc]
  rw [integral_const_mul, integral_const_mul, hK v hv.1]

/-- The Hankel transform of the reflection coefficient, in the limit of zero height. -/
theorem hankel_limit (hκ : 0 < κ.re) (hg : ContinuousOn g (Ioi 0)) (hC : ∀ x, 0 < x → |g x| ≤ C) {K : ℝ → ℂ} {L : ℝ}
    (hL : Tendsto (fun z => ∫ x in Ioi (0:ℝ), exp (-z * x) * g x) (𝓝[>] 0) (𝓝 L))
    (hK : ∀ v : ℝ, 0 < v → ∫ x in Ioi (0:ℝ), cker (v * κ) x * (g x : ℂ) = K v) :
    (∀ z : ℝ, 0 < z → IntegrableOn (fun x : ℝ => (x : ℂ) ^ 2 * hsRefl κ x * exp (-z * x) * (g x : ℂ)) (Ioi 0)) ∧
    Tendsto (fun z : ℝ => ∫ x in Ioi (0:ℝ), (x : ℂ) ^ 2 * hsRefl κ x * exp (-z * x) * (g x : ℂ)) (𝓝[>] 0)
      (𝓝 (-κ ^ 2 / 4 * L + 3 / 4 * κ ^ 4 * ∫ v in (0:ℝ)..1, (v * (1 - v ^ 2) ^ 2 : ℂ) * K v)) := by
  have hgm : AEStronglyMeasurable (fun x : ℝ => (g x : ℂ)) (volume.restrict (Ioi 0)) :=
    (Complex.continuous_ofReal.comp_continuousOn hg).aestronglyMeasurable measurableSet_Ioi
  have hR := remInt_integrable hκ hg hC
  have e : ∀ z : ℝ, ∀ x ∈ Ioi (0:ℝ), (x : ℂ) ^ 2 * hsRefl κ x * exp (-z * x) * (g x : ℂ)
      = -κ ^ 2 / 4 * ((exp (-z * x) * g x : ℝ) : ℂ) + 3 / 4 * κ ^ 4 * (remInt κ x * (g x : ℂ) * exp (-z * x)) := fun z x hx => by
    rw [hsRefl_expansion hκ hx]
    show (_ + 3 / 4 * κ ^ 4 * remInt κ x) * _ * _ = _
    push_cast
    ring
  have i1 : ∀ z : ℝ, 0 < z → IntegrableOn (fun x : ℝ => ((exp (-z * x) * g x : ℝ) : ℂ)) (Ioi 0) := fun z hz => by
    refine Integrable.ofReal ?_
    have h0 := integrableOn_pow_exp hz 0
    simp only [pow_zero, one_mul] at h0
    refine Integrable.mul_bdd (c := C) h0 (hg.aestronglyMeasurable measurableSet_Ioi) ?_
    filter_upwards [ae_restrict_mem measurableSet_Ioi] with x hx
    exact hC x hx
  have bdd : ∀ z : ℝ, 0 < z → ∀ x ∈ Ioi (0:ℝ), ‖((exp (-z * x) : ℝ) : ℂ)‖ ≤ 1 := fun z hz x hx => by
    rw [Complex.norm_real, norm_eq_abs, abs_of_pos (exp_pos _), exp_le_one_iff]
    have : (0:ℝ) < x := hx
    nlinarith [mul_pos hz this]
  have em : ∀ z : ℝ, AEStronglyMeasurable (fun x : ℝ => ((exp (-z * x) : ℝ) : ℂ)) (volume.restrict (Ioi 0)) := fun z =>
    (by fun_prop : Continuous fun x : ℝ => ((exp (-z * x) : ℝ) : ℂ)).aestronglyMeasurable
  have i2 : ∀ z : ℝ, 0 < z → IntegrableOn (fun x : ℝ => remInt κ x * (g x : ℂ) * exp (-z * x)) (Ioi 0) := fun z hz => by
    refine Integrable.mul_bdd (c := 1) hR (em z) ?_
    filter_upwards [ae_restrict_mem measurableSet_Ioi] with x hx
    exact bdd z hz x hx
  constructor
  · intro z hz
    exact IntegrableOn.congr_fun (((i1 z hz).const_mul _).add ((i2 z hz).const_mul _)) (fun x hx => (e z x hx).symm) measurableSet_Ioi
  have hlim2 : Tendsto (fun z : ℝ => ∫ x in Ioi (0:ℝ), remInt κ x * (g x : ℂ) * exp (-z * x)) (𝓝[>] 0)
      (𝓝 (∫ x in Ioi (0:ℝ), remInt κ x * (g x : ℂ))) := by
    refine tendsto_integral_filter_of_dominated_convergence (fun x => ‖remInt κ x * (g x : ℂ)‖) ?_ ?_ hR.norm ?_
    · exact Eventually.of_forall fun z => hR.aestronglyMeasurable.mul (em z)
    · filter_upwards [self_mem_nhdsWithin] with z hz
      filter_upwards [ae_restrict_mem measurableSet_Ioi] with x hx
      rw [norm_mul]
      exact mul_le_of_le_one_right (norm_nonneg _) (bdd z hz x hx)
    · refine Eventually.of_forall fun x => ?_
      have hc : Continuous fun z : ℝ => remInt κ x * (g x : ℂ) * ((exp (-z * x) : ℝ) : ℂ) := by fun_prop
      have h := hc.tendsto 0
      simp only [neg_zero, zero_mul, exp_zero, Complex.ofReal_one, mul_one] at h
      exact h.mono_left nhdsWithin_le_nhds
  have hL' : Tendsto (fun z : ℝ => ((∫ x in Ioi (0:ℝ), exp (-z * x) * g x : ℝ) : ℂ)) (𝓝[>] 0) (𝓝 (L : ℂ)) :=
    (Complex.continuous_ofReal.tendsto L).comp hL
  rw [remInt_integral hκ hg hC hK] at hlim2
  refine ((hL'.const_mul (-κ ^ 2 / 4)).add (hlim2.const_mul (3 / 4 * κ ^ 4))).congr' ?_
  filter_upwards [self_mem_nhdsWithin] with z hz
  rw [setIntegral_congr_fun measurableSet_Ioi (e z), integral_add ((i1 z hz).const_mul _) ((i2 z hz).const_mul _), integral_const_mul,
    integral_const_mul, integral_complex_ofReal]

end Verif
