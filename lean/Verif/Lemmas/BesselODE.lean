import Verif.Lemmas.BesselMoments

/-! # Derivatives of the complex modified Bessel functions of orders 1 and 2 (helper lemmas) -/

namespace Verif

open Real Filter MeasureTheory Set BesselIK
open scoped Topology

/-! ## The first kind -/

theorem hasDerivAt_Iint {f : ℝ → ℝ} (hf : Continuous f) (z : ℂ) :
    HasDerivAt (fun z : ℂ => ∫ t in (0 : ℝ)..π, Complex.exp (z * (cos t : ℝ)) * ((f t : ℝ) : ℂ))
      (∫ t in (0 : ℝ)..π, Complex.exp (z * (cos t : ℝ)) * ((cos t * f t : ℝ) : ℂ)) z := by
  refine (intervalIntegral.hasDerivAt_integral_of_dominated_loc_of_deriv_le (𝕜 := ℂ) (μ := volume) (a := 0) (b := π)
    (F := fun (z : ℂ) (t : ℝ) => Complex.exp (z * (cos t : ℝ)) * ((f t : ℝ) : ℂ))
    (F' := fun (z : ℂ) (t : ℝ) => Complex.exp (z * (cos t : ℝ)) * ((cos t * f t : ℝ) : ℂ)) (x₀ := z) (s := Metric.ball z 1)
    (bound := fun t => exp (‖z‖ + 1) * |f t|) (Metric.ball_mem_nhds z one_pos) ?_ ?_ ?_ ?_ ?_ ?_).2
  · exact Eventually.of_forall fun z => Continuous.aestronglyMeasurable (by fun_prop)
  · exact Continuous.intervalIntegrable (by fun_prop) _ _
  · exact Continuous.aestronglyMeasurable (by fun_prop)
  · refine Eventually.of_forall fun t _ x hx => ?_
    rw [norm_mul, Complex.norm_exp, Complex.norm_real, norm_eq_abs, abs_mul]
    refine mul_le_mul (exp_le_exp.2 ?_) (mul_le_of_le_one_left (abs_nonneg _) (abs_cos_le_one _)) (by positivity) (exp_pos _).le
    have h1 : (x * ((cos t : ℝ) : ℂ)).re ≤ ‖x * ((cos t : ℝ) : ℂ)‖ := Complex.re_le_norm _
    rw [norm_mul, Complex.norm_real, norm_eq_abs] at h1
    have h2 : ‖x‖ * |cos t| ≤ ‖x‖ := mul_le_of_le_one_right (norm_nonneg _) (abs_cos_le_one _)
    have h3 : ‖x‖ ≤ ‖z‖ + 1 := by
      rw [Metric.mem_ball, dist_eq_norm] at hx
      have := norm_add_le (x - z) z
      rw [sub_add_cancel] at this
      linarith
    linarith
  · exact Continuous.intervalIntegrable (by fun_prop) _ _
  · refine Eventually.of_forall fun t _ x _ => ?_
    refine ((((hasDerivAt_id x).mul_const ((cos t : ℝ) : ℂ)).cexp).mul_const ((f t : ℝ) : ℂ)).congr_deriv ?_
    push_cast
    simp only [id]
    ring

/-- `z I_1' = I_1 + z I_2` -/
theorem hasDerivAt_cbesselI_one {z : ℂ} (hz : z ≠ 0) : HasDerivAt (cbesselI 1) ((cbesselI 1 z + z * cbesselI 2 z) / z) z := by
  have h := (hasDerivAt_Iint (f := fun t => cos (((1:ℕ):ℝ) * t)) (by fun_prop) z).const_mul (1 / (π : ℂ))
  refine h.congr_deriv ?_
  rw [eq_div_iff hz, I1_eq z, cbesselI]
  have e : ∫ t in (0 : ℝ)..π, Complex.exp (z * (cos t : ℝ)) * ((cos t * cos (((1:ℕ):ℝ) * t) : ℝ) : ℂ)
      = (∫ t in (0 : ℝ)..π, Complex.exp (z * (cos t : ℝ)) * ((sin t ^ 2 : ℝ) : ℂ))
        + ∫ t in (0 : ℝ)..π, Complex.exp (z * (cos t : ℝ)) * ((cos (((2:ℕ):ℝ) * t) : ℝ) : ℂ) := ?_
  · rw [e]
    ring
  rw [← intervalIntegral.integral_add (Continuous.intervalIntegrable (by fun_prop) _ _) (Continuous.intervalIntegrable (by fun_prop) _ _)]
  refine intervalIntegral.integral_congr fun t _ => ?_
  simp only [Nat.cast_one, one_mul, Nat.cast_ofNat]
  rw [cos_two_mul']
  push_cast
  ring

/-- `z I_2' = z I_1 - 2 I_2` -/
theorem hasDerivAt_cbesselI_two {z : ℂ} (hz : z ≠ 0) : HasDerivAt (cbesselI 2) ((z * cbesselI 1 z - 2 * cbesselI 2 z) / z) z := by
  have h := (hasDerivAt_Iint (f := fun t => cos (((2:ℕ):ℝ) * t)) (by fun_prop) z).const_mul (1 / (π : ℂ))
  refine h.congr_deriv ?_
  have hd : ∀ t ∈ uIcc 0 π, HasDerivAt (fun t : ℝ => ((sin t : ℝ) : ℂ) * ((cos t : ℝ) : ℂ) * Complex.exp (z * (cos t : ℝ)))
      (Complex.exp (z * (cos t : ℝ)) * ((cos (2 * t) : ℝ) : ℂ) - z * (Complex.exp (z * (cos t : ℝ)) * ((cos t * sin t ^ 2 : ℝ) : ℂ))) t := by
    intro t _
    have h1 := (hasDerivAt_sin t).ofReal_comp
    have h2 := (hasDerivAt_cos t).ofReal_comp
    refine ((h1.fun_mul h2).fun_mul ((h2.const_mul z).cexp)).congr_deriv ?_
    rw [cos_two_mul']
    push_cast
    ring
  have hI := intervalIntegral.integral_eq_sub_of_hasDerivAt hd (Continuous.intervalIntegrable (by fun_prop) _ _)
  rw [intervalIntegral.integral_sub (Continuous.intervalIntegrable (by fun_prop) _ _) (Continuous.intervalIntegrable (by fun_prop) _ _),
    intervalIntegral.integral_const_mul] at hI
  simp only [sin_pi, sin_zero, Complex.ofReal_zero, zero_mul, sub_zero] at hI
  have e : ∫ t in (0 : ℝ)..π, Complex.exp (z * (cos t : ℝ)) * ((cos t * cos (((2:ℕ):ℝ) * t) : ℝ) : ℂ)
      = (∫ t in (0 : ℝ)..π, Complex.exp (z * (cos t : ℝ)) * ((cos (((1:ℕ):ℝ) * t) : ℝ) : ℂ))
        - 2 * ∫ t in (0 : ℝ)..π, Complex.exp (z * (cos t : ℝ)) * ((cos t * sin t ^ 2 : ℝ) : ℂ) := by
    rw [← intervalIntegral.integral_const_mul,
      ← intervalIntegral.integral_sub (Continuous.intervalIntegrable (by fun_prop) _ _) (Continuous.intervalIntegrable (by fun_prop) _ _)]
    refine intervalIntegral.integral_congr fun t _ => ?_
    simp only [Nat.cast_one, one_mul, Nat.cast_ofNat]
    rw [cos_two_mul, sin_sq]
    push_cast
    ring
  rw [eq_div_iff hz, e, cbesselI, cbesselI]
  simp only [Nat.cast_ofNat]
  linear_combination (-2 * (1 / (π : ℂ))) * (-hI)

/-! ## The second kind -/

theorem tendsto_cosh_pow_exp {a : ℝ} (ha : 0 < a) (k : ℕ) : Tendsto (fun u : ℝ => cosh u ^ k * exp (-(a * cosh u))) atTop (𝓝 0) := by
  have hc : Tendsto (fun u : ℝ => cosh u) atTop atTop := by
    refine tendsto_atTop_mono' _ ?_ tendsto_id
    filter_upwards [eventually_ge_atTop 0] with u hu
    have h1 := half_sq_le_cosh hu
    simp only [id]
    nlinarith [sq_nonneg (u - 1)]
  have h := (tendsto_rpow_mul_exp_neg_mul_atTop_nhds_zero k a ha).comp hc
  refine h.congr fun u => ?_
  simp [rpow_natCast]

theorem tendsto_K_weight {z : ℂ} (hz : 0 < z.re) {f : ℝ → ℝ} {k : ℕ} (hf : ∀ u, |f u| ≤ cosh u ^ k) :
    Tendsto (fun u : ℝ => Complex.exp (-z * ((cosh u : ℝ) : ℂ)) * ((f u : ℝ) : ℂ)) atTop (𝓝 0) := by
  refine squeeze_zero_norm (fun u => ?_) (tendsto_cosh_pow_exp hz k)
  rw [norm_mul, norm_cexp_cosh, Complex.norm_real, norm_eq_abs, mul_comm]
  exact mul_le_mul_of_nonneg_right (hf u) (exp_pos _).le

theorem cosh_pow_le (k : ℕ) {u : ℝ} (hu : 0 < u) : cosh u ^ k ≤ cosh (k * u) * 2 ^ k := by
  have h1 : cosh u ≤ exp u := by
    rw [cosh_eq]
    have : exp (-u) ≤ exp u := exp_le_exp.2 (by linarith)
    linarith
  have h2 : exp (k * u) ≤ 2 * cosh (k * u) := by
    rw [cosh_eq]
    have := exp_pos (-(k * u))
    linarith
  calc cosh u ^ k ≤ exp u ^ k := pow_le_pow_left₀ (cosh_pos u).le h1 k
    _ = exp (k * u) := by rw [← exp_nat_mul]
    _ ≤ _ := by
      rcases Nat.eq_zero_or_pos k with rfl | hk
      · simp
      · have : (2:ℝ) ≤ 2 ^ k := le_self_pow₀ one_le_two hk.ne'
        nlinarith [cosh_pos (k * u)]

theorem K_weight_integrable {z : ℂ} (hz : 0 < z.re) {f : ℝ → ℝ} (hf : Continuous f) {k : ℕ} (hb : ∀ u, |f u| ≤ cosh u ^ k) :
    IntegrableOn (fun u : ℝ => Complex.exp (-z * ((cosh u : ℝ) : ℂ)) * ((f u : ℝ) : ℂ)) (Ioi 0) := by
  refine Integrable.mono ((K_integrable hz k).const_mul ((2:ℂ) ^ k)) (Continuous.aestronglyMeasurable (by fun_prop)) ?_
  filter_upwards [ae_restrict_mem measurableSet_Ioi] with u hu
  rw [norm_mul, norm_mul, norm_mul, mul_left_comm]
  refine mul_le_mul_of_nonneg_left ?_ (norm_nonneg _)
  rw [Complex.norm_real, Complex.norm_real, norm_of_nonneg (cosh_pos _).le, norm_pow, norm_eq_abs]
  have h2 : ‖(2:ℂ)‖ = 2 := by simp
  rw [h2, mul_comm]
  exact (hb u).trans (cosh_pow_le k hu)

theorem hasDerivAt_Kint {f : ℝ → ℝ} (hf : Continuous f) {k : ℕ} (hb : ∀ u, |f u| ≤ cosh u ^ k) {z : ℂ} (hz : 0 < z.re) :
    HasDerivAt (fun z : ℂ => ∫ u in Ioi (0 : ℝ), Complex.exp (-z * ((cosh u : ℝ) : ℂ)) * ((f u : ℝ) : ℂ))
      (-∫ u in Ioi (0 : ℝ), Complex.exp (-z * ((cosh u : ℝ) : ℂ)) * ((cosh u * f u : ℝ) : ℂ)) z := by
  have hb1 : ∀ u, |cosh u * f u| ≤ cosh u ^ (k + 1) := fun u => by
    rw [abs_mul, abs_of_pos (cosh_pos u), pow_succ, mul_comm]
    exact mul_le_mul_of_nonneg_right (hb u) (cosh_pos u).le
  have hr : 0 < ((z.re / 2 : ℝ) : ℂ).re := by rw [Complex.ofReal_re]; linarith
  have key := hasDerivAt_integral_of_dominated_loc_of_deriv_le (𝕜 := ℂ) (μ := volume.restrict (Ioi (0:ℝ)))
    (F := fun (z : ℂ) (u : ℝ) => Complex.exp (-z * ((cosh u : ℝ) : ℂ)) * ((f u : ℝ) : ℂ))
    (F' := fun (z : ℂ) (u : ℝ) => -(Complex.exp (-z * ((cosh u : ℝ) : ℂ)) * ((cosh u * f u : ℝ) : ℂ))) (x₀ := z)
    (s := {w : ℂ | z.re / 2 < w.re})
    (bound := fun u => ‖Complex.exp (-((z.re / 2 : ℝ) : ℂ) * ((cosh u : ℝ) : ℂ)) * ((cosh u * f u : ℝ) : ℂ)‖)
    ((isOpen_lt continuous_const Complex.continuous_re).mem_nhds (show z.re / 2 < z.re by linarith)) ?_ ?_ ?_ ?_ ?_ ?_
  · exact key.2.congr_deriv (integral_neg _)
  · exact Eventually.of_forall fun z => Continuous.aestronglyMeasurable (by fun_prop)
  · exact K_weight_integrable hz hf hb
  · exact Continuous.aestronglyMeasurable (by fun_prop)
  · refine Eventually.of_forall fun u w hw => ?_
    have hw' : z.re / 2 < w.re := hw
    rw [norm_neg, norm_mul, norm_mul, norm_cexp_cosh, norm_cexp_cosh, Complex.ofReal_re]
    refine mul_le_mul_of_nonneg_right (exp_le_exp.2 ?_) (norm_nonneg _)
    nlinarith [cosh_pos u]
  · exact (K_weight_integrable hr (by fun_prop) hb1).norm
  · refine Eventually.of_forall fun u w _ => ?_
    refine ((((hasDerivAt_id w).fun_neg.mul_const ((cosh u : ℝ) : ℂ)).cexp).mul_const ((f u : ℝ) : ℂ)).congr_deriv ?_
    push_cast
    simp only [id]
    ring

theorem cosh_one_le (u : ℝ) : |cosh (((1:ℕ):ℝ) * u)| ≤ cosh u ^ 1 := by
  rw [Nat.cast_one, one_mul, pow_one, abs_of_pos (cosh_pos u)]

/-- `z K_1' = K_1 - z K_2` -/
theorem hasDerivAt_cbesselK_one {z : ℂ} (hz : 0 < z.re) : HasDerivAt (cbesselK 1) ((cbesselK 1 z - z * cbesselK 2 z) / z) z := by
  have hz0 : z ≠ 0 := fun h => by rw [h] at hz; simp at hz
  have h := hasDerivAt_Kint (f := fun u => cosh (((1:ℕ):ℝ) * u)) (by fun_prop) cosh_one_le hz
  refine h.congr_deriv ?_
  have i1 := K_weight_integrable hz (f := fun u => cosh u) (k := 1) (by fun_prop) (fun u => by rw [pow_one, abs_of_pos (cosh_pos u)])
  have is2 := K_weight_integrable hz (f := fun u => sinh u ^ 2) (k := 2) (by fun_prop) (fun u => by
    rw [abs_pow]; exact pow_le_pow_left₀ (abs_nonneg _) (sinh_bound u) 2)
  have ic2 := K_weight_integrable hz (f := fun u => cosh u ^ 2) (k := 2) (by fun_prop) (fun u => by rw [abs_pow, abs_of_pos (cosh_pos u)])
  have hd : ∀ u ∈ Ici (0:ℝ), HasDerivAt (fun u : ℝ => Complex.exp (-z * ((cosh u : ℝ) : ℂ)) * ((sinh u : ℝ) : ℂ))
      (Complex.exp (-z * ((cosh u : ℝ) : ℂ)) * ((cosh u : ℝ) : ℂ) - z * (Complex.exp (-z * ((cosh u : ℝ) : ℂ)) * ((sinh u ^ 2 : ℝ) : ℂ))) u := by
    intro u _
    have h1 := (hasDerivAt_cosh u).ofReal_comp
    have h2 := (hasDerivAt_sinh u).ofReal_comp
    refine (((h1.const_mul (-z)).cexp).fun_mul h2).congr_deriv ?_
    push_cast
    ring
  have hI := integral_Ioi_of_hasDerivAt_of_tendsto' hd (i1.sub (is2.const_mul z))
    (tendsto_K_weight hz (f := fun u => sinh u) (k := 1) (fun u => by rw [pow_one]; exact sinh_bound u))
  rw [integral_sub i1 (is2.const_mul z), integral_const_mul] at hI
  simp only [sinh_zero, Complex.ofReal_zero, mul_zero, sub_zero] at hI
  have e1 : cbesselK 1 z = ∫ u in Ioi (0:ℝ), Complex.exp (-z * ((cosh u : ℝ) : ℂ)) * ((cosh u : ℝ) : ℂ) := by
    simp only [cbesselK, Nat.cast_one, one_mul]
  have e2 : cbesselK 2 z = (∫ u in Ioi (0:ℝ), Complex.exp (-z * ((cosh u : ℝ) : ℂ)) * ((cosh u ^ 2 : ℝ) : ℂ))
      + ∫ u in Ioi (0:ℝ), Complex.exp (-z * ((cosh u : ℝ) : ℂ)) * ((sinh u ^ 2 : ℝ) : ℂ) := by
    rw [← integral_add ic2 is2, cbesselK]
    refine setIntegral_congr_fun measurableSet_Ioi fun u _ => ?_
    simp only [Nat.cast_ofNat]
    rw [cosh_two_mul]
    push_cast
    ring
  have e3 : ∫ u in Ioi (0:ℝ), Complex.exp (-z * ((cosh u : ℝ) : ℂ)) * ((cosh u * cosh (((1:ℕ):ℝ) * u) : ℝ) : ℂ)
      = ∫ u in Ioi (0:ℝ), Complex.exp (-z * ((cosh u : ℝ) : ℂ)) * ((cosh u ^ 2 : ℝ) : ℂ) := by
    refine setIntegral_congr_fun measurableSet_Ioi fun u _ => ?_
    simp only [Nat.cast_one, one_mul, sq]
  rw [eq_div_iff hz0, e3, e1, e2]
  linear_combination (-1) * hI

/-- `z K_2' = -z K_1 - 2 K_2` -/
theorem hasDerivAt_cbesselK_two {z : ℂ} (hz : 0 < z.re) : HasDerivAt (cbesselK 2) ((-(z * cbesselK 1 z) - 2 * cbesselK 2 z) / z) z := by
  have hz0 : z ≠ 0 := fun h => by rw [h] at hz; simp at hz
  have hc := hasDerivAt_Kint (f := fun u => cosh u ^ 2) (k := 2) (by fun_prop) (fun u => by rw [abs_pow, abs_of_pos (cosh_pos u)]) hz
  have hs := hasDerivAt_Kint (f := fun u => sinh u ^ 2) (k := 2) (by fun_prop) (fun u => by
    rw [abs_pow]; exact pow_le_pow_left₀ (abs_nonneg _) (sinh_bound u) 2) hz
  have i1 := K_weight_integrable hz (f := fun u => cosh u) (k := 1) (by fun_prop) (fun u => by rw [pow_one, abs_of_pos (cosh_pos u)])
  have is2 := K_weight_integrable hz (f := fun u => sinh u ^ 2) (k := 2) (by fun_prop) (fun u => by
    rw [abs_pow]; exact pow_le_pow_left₀ (abs_nonneg _) (sinh_bound u) 2)
  have ic2 := K_weight_integrable hz (f := fun u => cosh u ^ 2) (k := 2) (by fun_prop) (fun u => by rw [abs_pow, abs_of_pos (cosh_pos u)])
  have i3 := K_weight_integrable hz (f := fun u => cosh u * sinh u ^ 2) (k := 3) (by fun_prop) (fun u => by
    rw [abs_mul, abs_pow, abs_of_pos (cosh_pos u), pow_succ' (cosh u)]
    exact mul_le_mul_of_nonneg_left (pow_le_pow_left₀ (abs_nonneg _) (sinh_bound u) 2) (cosh_pos u).le)
  have hfun : ∀ᶠ w in 𝓝 z, cbesselK 2 w = (∫ u in Ioi (0:ℝ), Complex.exp (-w * ((cosh u : ℝ) : ℂ)) * ((cosh u ^ 2 : ℝ) : ℂ))
      + ∫ u in Ioi (0:ℝ), Complex.exp (-w * ((cosh u : ℝ) : ℂ)) * ((sinh u ^ 2 : ℝ) : ℂ) := by
    filter_upwards [(isOpen_lt continuous_const Complex.continuous_re).mem_nhds hz] with w hw
    have hw' : 0 < w.re := hw
    rw [← integral_add, cbesselK]
    · refine setIntegral_congr_fun measurableSet_Ioi fun u _ => ?_
      simp only [Nat.cast_ofNat]
      rw [cosh_two_mul]
      push_cast
      ring
    · exact K_weight_integrable hw' (f := fun u => cosh u ^ 2) (k := 2) (by fun_prop) (fun u => by rw [abs_pow, abs_of_pos (cosh_pos u)])
    · exact K_weight_integrable hw' (f := fun u => sinh u ^ 2) (k := 2) (by fun_prop) (fun u => by
        rw [abs_pow]; exact pow_le_pow_left₀ (abs_nonneg _) (sinh_bound u) 2)
  refine ((hc.fun_add hs).congr_of_eventuallyEq hfun).congr_deriv ?_
  have hd : ∀ u ∈ Ici (0:ℝ), HasDerivAt (fun u : ℝ => Complex.exp (-z * ((cosh u : ℝ) : ℂ)) * ((sinh u * cosh u : ℝ) : ℂ))
      (Complex.exp (-z * ((cosh u : ℝ) : ℂ)) * ((cosh u ^ 2 : ℝ) : ℂ) + Complex.exp (-z * ((cosh u : ℝ) : ℂ)) * ((sinh u ^ 2 : ℝ) : ℂ)
        - z * (Complex.exp (-z * ((cosh u : ℝ) : ℂ)) * ((cosh u * sinh u ^ 2 : ℝ) : ℂ))) u := by
    intro u _
    have h1 := (hasDerivAt_cosh u).ofReal_comp
    have h2 := ((hasDerivAt_sinh u).fun_mul (hasDerivAt_cosh u)).ofReal_comp
    refine (((h1.const_mul (-z)).cexp).fun_mul h2).congr_deriv ?_
    push_cast
    ring
  have hI := integral_Ioi_of_hasDerivAt_of_tendsto' hd ((ic2.add is2).sub (i3.const_mul z))
    (tendsto_K_weight hz (f := fun u => sinh u * cosh u) (k := 2) (fun u => by
      rw [abs_mul, abs_of_pos (cosh_pos u), sq]
      exact mul_le_mul_of_nonneg_right (sinh_bound u) (cosh_pos u).le))
  rw [integral_sub (ic2.fun_add is2) (i3.const_mul z), integral_add ic2 is2, integral_const_mul] at hI
  simp only [sinh_zero, zero_mul, Complex.ofReal_zero, mul_zero, sub_zero] at hI
  have e1 : cbesselK 1 z = ∫ u in Ioi (0:ℝ), Complex.exp (-z * ((cosh u : ℝ) : ℂ)) * ((cosh u : ℝ) : ℂ) := by
    simp only [cbesselK, Nat.cast_one, one_mul]
  have e2 := hfun.self_of_nhds
  have e3 : ∫ u in Ioi (0:ℝ), Complex.exp (-z * ((cosh u : ℝ) : ℂ)) * ((cosh u * cosh u ^ 2 : ℝ) : ℂ)
      = (∫ u in Ioi (0:ℝ), Complex.exp (-z * ((cosh u : ℝ) : ℂ)) * ((cosh u : ℝ) : ℂ))
        + ∫ u in Ioi (0:ℝ), Complex.exp (-z * ((cosh u : ℝ) : ℂ)) * ((cosh u * sinh u ^ 2 : ℝ) : ℂ) := by
    rw [← integral_add i1 i3]
    refine setIntegral_congr_fun measurableSet_Ioi fun u _ => ?_
    rw [show cosh u * cosh u ^ 2 = cosh u + cosh u * sinh u ^ 2 by rw [cosh_sq]; ring]
    push_cast
    ring
  rw [eq_div_iff hz0, e3, e1, e2]
  linear_combination 2 * hI

end Verif
