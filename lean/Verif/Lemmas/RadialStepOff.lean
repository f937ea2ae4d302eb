import Verif.Lemmas.StepOff
import Verif.Lemmas.HankelJ1

/-! # Transform of the radial transient over a halfspace (helper lemmas) -/

namespace Verif

open Real Filter MeasureTheory Set BesselIK
open scoped Topology

theorem ie_int (n : ℕ) (w : ℝ) : ie n w = 1 / π * ∫ t in (0 : ℝ)..π, exp (-(w * (1 - cos t))) * cos (n * t) := by
  rw [ie, besselI, mul_left_comm, ← intervalIntegral.integral_const_mul]
  congr 1
  refine intervalIntegral.integral_congr fun t _ => ?_
  show exp (-w) * (exp (w * cos t) * _) = _
  rw [← mul_assoc, ← exp_add]
  congr 2
  ring

/-- The shape of the radial transient. -/
noncomputable def radW (w : ℝ) : ℝ := w * (ie 1 w - ie 2 w)

noncomputable def radW' (w : ℝ) : ℝ :=
  (ie 1 w - ie 2 w) + w * (((ie 0 w + ie 2 w) / 2 - ie 1 w) - ((ie 1 w + ie 3 w) / 2 - ie 2 w))

theorem hasDerivAt_radW (w : ℝ) : HasDerivAt radW (radW' w) w := by
  refine ((hasDerivAt_id' w).fun_mul ((hasDerivAt_ie_succ 0 w).fun_sub (hasDerivAt_ie_succ 1 w))).congr_deriv ?_
  rw [radW']
  ring

theorem continuous_radW' : Continuous radW' := by
  have h0 := continuous_ie 0
  have h1 := continuous_ie 1
  have h2 := continuous_ie 2
  have h3 := continuous_ie 3
  unfold radW'
  fun_prop

theorem radW'_int (w : ℝ) : radW' w = 1 / π * ∫ t in (0 : ℝ)..π, exp (-(w * (1 - cos t))) *
    ((1 - cos t) * (1 - w * (1 - cos t)) * (1 + 2 * cos t)) := by
  have hi : ∀ n : ℕ, IntervalIntegrable (fun t => exp (-(w * (1 - cos t))) * cos (n * t)) volume 0 π := fun n =>
    Continuous.intervalIntegrable (by fun_prop) _ _
  have e : ∀ t : ℝ, exp (-(w * (1 - cos t))) * ((1 - cos t) * (1 - w * (1 - cos t)) * (1 + 2 * cos t))
      = ((1 - 3 * w / 2) * (exp (-(w * (1 - cos t))) * cos ((1:ℕ) * t)) + (3 * w / 2 - 1) * (exp (-(w * (1 - cos t))) * cos ((2:ℕ) * t)))
      + (w / 2 * (exp (-(w * (1 - cos t))) * cos ((0:ℕ) * t)) - w / 2 * (exp (-(w * (1 - cos t))) * cos ((3:ℕ) * t))) := fun t => by
    push_cast
    rw [zero_mul, cos_zero, one_mul, cos_two_mul, cos_three_mul]
    ring
  simp only [e]
  rw [intervalIntegral.integral_add (((hi 1).const_mul _).add ((hi 2).const_mul _)) (((hi 0).const_mul _).sub ((hi 3).const_mul _)),
    intervalIntegral.integral_add ((hi 1).const_mul _) ((hi 2).const_mul _),
    intervalIntegral.integral_sub ((hi 0).const_mul _) ((hi 3).const_mul _)]
  simp only [intervalIntegral.integral_const_mul]
  rw [radW', ie_int, ie_int, ie_int, ie_int]
  ring

theorem radW'_point {w u : ℝ} (hw : 0 ≤ w) (h0 : 0 ≤ u) (h2 : u ≤ 2) :
    |exp (-(w * u)) * (u * (1 - w * u) * (1 + 2 * (1 - u)))| ≤ 6 * u * exp (-(w * u / 2)) := by
  have hx : 0 ≤ w * u := mul_nonneg hw h0
  have h3 : |1 + 2 * (1 - u)| ≤ 3 := abs_le.2 ⟨by linarith, by linarith⟩
  have h4 : |1 - w * u| ≤ 1 + w * u := abs_le.2 ⟨by linarith, by linarith⟩
  have h5 : (1 + w * u) * exp (-(w * u)) ≤ 2 * exp (-(w * u / 2)) := by
    have e : exp (-(w * u)) = exp (-(w * u / 2)) * exp (-(w * u / 2)) := by rw [← exp_add]; congr 1; ring
    have h6 : 1 + w * u ≤ 2 * exp (w * u / 2) := by
      have := add_one_le_exp (w * u / 2)
      linarith
    have h7 : exp (w * u / 2) * exp (-(w * u / 2)) = 1 := by rw [← exp_add]; simp
    rw [e]
    have hp := exp_pos (-(w * u / 2))
    calc (1 + w * u) * (exp (-(w * u / 2)) * exp (-(w * u / 2))) ≤ 2 * exp (w * u / 2) * (exp (-(w * u / 2)) * exp (-(w * u / 2))) :=
          mul_le_mul_of_nonneg_right h6 (by positivity)
      _ = 2 * (exp (w * u / 2) * exp (-(w * u / 2))) * exp (-(w * u / 2)) := by ring
      _ = _ := by rw [h7]; ring
  rw [abs_mul, abs_of_pos (exp_pos _), abs_mul, abs_mul, abs_of_nonneg h0]
  calc exp (-(w * u)) * (u * |1 - w * u| * |1 + 2 * (1 - u)|) ≤ exp (-(w * u)) * (u * (1 + w * u) * 3) := by
        gcongr
    _ = 3 * u * ((1 + w * u) * exp (-(w * u))) := by ring
    _ ≤ 3 * u * (2 * exp (-(w * u / 2))) := by gcongr
    _ = _ := by ring

theorem abs_radW'_le {w : ℝ} (hw : 0 ≤ w) (g : ℝ → ℝ) (hg : Continuous g)
    (h : ∀ t, 6 * (1 - cos t) * exp (-(w * (1 - cos t) / 2)) ≤ g t) : |radW' w| ≤ 1 / π * ∫ t in (0 : ℝ)..π, g t := by
  rw [radW'_int, abs_mul, abs_of_pos (by positivity)]
  refine mul_le_mul_of_nonneg_left ?_ (by positivity)
  refine (intervalIntegral.abs_integral_le_integral_abs pi_pos.le).trans ?_
  refine intervalIntegral.integral_mono pi_pos.le (Continuous.intervalIntegrable (by fun_prop) _ _)
    (Continuous.intervalIntegrable hg _ _) fun t => ?_
  have := radW'_point hw (u := 1 - cos t) (by linarith [cos_le_one t]) (by linarith [neg_one_le_cos t])
  rw [show 1 + 2 * (1 - (1 - cos t)) = 1 + 2 * cos t by ring] at this
  exact this.trans (h t)

theorem abs_radW'_le_const {w : ℝ} (hw : 0 ≤ w) : |radW' w| ≤ 12 := by
  have h := abs_radW'_le hw (fun _ => 12) continuous_const fun t => by
    have h0 := neg_one_le_cos t
    have h1 := cos_le_one t
    have : exp (-(w * (1 - cos t) / 2)) ≤ 1 := exp_le_one_iff.2 (by nlinarith)
    have hp := exp_pos (-(w * (1 - cos t) / 2))
    nlinarith
  refine h.trans (le_of_eq ?_)
  rw [intervalIntegral.integral_const, sub_zero, smul_eq_mul]
  field_simp

theorem abs_radW'_le_rpow {w : ℝ} (hw : 0 < w) : |radW' w| ≤ 48 * (1 / (w * √w)) := by
  have h := abs_radW'_le hw.le (fun t => 24 / w * (exp (-(w / 4 * (1 - cos t))) * cos ((0:ℕ) * t))) (by fun_prop) fun t => by
    have h1 : 0 ≤ 1 - cos t := by linarith [cos_le_one t]
    generalize 1 - cos t = u at *
    rw [Nat.cast_zero, zero_mul, cos_zero, mul_one, div_mul_eq_mul_div, le_div_iff₀ hw]
    have e : exp (-(w * u / 2)) = exp (-(w / 4 * u)) * exp (-(w / 4 * u)) := by rw [← exp_add]; congr 1; ring
    have h7 : exp (w / 4 * u) * exp (-(w / 4 * u)) = 1 := by rw [← exp_add]; simp
    have h8 : w / 4 * u ≤ exp (w / 4 * u) := by linarith [add_one_le_exp (w / 4 * u)]
    have hp := exp_pos (-(w / 4 * u))
    rw [e]
    calc 6 * u * (exp (-(w / 4 * u)) * exp (-(w / 4 * u))) * w = 24 * (w / 4 * u) * (exp (-(w / 4 * u)) * exp (-(w / 4 * u))) := by ring
      _ ≤ 24 * exp (w / 4 * u) * (exp (-(w / 4 * u)) * exp (-(w / 4 * u))) := by gcongr
      _ = 24 * (exp (w / 4 * u) * exp (-(w / 4 * u))) * exp (-(w / 4 * u)) := by ring
      _ = _ := by rw [h7, mul_one]
  rw [intervalIntegral.integral_const_mul, mul_left_comm, ← ie_int] at h
  have h2 := (le_abs_self _).trans (abs_ie_le_sqrt 0 (w := w / 4) (by positivity))
  have e : √(w / 4) = √w / 2 := by rw [show w / 4 = w / 2 ^ 2 by ring, sqrt_div hw.le, sqrt_sq (by norm_num)]
  rw [e] at h2
  have hq := sqrt_pos.2 hw
  calc |radW' w| ≤ 24 / w * ie 0 (w / 4) := h
    _ ≤ 24 / w * (1 / (√w / 2)) := by gcongr
    _ = _ := by field_simp; norm_num

variable {a : ℝ}

theorem hasDerivAt_radW_time {t : ℝ} (ht : 0 < t) : HasDerivAt (fun t => radW (a / t)) (radW' (a / t) * (-(a / t ^ 2))) t := by
  have h : HasDerivAt (fun t : ℝ => a / t) (-(a / t ^ 2)) t := by
    refine ((hasDerivAt_inv ht.ne').const_mul a).congr_deriv ?_
    field_simp
  exact HasDerivAt.comp (h₂ := radW) (h := fun t => a / t) t (hasDerivAt_radW (a / t)) h

theorem radW_time_integrable (ha : 0 < a) : IntegrableOn (fun t => radW' (a / t) * (-(a / t ^ 2))) (Ioi 0) := by
  have hc : ContinuousOn (fun t => radW' (a / t) * (-(a / t ^ 2))) (Ioi 0) := by
    refine (continuous_radW'.comp_continuousOn (ContinuousOn.div continuousOn_const continuousOn_id fun t ht => ne_of_gt ht)).mul ?_
    refine (ContinuousOn.div continuousOn_const (continuousOn_id.pow 2) fun t ht => pow_ne_zero 2 (ne_of_gt ht)).neg
  have hm := hc.aestronglyMeasurable (μ := volume) measurableSet_Ioi
  rw [← Ioc_union_Ioi_eq_Ioi zero_le_one]
  refine IntegrableOn.union ?_ ?_
  · have hi : IntegrableOn (fun t : ℝ => 48 / √a * t ^ (-(1/2) : ℝ)) (Ioc 0 1) :=
      (intervalIntegral.intervalIntegrable_rpow' (a := 0) (b := 1) (r := -(1/2)) (by norm_num)).1.const_mul _
    refine Integrable.mono' hi (hm.mono_measure (Measure.restrict_mono Ioc_subset_Ioi_self le_rfl)) ?_
    filter_upwards [ae_restrict_mem measurableSet_Ioc] with t ht
    have h0 : 0 < t := ht.1
    rw [norm_eq_abs, abs_mul, abs_neg, abs_of_pos (a := a / t ^ 2) (by positivity)]
    refine (mul_le_mul_of_nonneg_right (abs_radW'_le_rpow (w := a / t) (by positivity)) (by positivity)).trans (le_of_eq ?_)
    have hq : t ^ (-(1/2) : ℝ) = 1 / √t := by rw [rpow_neg h0.le, sqrt_eq_rpow, one_div (t ^ _)]
    rw [hq, sqrt_div ha.le]
    have h1 := sqrt_pos.2 h0
    have h2 := sqrt_pos.2 ha
    have h3 := sq_sqrt h0.le
    generalize √t = q at *
    rw [← h3]
    field_simp
  · have hi : IntegrableOn (fun t : ℝ => 12 * a * t ^ (-2 : ℝ)) (Ioi 1) := (integrableOn_Ioi_rpow_of_lt (by norm_num) one_pos).const_mul _
    refine Integrable.mono' hi (hm.mono_measure (Measure.restrict_mono (Ioi_subset_Ioi zero_le_one) le_rfl)) ?_
    filter_upwards [ae_restrict_mem measurableSet_Ioi] with t ht
    have h0 : 0 < t := one_pos.trans ht
    rw [norm_eq_abs, abs_mul, abs_neg, abs_of_pos (a := a / t ^ 2) (by positivity)]
    refine (mul_le_mul_of_nonneg_right (abs_radW'_le_const (w := a / t) (by positivity)) (by positivity)).trans (le_of_eq ?_)
    rw [rpow_neg h0.le]
    norm_num
    field_simp

/-! ## The Laplace transform at complex arguments -/

/-- The weight whose transform is `I_1K_1 - I_2K_2`. -/
noncomputable def radWeight (τ : ℝ) : ℝ := phi 1 τ / τ - phi 2 τ / τ

theorem radWeight_integrable : IntegrableOn radWeight (Ioi 0) := profile_one.integrable_div.sub profile_two.integrable_div

theorem lap_radWeight {κ : ℂ} (hκ : |κ.im| ≤ κ.re) (h0 : κ ≠ 0) : lap radWeight (κ ^ 2) = 2 * T0 κ := by
  have hre : 0 < κ.re := by
    rcases (abs_nonneg κ.im |>.trans hκ).eq_or_lt with h | h
    · exfalso
      rw [← h] at hκ
      exact h0 (Complex.ext h.symm (abs_eq_zero.1 (le_antisymm hκ (abs_nonneg _))))
    · exact h
  refine lap_continuation_of radWeight_integrable (H := fun z => 2 * T0 z) (fun z hz => ?_) ?_ (fun c hc => ?_) hκ
  · exact ((derivs_T ((abs_nonneg _).trans_lt hz)).1.differentiableAt).const_mul 2
  · exact ((derivs_T hre).1.differentiableAt.const_mul 2).continuousAt
  · have hs : 0 < c ^ 2 := by positivity
    have i1 := profile_one.integrable 0 hs
    have i2 := profile_two.integrable 0 hs
    have e : lap radWeight ((c:ℂ) ^ 2) = ((LM (phi 1) 0 (c ^ 2) - LM (phi 2) 0 (c ^ 2) : ℝ) : ℂ) := by
      rw [LM, LM, ← integral_sub i1 i2, ← integral_complex_ofReal, lap]
      refine integral_congr_ae (Eventually.of_forall fun τ => ?_)
      simp only [radWeight]
      push_cast
      ring
    rw [e, T0, product_one hc, product_two hc]
    push_cast
    ring

theorem radW_eq (ha : 0 < a) {t : ℝ} (ht : 0 < t) : radW (a / t) = 1 / 2 * radWeight (1 / (2 * a) * t) := by
  rw [radW, radWeight, phi, phi]
  have e : 1 / (2 * (1 / (2 * a) * t)) = a / t := by field_simp
  rw [e]
  field_simp

theorem radW_integrable (ha : 0 < a) : IntegrableOn (fun t => radW (a / t)) (Ioi 0) := by
  have h := (integrableOn_Ioi_comp_mul_left_iff radWeight 0 (a := 1 / (2 * a)) (by positivity)).2
    (by rw [mul_zero]; exact radWeight_integrable)
  exact IntegrableOn.congr_fun (h.const_mul (1 / 2)) (fun t ht => (radW_eq ha ht).symm) measurableSet_Ioi

theorem radW_transform (ha : 0 < a) {κ : ℂ} (hκ : |κ.im| ≤ κ.re) (h0 : κ ≠ 0) {ω : ℝ} (hω : κ ^ 2 = Complex.I * ω) :
    ∫ t in Ioi (0:ℝ), ((radW (a / t) : ℝ) : ℂ) * Complex.exp (-(Complex.I * ω) * t) = 2 * a * T0 ((√(2 * a) : ℝ) * κ) := by
  have hq : 0 < √(2 * a) := sqrt_pos.2 (by positivity)
  have hq2 : ((√(2 * a) : ℝ) : ℂ) ^ 2 = 2 * a := by rw [← Complex.ofReal_pow, sq_sqrt (by positivity)]; push_cast; ring
  have hqc : ((√(2 * a) : ℝ) : ℂ) ≠ 0 := by exact_mod_cast hq.ne'
  have hl := lap_radWeight (κ := (√(2 * a) : ℝ) * κ) (by
    rw [Complex.re_ofReal_mul, Complex.im_ofReal_mul, abs_mul, abs_of_pos hq]
    exact mul_le_mul_of_nonneg_left hκ hq.le) (mul_ne_zero hqc h0)
  rw [mul_pow, hq2, hω, lap] at hl
  have hb : 0 < 1 / (2 * a) := by positivity
  have hch := integral_comp_mul_left_Ioi (fun τ : ℝ => ((radWeight τ : ℝ) : ℂ) * Complex.exp (-(2 * a * (Complex.I * ω)) * τ)) 0 hb
  rw [mul_zero, hl] at hch
  have hac : (a : ℂ) ≠ 0 := by exact_mod_cast ha.ne'
  have e : ∀ t ∈ Ioi (0:ℝ), ((radW (a / t) : ℝ) : ℂ) * Complex.exp (-(Complex.I * ω) * t)
      = 1 / 2 * (((radWeight (1 / (2 * a) * t) : ℝ) : ℂ) * Complex.exp (-(2 * a * (Complex.I * ω)) * ((1 / (2 * a) * t : ℝ) : ℂ))) := fun t ht => by
    rw [radW_eq ha ht]
    have : -(2 * a * (Complex.I * ω)) * ((1 / (2 * a) * t : ℝ) : ℂ) = -(Complex.I * ω) * t := by push_cast; field_simp
    rw [this]
    push_cast
    ring
  rw [setIntegral_congr_fun measurableSet_Ioi e, integral_const_mul, hch]
  rw [Complex.real_smul]
  push_cast
  field_simp

/-- The transient `W(a/t)` and its transform. -/
theorem stepOff_radW (ha : 0 < a) {κ : ℂ} (hκ : |κ.im| ≤ κ.re) (h0 : κ ≠ 0) {ω : ℝ} (hω : κ ^ 2 = Complex.I * ω)
    (hs : Tendsto (fun t => radW (a / t)) (𝓝[>] 0) (𝓝 0)) (he : Tendsto (fun t => radW (a / t)) atTop (𝓝 0)) :
    IsStepOff (fun t => radW (a / t)) ω (-((√(2 * a) : ℝ) * κ) ^ 2 * T0 ((√(2 * a) : ℝ) * κ)) := by
  obtain ⟨F, h⟩ : ∃ F, IsStepOff (fun t => radW (a / t)) ω F := ⟨_, _, fun t ht => hasDerivAt_radW_time ht, he, radW_time_integrable ha, rfl⟩
  have key := Tdem.integral_of_stepOff h (radW_integrable ha) hs
  rw [radW_transform ha hκ h0 hω] at key
  refine h.congr (fun _ _ => rfl) ?_
  have hq2 : ((√(2 * a) : ℝ) : ℂ) ^ 2 = 2 * a := by rw [← Complex.ofReal_pow, sq_sqrt (by positivity)]; push_cast; ring
  rw [mul_pow, hq2, hω]
  push_cast at key
  linear_combination key

end Verif
