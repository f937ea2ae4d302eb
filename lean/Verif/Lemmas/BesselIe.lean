import Verif.Lemmas.Bessel
import Verif.Lemmas.Transient
import Verif.Lemmas.BesselIK

/-! # The exponentially scaled modified Bessel functions of positive argument (helper lemmas) -/

namespace Verif

open Real Filter MeasureTheory Set
open scoped Topology

/-- `e^{-w} I_n(w)` -/
noncomputable def ie (n : ℕ) (w : ℝ) : ℝ := exp (-w) * besselI n w

theorem ie_eq (n : ℕ) {w : ℝ} (hw : 0 ≤ w) : besselIe n w = ie n w := by rw [besselIe, ie, abs_of_nonneg hw]

theorem continuous_ie (n : ℕ) : Continuous (ie n) := by
  have := continuous_besselI n
  unfold ie
  fun_prop

theorem hasDerivAt_exp_neg (w : ℝ) : HasDerivAt (fun w : ℝ => exp (-w)) (-exp (-w)) w := by
  exact ((hasDerivAt_id w).neg.exp).congr_deriv (by simp)

theorem hasDerivAt_ie_zero (w : ℝ) : HasDerivAt (ie 0) (ie 1 w - ie 0 w) w := by
  have h := hasDerivAt_besselI_int 0 w
  refine ((hasDerivAt_exp_neg w).fun_mul h).congr_deriv ?_
  have e : (1 / π * ∫ t in (0 : ℝ)..π, cos t * exp (w * cos t) * cos (((0:ℕ):ℝ) * t)) = besselI 1 w := by
    rw [besselI]
    congr 1
    refine intervalIntegral.integral_congr fun t _ => ?_
    simp
    ring
  rw [e, ie, ie]
  ring

theorem ie_rec (n : ℕ) (w : ℝ) : w * (ie n w - ie (n + 2) w) = 2 * (n + 1) * ie (n + 1) w := by
  have := besselI_recurrence n w
  simp only [ie]
  linear_combination exp (-w) * this

theorem hasDerivAt_ie_succ (n : ℕ) (w : ℝ) : HasDerivAt (ie (n + 1)) ((ie n w + ie (n + 2) w) / 2 - ie (n + 1) w) w := by
  refine ((hasDerivAt_exp_neg w).fun_mul (hasDerivAt_besselI_succ n w)).congr_deriv ?_
  simp only [ie]
  ring

theorem hasDerivAt_ie_one {w : ℝ} (hw : w ≠ 0) : HasDerivAt (ie 1) (ie 2 w + (1 / w - 1) * ie 1 w) w := by
  refine (hasDerivAt_ie_succ 0 w).congr_deriv ?_
  have h := ie_rec 0 w
  simp only [zero_add, Nat.cast_zero, mul_one] at h ⊢
  field_simp
  linear_combination h

theorem hasDerivAt_ie_two {w : ℝ} (hw : w ≠ 0) : HasDerivAt (ie 2) (ie 1 w - (2 / w + 1) * ie 2 w) w := by
  refine (hasDerivAt_ie_succ 1 w).congr_deriv ?_
  have h := ie_rec 1 w
  simp only [Nat.cast_one] at h ⊢
  field_simp
  linear_combination (-1) * h

theorem abs_ie_le_int (n : ℕ) (w : ℝ) : |ie n w| ≤ 1 / π * ∫ t in (0 : ℝ)..π, exp (-(w * (1 - cos t))) := by
  have e : ie n w = 1 / π * ∫ t in (0 : ℝ)..π, exp (-(w * (1 - cos t))) * cos (n * t) := by
    rw [ie, besselI, mul_left_comm, ← intervalIntegral.integral_const_mul]
    congr 1
    refine intervalIntegral.integral_congr fun t _ => ?_
    show exp (-w) * (exp (w * cos t) * _) = _
    rw [← mul_assoc, ← exp_add]
    congr 2
    ring
  rw [e, abs_mul, abs_of_pos (by positivity)]
  refine mul_le_mul_of_nonneg_left ?_ (by positivity)
  refine (intervalIntegral.abs_integral_le_integral_abs pi_pos.le).trans ?_
  refine intervalIntegral.integral_mono pi_pos.le (Continuous.intervalIntegrable (by fun_prop) _ _)
    (Continuous.intervalIntegrable (by fun_prop) _ _) fun t => ?_
  show |_ * _| ≤ _
  rw [abs_mul, abs_of_pos (exp_pos _)]
  exact mul_le_of_le_one_right (exp_pos _).le (abs_cos_le_one _)

theorem abs_ie_le_one (n : ℕ) {w : ℝ} (hw : 0 ≤ w) : |ie n w| ≤ 1 := by
  refine (abs_ie_le_int n w).trans ?_
  have h : ∫ t in (0 : ℝ)..π, exp (-(w * (1 - cos t))) ≤ ∫ t in (0 : ℝ)..π, (1:ℝ) := by
    refine intervalIntegral.integral_mono pi_pos.le (Continuous.intervalIntegrable (by fun_prop) _ _)
      (Continuous.intervalIntegrable (by fun_prop) _ _) fun t => ?_
    refine exp_le_one_iff.2 ?_
    have := mul_nonneg hw (sub_nonneg.2 (cos_le_one t))
    linarith
  rw [intervalIntegral.integral_const, sub_zero, smul_eq_mul, mul_one] at h
  calc _ ≤ 1 / π * π := mul_le_mul_of_nonneg_left h (by positivity)
    _ = 1 := by field_simp

theorem abs_ie_le_sqrt (n : ℕ) {w : ℝ} (hw : 0 < w) : |ie n w| ≤ 1 / √w := by
  refine (abs_ie_le_int n w).trans ?_
  have hb : 0 < 2 * w / π ^ 2 := by positivity
  have hi : IntegrableOn (fun t : ℝ => exp (-(2 * w / π ^ 2) * t ^ 2)) (Ioi 0) := (integrable_exp_neg_mul_sq hb).integrableOn
  have h1 : ∫ t in (0 : ℝ)..π, exp (-(w * (1 - cos t))) ≤ ∫ t in Ioi (0:ℝ), exp (-(2 * w / π ^ 2) * t ^ 2) := by
    rw [intervalIntegral.integral_of_le pi_pos.le]
    calc ∫ t in Ioc 0 π, exp (-(w * (1 - cos t))) ≤ ∫ t in Ioc 0 π, exp (-(2 * w / π ^ 2) * t ^ 2) := by
          refine setIntegral_mono_on (Continuous.integrableOn_Ioc (by fun_prop)) (Continuous.integrableOn_Ioc (by fun_prop))
            measurableSet_Ioc fun t ht => ?_
          refine exp_le_exp.2 ?_
          have := mul_le_mul_of_nonneg_left (BesselIK.one_sub_cos_ge ht.1 ht.2) hw.le
          have e : -(2 * w / π ^ 2) * t ^ 2 = -(w * (2 / π ^ 2 * t ^ 2)) := by ring
          rw [e]
          linarith
      _ ≤ _ := setIntegral_mono_set hi (Eventually.of_forall fun t => (exp_pos _).le) (Ioc_subset_Ioi_self.eventuallyLE)
  rw [integral_gaussian_Ioi] at h1
  have h2 : √(π / (2 * w / π ^ 2)) ≤ 2 * π / √w := by
    refine sqrt_le_iff.2 ⟨by positivity, ?_⟩
    rw [div_pow, sq_sqrt hw.le]
    have : π / (2 * w / π ^ 2) = π * π ^ 2 / 2 / w := by field_simp
    rw [this]
    refine div_le_div_of_nonneg_right ?_ hw.le
    nlinarith [pi_le_four, pi_pos, sq_nonneg π]
  calc _ ≤ 1 / π * (√(π / (2 * w / π ^ 2)) / 2) := mul_le_mul_of_nonneg_left h1 (by positivity)
    _ ≤ 1 / π * (2 * π / √w / 2) := by gcongr
    _ = 1 / √w := by field_simp

theorem abs_ie_one_le {w : ℝ} (hw : 0 ≤ w) : |ie 1 w| ≤ w := by
  have h := ie_rec 0 w
  simp only [zero_add, Nat.cast_zero, mul_one] at h
  have h0 := abs_le.1 (abs_ie_le_one 0 hw)
  have h2 := abs_le.1 (abs_ie_le_one 2 hw)
  rw [abs_le]
  constructor <;> nlinarith

theorem abs_ie_two_le {w : ℝ} (hw : 0 ≤ w) : |ie 2 w| ≤ w := by
  have h := ie_rec 1 w
  norm_num at h
  have h0 := abs_le.1 (abs_ie_le_one 1 hw)
  have h2 := abs_le.1 (abs_ie_le_one 3 hw)
  rw [abs_le]
  constructor <;> nlinarith

theorem tendsto_ie_atTop (n : ℕ) : Tendsto (ie n) atTop (𝓝 0) := by
  refine squeeze_zero_norm' (a := fun w => 1 / √w) ?_ ?_
  · filter_upwards [eventually_gt_atTop 0] with w hw
    exact abs_ie_le_sqrt n hw
  · simp only [one_div]
    exact tendsto_sqrt_atTop.inv_tendsto_atTop

theorem besselI_zero_zero : besselI 0 0 = 1 := by
  have := pi_ne_zero
  simp [besselI]

theorem besselI_one_zero : besselI 1 0 = 0 := by simp [besselI]

theorem besselI_two_zero : besselI 2 0 = 0 := by
  have h := besselI_recurrence 1 0
  norm_num at h
  exact h

theorem ie_zero_zero : ie 0 0 = 1 := by simp [ie, besselI_zero_zero]
theorem ie_one_zero : ie 1 0 = 0 := by simp [ie, besselI_one_zero]
theorem ie_two_zero : ie 2 0 = 0 := by simp [ie, besselI_two_zero]

end Verif
