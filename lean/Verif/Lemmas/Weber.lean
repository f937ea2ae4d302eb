import Verif.Lemmas.BesselJ
import Verif.Lemmas.LaplaceMoments
import Mathlib.MeasureTheory.Integral.IntegralEqImproper
import Mathlib.Analysis.SpecialFunctions.Gaussian.GaussianIntegral

/-! # The integrals of Lipschitz and Weber (helper lemmas) -/

namespace Verif

open Real Filter MeasureTheory Set
open scoped Topology

theorem continuous_besselJ0 : Continuous besselJ0 := continuous_iff_continuousAt.2 fun x => (hasDerivAt_besselJ0 x).continuousAt

/-- The derivative of `J_1` at every point. -/
noncomputable def besselJ1' (x : ℝ) : ℝ := 1 / π * ∫ t in (0 : ℝ)..π, cos t ^ 2 * cos (x * cos t)

theorem hasDerivAt_besselJ1' (x : ℝ) : HasDerivAt besselJ1 (besselJ1' x) x :=
  (hasDerivAt_param (fun x t => cos t * sin (x * cos t)) (fun x t => cos t ^ 2 * cos (x * cos t)) (by fun_prop) (by fun_prop)
    (fun x t => by
      rw [abs_mul, abs_pow]
      exact mul_le_one₀ (pow_le_one₀ (abs_nonneg _) (abs_cos_le_one _)) (abs_nonneg _) (abs_cos_le_one _))
    (fun x t => by
      have e : HasDerivAt (fun y : ℝ => y * cos t) (cos t) x := by simpa using (hasDerivAt_id x).mul_const (cos t)
      exact (e.sin.const_mul (cos t)).congr_deriv (by ring)) x).const_mul (1 / π)

theorem continuous_besselJ1 : Continuous besselJ1 := continuous_iff_continuousAt.2 fun x => (hasDerivAt_besselJ1' x).continuousAt

/-- `J_1 + x J_1' = x J_0`. -/
theorem besselJ1_add (x : ℝ) : besselJ1 x + x * besselJ1' x = x * besselJ0 x := by
  rw [besselJ1_eq, besselJ1', besselJ0, ← mul_add, ← mul_add,
    ← intervalIntegral.integral_add (Continuous.intervalIntegrable (by fun_prop) _ _) (Continuous.intervalIntegrable (by fun_prop) _ _)]
  congr 2
  refine intervalIntegral.integral_congr fun t _ => ?_
  show sin t ^ 2 * cos (x * cos t) + cos t ^ 2 * cos (x * cos t) = _
  rw [← add_mul, sin_sq_add_cos_sq, one_mul]

theorem mean_le_one {f : ℝ → ℝ} (hf : ∀ t, |f t| ≤ 1) : |1 / π * ∫ t in (0 : ℝ)..π, f t| ≤ 1 := by
  have h := intervalIntegral.norm_integral_le_of_norm_le_const (a := 0) (b := π) (f := f) (C := 1) (fun t _ => by
    rw [norm_eq_abs]; exact hf t)
  rw [norm_eq_abs, sub_zero, abs_of_pos pi_pos, one_mul] at h
  rw [abs_mul, abs_of_pos (by positivity)]
  calc 1 / π * _ ≤ 1 / π * π := mul_le_mul_of_nonneg_left h (by positivity)
    _ = 1 := by field_simp

theorem abs_besselJ0_le (x : ℝ) : |besselJ0 x| ≤ 1 := mean_le_one fun _ => abs_cos_le_one _

theorem abs_besselJ1_le (x : ℝ) : |besselJ1 x| ≤ 1 := mean_le_one fun t => by
  rw [abs_mul]; exact mul_le_one₀ (abs_cos_le_one _) (abs_nonneg _) (abs_sin_le_one _)

theorem abs_besselJ1_le_abs (x : ℝ) : |besselJ1 x| ≤ |x| := by
  rw [besselJ1_eq, abs_mul]
  refine mul_le_of_le_one_right (abs_nonneg _) (mean_le_one fun t => ?_)
  rw [abs_mul, abs_pow]
  exact mul_le_one₀ (pow_le_one₀ (abs_nonneg _) (abs_sin_le_one _)) (abs_nonneg _) (abs_cos_le_one _)

theorem besselJ0_zero : besselJ0 0 = 1 := by simp [besselJ0]
theorem besselJ1_zero : besselJ1 0 = 0 := by simp [besselJ1]

variable {r : ℝ}

theorem hasDerivAt_J0_mul (r x : ℝ) : HasDerivAt (fun x => besselJ0 (x * r)) (-(r * besselJ1 (x * r))) x := by
  have := (hasDerivAt_besselJ0 (x * r)).comp x ((hasDerivAt_id x).mul_const r)
  exact this.congr_deriv (by ring)

theorem hasDerivAt_J1_mul (r x : ℝ) : HasDerivAt (fun x => besselJ1 (x * r)) (r * besselJ1' (x * r)) x := by
  have := (hasDerivAt_besselJ1' (x * r)).comp x ((hasDerivAt_id x).mul_const r)
  exact this.congr_deriv (by ring)

/-- `d/dx (x J_1(r x)) = r x J_0(r x)` -/
theorem hasDerivAt_mul_J1 (r x : ℝ) : HasDerivAt (fun x => x * besselJ1 (x * r)) (x * r * besselJ0 (x * r)) x :=
  ((hasDerivAt_id x).fun_mul (hasDerivAt_J1_mul r x)).congr_deriv (by
    rw [← besselJ1_add]; simp only [id]; ring)

/-! ## Weber's integrals -/

theorem integrableOn_pow_gauss {t : ℝ} (ht : 0 < t) (n : ℕ) : IntegrableOn (fun x : ℝ => x ^ n * exp (-t * x ^ 2)) (Ioi 0) := by
  have h := integrableOn_rpow_mul_exp_neg_mul_sq ht (s := n) (by have : (0:ℝ) ≤ n := Nat.cast_nonneg n; linarith)
  refine h.congr_fun (fun x _ => ?_) measurableSet_Ioi
  simp [rpow_natCast]

theorem integrableOn_gauss_mul {t : ℝ} (ht : 0 < t) (n : ℕ) {b : ℝ → ℝ} (hb : Continuous b) {C : ℝ} (hC : ∀ x, |b x| ≤ C) :
    IntegrableOn (fun x : ℝ => x ^ n * exp (-t * x ^ 2) * b x) (Ioi 0) :=
  Integrable.mul_bdd (c := C) (integrableOn_pow_gauss ht n) hb.aestronglyMeasurable (Eventually.of_forall fun x => by
    rw [norm_eq_abs]; exact hC x)

theorem tendsto_pow_gauss {t : ℝ} (ht : 0 < t) (n : ℕ) : Tendsto (fun x : ℝ => x ^ n * exp (-t * x ^ 2)) atTop (𝓝 0) := by
  refine squeeze_zero' (g := fun x : ℝ => x ^ n * exp (-t * x)) ?_ ?_ ?_
  · filter_upwards [eventually_ge_atTop 0] with x hx; positivity
  · filter_upwards [eventually_ge_atTop 1] with x hx
    refine mul_le_mul_of_nonneg_left (exp_le_exp.2 ?_) (by positivity)
    nlinarith [mul_le_mul_of_nonneg_left hx (mul_nonneg ht.le (by linarith : (0:ℝ) ≤ x))]
  · have h := tendsto_rpow_mul_exp_neg_mul_atTop_nhds_zero n t ht
    simpa [rpow_natCast] using h

theorem hasDerivAt_gaussSq (t x : ℝ) : HasDerivAt (fun x : ℝ => exp (-t * x ^ 2)) (-(2 * t * x) * exp (-t * x ^ 2)) x := by
  have := ((hasDerivAt_pow 2 x).const_mul (-t)).exp
  exact this.congr_deriv (by simp; ring)

/-- Integration by parts against the Gaussian. -/
theorem gauss_parts {t : ℝ} (ht : 0 < t) {g g' : ℝ → ℝ} (hg : ∀ x, HasDerivAt g (g' x) x) (h0 : g 0 = 0)
    {n : ℕ} {C : ℝ} (hC : ∀ x, 0 ≤ x → |g x| ≤ C * x ^ n) (hi : IntegrableOn (fun x => x * exp (-t * x ^ 2) * g x) (Ioi 0))
    (hi' : IntegrableOn (fun x => exp (-t * x ^ 2) * g' x) (Ioi 0)) :
    2 * t * ∫ x in Ioi (0:ℝ), x * exp (-t * x ^ 2) * g x = ∫ x in Ioi (0:ℝ), exp (-t * x ^ 2) * g' x := by
  have key := integral_Ioi_of_limits (f := fun x => exp (-t * x ^ 2) * g x)
    (f' := fun x => exp (-t * x ^ 2) * g' x - 2 * t * (x * exp (-t * x ^ 2) * g x)) (l := 0) (m := 0) ?_ ?_ ?_ ?_
  · rw [integral_sub hi' (hi.const_mul _), integral_const_mul, sub_zero] at key
    linarith
  · have hc : ContinuousAt (fun x => exp (-t * x ^ 2) * g x) 0 := ((by fun_prop : Continuous fun x : ℝ => exp (-t * x ^ 2)).continuousAt).mul
      (hg 0).continuousAt
    have := hc.tendsto
    simp only [h0, mul_zero] at this
    exact this.mono_left nhdsWithin_le_nhds
  · intro x _
    exact ((hasDerivAt_gaussSq t x).mul (hg x)).congr_deriv (by ring)
  · exact hi'.sub (hi.const_mul _)
  · refine squeeze_zero_norm' (a := fun x => C * (x ^ n * exp (-t * x ^ 2))) ?_ ?_
    · filter_upwards [eventually_ge_atTop 0] with x hx
      rw [norm_eq_abs, abs_mul, abs_of_pos (exp_pos _)]
      calc _ ≤ exp (-t * x ^ 2) * (C * x ^ n) := mul_le_mul_of_nonneg_left (hC x hx) (exp_pos _).le
        _ = _ := by ring
    · simpa using (tendsto_pow_gauss ht n).const_mul C

theorem continuous_J0_mul (r : ℝ) : Continuous fun x => besselJ0 (x * r) := continuous_besselJ0.comp (by fun_prop)
theorem continuous_J1_mul (r : ℝ) : Continuous fun x => besselJ1 (x * r) := continuous_besselJ1.comp (by fun_prop)

/-- `2t ∫ x² e^{-tx²} J_1(rx) dx = r ∫ x e^{-tx²} J_0(rx) dx` -/
theorem weber_step {t : ℝ} (ht : 0 < t) (r : ℝ) :
    2 * t * ∫ x in Ioi (0:ℝ), x ^ 2 * exp (-t * x ^ 2) * besselJ1 (x * r)
      = r * ∫ x in Ioi (0:ℝ), x ^ 1 * exp (-t * x ^ 2) * besselJ0 (x * r) := by
  have e1 : ∀ x : ℝ, x ^ 2 * exp (-t * x ^ 2) * besselJ1 (x * r) = x * exp (-t * x ^ 2) * (x * besselJ1 (x * r)) := fun x => by ring
  have e2 : ∀ x : ℝ, r * (x ^ 1 * exp (-t * x ^ 2) * besselJ0 (x * r)) = exp (-t * x ^ 2) * (x * r * besselJ0 (x * r)) := fun x => by ring
  have h := gauss_parts ht (hasDerivAt_mul_J1 r) (by simp) (n := 1) (C := 1) (fun x hx => by
      rw [abs_mul, abs_of_nonneg hx, one_mul, pow_one]
      exact mul_le_of_le_one_right hx (abs_besselJ1_le _)) ?_ ?_
  · rw [← integral_const_mul, ← integral_const_mul, integral_const_mul]
    simp only [e1, e2]
    exact h
  · simp only [← e1]
    exact integrableOn_gauss_mul ht 2 (continuous_J1_mul r) fun x => abs_besselJ1_le _
  · simp only [← e2]
    exact (integrableOn_gauss_mul ht 1 (continuous_J0_mul r) fun x => abs_besselJ0_le _).const_mul r

theorem hasDerivAt_weber {t : ℝ} (ht : 0 < t) (r : ℝ) :
    HasDerivAt (fun r => ∫ x in Ioi (0:ℝ), x ^ 1 * exp (-t * x ^ 2) * besselJ0 (x * r))
      (-∫ x in Ioi (0:ℝ), x ^ 2 * exp (-t * x ^ 2) * besselJ1 (x * r)) r := by
  have key := hasDerivAt_integral_of_dominated_loc_of_deriv_le (𝕜 := ℝ) (μ := volume.restrict (Ioi (0:ℝ)))
    (F := fun (r : ℝ) (x : ℝ) => x ^ 1 * exp (-t * x ^ 2) * besselJ0 (x * r))
    (F' := fun (r : ℝ) (x : ℝ) => -(x ^ 2 * exp (-t * x ^ 2) * besselJ1 (x * r))) (x₀ := r) (s := univ)
    (bound := fun x => x ^ 2 * exp (-t * x ^ 2)) univ_mem ?_ ?_ ?_ ?_ ?_ ?_
  · exact key.2.congr_deriv (integral_neg _)
  · exact Eventually.of_forall fun y => (Continuous.mul (by fun_prop) (continuous_J0_mul y)).aestronglyMeasurable
  · exact integrableOn_gauss_mul ht 1 (continuous_J0_mul r) fun x => abs_besselJ0_le _
  · exact (Continuous.mul (by fun_prop) (continuous_J1_mul r)).neg.aestronglyMeasurable
  · refine Eventually.of_forall fun x y _ => ?_
    rw [norm_neg, norm_eq_abs, abs_mul, abs_of_nonneg (by positivity)]
    exact mul_le_of_le_one_right (by positivity) (abs_besselJ1_le _)
  · exact integrableOn_pow_gauss ht 2
  · refine Eventually.of_forall fun x y _ => ?_
    have h : HasDerivAt (fun y => besselJ0 (x * y)) (-(x * besselJ1 (x * y))) y := by
      have := (hasDerivAt_besselJ0 (x * y)).comp y ((hasDerivAt_id y).const_mul x)
      exact this.congr_deriv (by ring)
    exact (h.const_mul (x ^ 1 * exp (-t * x ^ 2))).congr_deriv (by ring)

/-- `∫ x e^{-tx²} J_0(rx) dx = e^{-r²/4t}/(2t)` -/
theorem weber_zero {t : ℝ} (ht : 0 < t) (r : ℝ) :
    ∫ x in Ioi (0:ℝ), x ^ 1 * exp (-t * x ^ 2) * besselJ0 (x * r) = exp (-(r ^ 2 / (4 * t))) / (2 * t) := by
  set W : ℝ → ℝ := fun r => ∫ x in Ioi (0:ℝ), x ^ 1 * exp (-t * x ^ 2) * besselJ0 (x * r) with hW
  have hd : ∀ r, HasDerivAt (fun r => W r * exp (r ^ 2 / (4 * t))) 0 r := by
    intro r
    have h1 := hasDerivAt_weber ht r
    have h2 : HasDerivAt (fun r : ℝ => exp (r ^ 2 / (4 * t))) (exp (r ^ 2 / (4 * t)) * (2 * r / (4 * t))) r :=
      (((hasDerivAt_pow 2 r).div_const (4 * t)).exp).congr_deriv (by simp)
    refine (h1.fun_mul h2).congr_deriv ?_
    have h3 := weber_step ht r
    have h4 : (∫ x in Ioi (0:ℝ), x ^ 2 * exp (-t * x ^ 2) * besselJ1 (x * r)) = r * W r / (2 * t) := by
      rw [eq_div_iff (by positivity), mul_comm, h3]
    rw [h4]
    show -(r * W r / (2 * t)) * _ + W r * _ = _
    field_simp
    ring
  have hc := is_const_of_deriv_eq_zero (fun r => (hd r).differentiableAt) (fun r => (hd r).deriv) r 0
  have h0 : W 0 = 1 / (2 * t) := by
    have key := integral_Ioi_of_limits (f := fun x => -(1 / (2 * t)) * exp (-t * x ^ 2)) (f' := fun x : ℝ => x ^ 1 * exp (-t * x ^ 2))
      (l := -(1 / (2 * t))) (m := 0) ?_ ?_ (integrableOn_pow_gauss ht 1) ?_
    · simp only [hW, mul_zero, besselJ0_zero, mul_one]
      rw [key]; ring
    · have : Continuous fun x : ℝ => -(1 / (2 * t)) * exp (-t * x ^ 2) := by fun_prop
      have h := this.tendsto 0
      simp only [ne_eq, OfNat.ofNat_ne_zero, not_false_eq_true, zero_pow, mul_zero, exp_zero, mul_one] at h
      exact h.mono_left nhdsWithin_le_nhds
    · intro x _
      exact ((hasDerivAt_gaussSq t x).const_mul _).congr_deriv (by field_simp)
    · simpa using (tendsto_pow_gauss ht 0).const_mul (-(1 / (2 * t)))
  simp only [h0] at hc
  show W r = _
  have hp : exp (r ^ 2 / (4 * t)) ≠ 0 := (exp_pos _).ne'
  rw [exp_neg]
  simp only [ne_eq, OfNat.ofNat_ne_zero, not_false_eq_true, zero_pow, zero_div, exp_zero, mul_one] at hc
  rw [← eq_div_iff hp] at hc
  rw [hc]
  field_simp

/-- `∫ x² e^{-tx²} J_1(rx) dx = r e^{-r²/4t}/(4t²)` -/
theorem weber_one {t : ℝ} (ht : 0 < t) (r : ℝ) :
    ∫ x in Ioi (0:ℝ), x ^ 2 * exp (-t * x ^ 2) * besselJ1 (x * r) = r * exp (-(r ^ 2 / (4 * t))) / (4 * t ^ 2) := by
  have h := weber_step ht r
  rw [weber_zero ht] at h
  generalize (∫ x in Ioi (0:ℝ), x ^ 2 * exp (-t * x ^ 2) * besselJ1 (x * r)) = A at h ⊢
  field_simp at h ⊢
  linarith

/-- `∫ x³ e^{-tx²} J_0(rx) dx = e^{-r²/4t} (1/(2t²) - r²/(8t³))` -/
theorem weber_two {t : ℝ} (ht : 0 < t) (r : ℝ) :
    ∫ x in Ioi (0:ℝ), x ^ 3 * exp (-t * x ^ 2) * besselJ0 (x * r)
      = exp (-(r ^ 2 / (4 * t))) * (1 / (2 * t ^ 2) - r ^ 2 / (8 * t ^ 3)) := by
  have i1 := integrableOn_gauss_mul ht 1 (continuous_J0_mul r) (fun x => abs_besselJ0_le _)
  have i2 := integrableOn_gauss_mul ht 2 (continuous_J1_mul r) (fun x => abs_besselJ1_le _)
  have i3 := integrableOn_gauss_mul ht 3 (continuous_J0_mul r) (fun x => abs_besselJ0_le _)
  have e1 : ∀ x : ℝ, x ^ 3 * exp (-t * x ^ 2) * besselJ0 (x * r) = x * exp (-t * x ^ 2) * (x ^ 2 * besselJ0 (x * r)) := fun x => by ring
  have e2 : ∀ x : ℝ, exp (-t * x ^ 2) * (2 * x * besselJ0 (x * r) + x ^ 2 * -(r * besselJ1 (x * r)))
    = 2 * (x ^ 1 * exp (-t * x ^ 2) * besselJ0 (x * r)) - r * (x ^ 2 * exp (-t * x ^ 2) * besselJ1 (x * r)) := fun x => by ring
  have h := gauss_parts ht (g := fun x => x ^ 2 * besselJ0 (x * r))
    (fun x => ((hasDerivAt_pow 2 x).fun_mul (hasDerivAt_J0_mul r x)).congr_deriv (g' := 2 * x * besselJ0 (x * r) + x ^ 2 * -(r * besselJ1 (x * r)))
      (by simp)) (by simp) (n := 2) (C := 1) (fun x hx => by
      rw [abs_mul, abs_of_nonneg (by positivity), one_mul]
      exact mul_le_of_le_one_right (by positivity) (abs_besselJ0_le _)) ?_ ?_
  · simp only [← e1, e2] at h
    rw [integral_sub (i1.const_mul 2) (i2.const_mul r), integral_const_mul, integral_const_mul, weber_zero ht, weber_one ht] at h
    generalize (∫ x in Ioi (0:ℝ), x ^ 3 * exp (-t * x ^ 2) * besselJ0 (x * r)) = A at h ⊢
    generalize exp (-(r ^ 2 / (4 * t))) = E at h ⊢
    have : A = (2 * (E / (2 * t)) - r * (r * E / (4 * t ^ 2))) / (2 * t) := by rw [← h]; field_simp
    rw [this]
    field_simp
    ring
  · simpa only [← e1] using i3
  · simp only [e2]
    exact (i1.const_mul 2).sub (i2.const_mul r)

end Verif
