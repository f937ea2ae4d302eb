import Verif.Lemmas.Weber
import Verif.Lemmas.BesselLaplace

/-! # Weber's integrals that lead to modified Bessel functions (helper lemmas) -/

namespace Verif

open Real Filter MeasureTheory Set
open scoped Topology

variable {t : ℝ}

theorem hasDerivAt_gaussCos (ht : 0 < t) (a : ℝ) :
    HasDerivAt (fun a => ∫ x in Ioi (0:ℝ), x ^ 0 * exp (-t * x ^ 2) * cos (x * a))
      (-∫ x in Ioi (0:ℝ), x ^ 1 * exp (-t * x ^ 2) * sin (x * a)) a := by
  have key := hasDerivAt_integral_of_dominated_loc_of_deriv_le (𝕜 := ℝ) (μ := volume.restrict (Ioi (0:ℝ)))
    (F := fun (a : ℝ) (x : ℝ) => x ^ 0 * exp (-t * x ^ 2) * cos (x * a))
    (F' := fun (a : ℝ) (x : ℝ) => -(x ^ 1 * exp (-t * x ^ 2) * sin (x * a))) (x₀ := a) (s := univ)
    (bound := fun x => ‖x ^ 1 * exp (-t * x ^ 2)‖) univ_mem ?_ ?_ ?_ ?_ ?_ ?_
  · exact key.2.congr_deriv (integral_neg _)
  · exact Eventually.of_forall fun y => Continuous.aestronglyMeasurable (by fun_prop)
  · exact integrableOn_gauss_mul ht 0 (by fun_prop) fun x => abs_cos_le_one _
  · exact Continuous.aestronglyMeasurable (by fun_prop)
  · refine Eventually.of_forall fun x y _ => ?_
    rw [norm_neg, norm_mul]
    exact mul_le_of_le_one_right (norm_nonneg _) (abs_sin_le_one _)
  · exact (integrableOn_pow_gauss ht 1).norm
  · refine Eventually.of_forall fun x y _ => ?_
    have h : HasDerivAt (fun y => cos (x * y)) (-(x * sin (x * y))) y := by
      have := (hasDerivAt_cos (x * y)).comp y ((hasDerivAt_id y).const_mul x)
      exact this.congr_deriv (by ring)
    exact (h.const_mul (x ^ 0 * exp (-t * x ^ 2))).congr_deriv (by ring)

/-- `∫ e^{-tx²} cos(ax) dx = ½ √(π/t) e^{-a²/4t}` -/
theorem gaussCos (ht : 0 < t) (a : ℝ) :
    ∫ x in Ioi (0:ℝ), x ^ 0 * exp (-t * x ^ 2) * cos (x * a) = √(π / t) / 2 * exp (-(a ^ 2 / (4 * t))) := by
  set W : ℝ → ℝ := fun a => ∫ x in Ioi (0:ℝ), x ^ 0 * exp (-t * x ^ 2) * cos (x * a) with hW
  have hstep : ∀ a, 2 * t * ∫ x in Ioi (0:ℝ), x ^ 1 * exp (-t * x ^ 2) * sin (x * a) = a * W a := fun a => by
    have h := gauss_parts ht (g := fun x => sin (x * a)) (g' := fun x => a * cos (x * a)) (fun x => by
        have := (hasDerivAt_sin (x * a)).comp x ((hasDerivAt_id x).mul_const a)
        exact this.congr_deriv (by ring)) (by simp) (n := 0) (C := 1) (fun x _ => by simpa using abs_sin_le_one _)
      (by simpa using integrableOn_gauss_mul ht 1 (b := fun x => sin (x * a)) (by fun_prop) fun x => abs_sin_le_one _)
      (by
        have := (integrableOn_gauss_mul ht 0 (b := fun x => cos (x * a)) (by fun_prop) fun x => abs_cos_le_one _).const_mul a
        refine this.congr (Eventually.of_forall fun x => ?_)
        simp only [pow_zero, one_mul]
        ring)
    simp only [pow_one]
    rw [h, hW, ← integral_const_mul]
    refine integral_congr_ae (Eventually.of_forall fun x => ?_)
    simp only [pow_zero, one_mul]
    ring
  have hd : ∀ a, HasDerivAt (fun a => W a * exp (a ^ 2 / (4 * t))) 0 a := by
    intro a
    have h1 := hasDerivAt_gaussCos ht a
    have h2 : HasDerivAt (fun a : ℝ => exp (a ^ 2 / (4 * t))) (exp (a ^ 2 / (4 * t)) * (2 * a / (4 * t))) a :=
      (((hasDerivAt_pow 2 a).div_const (4 * t)).exp).congr_deriv (by simp)
    refine (h1.fun_mul h2).congr_deriv ?_
    have h4 : (∫ x in Ioi (0:ℝ), x ^ 1 * exp (-t * x ^ 2) * sin (x * a)) = a * W a / (2 * t) := by
      rw [eq_div_iff (by positivity), mul_comm, hstep]
    rw [h4]
    show -(a * W a / (2 * t)) * _ + W a * _ = _
    field_simp
    ring
  have hc := is_const_of_deriv_eq_zero (fun a => (hd a).differentiableAt) (fun a => (hd a).deriv) a 0
  have h0 : W 0 = √(π / t) / 2 := by
    have := integral_gaussian_Ioi t
    simp only [hW, mul_zero, cos_zero, mul_one, pow_zero, one_mul]
    exact this
  simp only [h0] at hc
  show W a = _
  have hp : exp (a ^ 2 / (4 * t)) ≠ 0 := (exp_pos _).ne'
  rw [exp_neg]
  simp only [ne_eq, OfNat.ofNat_ne_zero, not_false_eq_true, zero_pow, zero_div, exp_zero, mul_one] at hc
  rw [← eq_div_iff hp] at hc
  rw [hc]
  field_simp

/-- `1/π ∫₀^π e^{-2w cos²θ} dθ = e^{-w} I_0(w)` -/
theorem integral_exp_cos_sq (w : ℝ) : 1 / π * ∫ θ in (0:ℝ)..π, exp (-(2 * w * cos θ ^ 2)) = ie 0 w := by
  set g : ℝ → ℝ := fun α => exp (-w * cos α) with hg
  have hgc : Continuous g := by fun_prop
  have e1 : ∫ θ in (0:ℝ)..π, exp (-(2 * w * cos θ ^ 2)) = exp (-w) * ∫ θ in (0:ℝ)..π, g (2 * θ) := by
    rw [← intervalIntegral.integral_const_mul]
    refine intervalIntegral.integral_congr fun θ _ => ?_
    simp only [hg]
    rw [← exp_add, cos_two_mul]
    congr 1
    ring
  have e2 : ∫ θ in (0:ℝ)..π, g (2 * θ) = 1 / 2 * ∫ α in (0:ℝ)..(2 * π), g α := by
    rw [intervalIntegral.integral_comp_mul_left g two_ne_zero]
    simp
  have hrev : ∫ α in (0:ℝ)..π, g α = ∫ α in (0:ℝ)..π, exp (w * cos α) := by
    have := intervalIntegral.integral_comp_sub_left (a := 0) (b := π) (fun α => exp (w * cos α)) π
    rw [sub_self, sub_zero] at this
    rw [← this]
    refine intervalIntegral.integral_congr fun α _ => ?_
    simp only [hg, cos_pi_sub]
    congr 1
    ring
  have hshift : ∫ α in π..(2 * π), g α = ∫ α in (0:ℝ)..π, exp (w * cos α) := by
    have := intervalIntegral.integral_comp_add_right (a := 0) (b := π) g π
    rw [zero_add, ← two_mul] at this
    rw [← this]
    refine intervalIntegral.integral_congr fun α _ => ?_
    simp only [hg, cos_add_pi]
    congr 1
    ring
  have e3 : ∫ α in (0:ℝ)..(2 * π), g α = 2 * ∫ α in (0:ℝ)..π, exp (w * cos α) := by
    rw [← intervalIntegral.integral_add_adjacent_intervals (hgc.intervalIntegrable 0 π) (hgc.intervalIntegrable π (2 * π)), hrev, hshift]
    ring
  rw [e1, e2, e3, ie, besselI]
  simp only [Nat.cast_zero, zero_mul, cos_zero, mul_one]
  ring

/-- `∫ e^{-tx²} J_0(rx) dx = ½ √(π/t) e^{-w} I_0(w)`, `w = r²/8t` -/
theorem weberHalf_zero (ht : 0 < t) (r : ℝ) :
    ∫ x in Ioi (0:ℝ), x ^ 0 * exp (-t * x ^ 2) * besselJ0 (x * r) = √(π / t) / 2 * ie 0 (r ^ 2 / (8 * t)) := by
  set F : ℝ → ℝ → ℝ := fun x θ => x ^ 0 * exp (-t * x ^ 2) * cos (x * (r * cos θ)) with hF
  have hint : Integrable (Function.uncurry F) ((volume.restrict (Ioi (0:ℝ))).prod (volume.restrict (Ioc (0:ℝ) π))) := by
    have h1 : Integrable (fun p : ℝ × ℝ => p.1 ^ 0 * exp (-t * p.1 ^ 2) * 1)
        ((volume.restrict (Ioi (0:ℝ))).prod (volume.restrict (Ioc (0:ℝ) π))) :=
      (integrableOn_pow_gauss ht 0).mul_prod (integrableOn_const (by simp) : IntegrableOn (fun _ : ℝ => (1:ℝ)) (Ioc 0 π))
    refine Integrable.mono h1 (Continuous.aestronglyMeasurable (by fun_prop)) (Eventually.of_forall fun p => ?_)
    show ‖p.1 ^ 0 * exp (-t * p.1 ^ 2) * cos (p.1 * (r * cos p.2))‖ ≤ ‖p.1 ^ 0 * exp (-t * p.1 ^ 2) * 1‖
    rw [mul_one, norm_mul]
    exact mul_le_of_le_one_right (norm_nonneg _) (abs_cos_le_one _)
  have hswap := integral_integral_swap hint
  have e1 : ∫ x in Ioi (0:ℝ), x ^ 0 * exp (-t * x ^ 2) * besselJ0 (x * r) = 1 / π * ∫ x in Ioi (0:ℝ), ∫ θ in Ioc (0:ℝ) π, F x θ := by
    rw [← integral_const_mul]
    refine setIntegral_congr_fun measurableSet_Ioi fun x _ => ?_
    show x ^ 0 * exp (-t * x ^ 2) * besselJ0 (x * r) = 1 / π * ∫ θ in Ioc (0:ℝ) π, x ^ 0 * exp (-t * x ^ 2) * cos (x * (r * cos θ))
    rw [integral_const_mul, besselJ0, intervalIntegral.integral_of_le pi_pos.le]
    simp only [mul_assoc]
    ring
  rw [e1, hswap]
  have e2 : ∫ θ in Ioc (0:ℝ) π, ∫ x in Ioi (0:ℝ), F x θ = √(π / t) / 2 * ∫ θ in (0:ℝ)..π, exp (-(2 * (r ^ 2 / (8 * t)) * cos θ ^ 2)) := by
    rw [intervalIntegral.integral_of_le pi_pos.le, ← integral_const_mul]
    refine setIntegral_congr_fun measurableSet_Ioc fun θ _ => ?_
    show ∫ x in Ioi (0:ℝ), x ^ 0 * exp (-t * x ^ 2) * cos (x * (r * cos θ)) = _
    rw [gaussCos ht]
    congr 3
    field_simp
    ring
  rw [e2, ← integral_exp_cos_sq]
  ring

theorem hasDerivAt_weberHalf (ht : 0 < t) (r : ℝ) :
    HasDerivAt (fun r => ∫ x in Ioi (0:ℝ), x ^ 0 * exp (-t * x ^ 2) * besselJ0 (x * r))
      (-∫ x in Ioi (0:ℝ), x ^ 1 * exp (-t * x ^ 2) * besselJ1 (x * r)) r := by
  have key := hasDerivAt_integral_of_dominated_loc_of_deriv_le (𝕜 := ℝ) (μ := volume.restrict (Ioi (0:ℝ)))
    (F := fun (r : ℝ) (x : ℝ) => x ^ 0 * exp (-t * x ^ 2) * besselJ0 (x * r))
    (F' := fun (r : ℝ) (x : ℝ) => -(x ^ 1 * exp (-t * x ^ 2) * besselJ1 (x * r))) (x₀ := r) (s := univ)
    (bound := fun x => ‖x ^ 1 * exp (-t * x ^ 2)‖) univ_mem ?_ ?_ ?_ ?_ ?_ ?_
  · exact key.2.congr_deriv (integral_neg _)
  · exact Eventually.of_forall fun y => (Continuous.mul (by fun_prop) (continuous_J0_mul y)).aestronglyMeasurable
  · exact integrableOn_gauss_mul ht 0 (continuous_J0_mul r) fun x => abs_besselJ0_le _
  · exact (Continuous.mul (by fun_prop) (continuous_J1_mul r)).neg.aestronglyMeasurable
  · refine Eventually.of_forall fun x y _ => ?_
    rw [norm_neg, norm_mul]
    exact mul_le_of_le_one_right (norm_nonneg _) (abs_besselJ1_le _)
  · exact (integrableOn_pow_gauss ht 1).norm
  · refine Eventually.of_forall fun x y _ => ?_
    have h : HasDerivAt (fun y => besselJ0 (x * y)) (-(x * besselJ1 (x * y))) y := by
      have := (hasDerivAt_besselJ0 (x * y)).comp y ((hasDerivAt_id y).const_mul x)
      exact this.congr_deriv (by ring)
    exact (h.const_mul (x ^ 0 * exp (-t * x ^ 2))).congr_deriv (by ring)

/-- `∫ x e^{-tx²} J_1(rx) dx` -/
theorem weberHalf_one (ht : 0 < t) (r : ℝ) :
    ∫ x in Ioi (0:ℝ), x ^ 1 * exp (-t * x ^ 2) * besselJ1 (x * r)
      = √(π / t) / 2 * (r / (4 * t)) * (ie 0 (r ^ 2 / (8 * t)) - ie 1 (r ^ 2 / (8 * t))) := by
  have h1 := hasDerivAt_weberHalf ht r
  have hw : HasDerivAt (fun r : ℝ => r ^ 2 / (8 * t)) (2 * r / (8 * t)) r := by
    simpa using (hasDerivAt_pow 2 r).div_const (8 * t)
  have h2 : HasDerivAt (fun r => √(π / t) / 2 * ie 0 (r ^ 2 / (8 * t))) _ r :=
    (HasDerivAt.comp r (h₂ := ie 0) (h := fun r : ℝ => r ^ 2 / (8 * t)) (hasDerivAt_ie_zero _) hw).const_mul (√(π / t) / 2)
  have e : (fun r => ∫ x in Ioi (0:ℝ), x ^ 0 * exp (-t * x ^ 2) * besselJ0 (x * r)) = fun r => √(π / t) / 2 * ie 0 (r ^ 2 / (8 * t)) :=
    funext fun r => weberHalf_zero ht r
  rw [e] at h1
  have h3 := h1.unique h2
  rw [neg_eq_iff_eq_neg.1 h3]
  field_simp
  ring

/-- `∫ x² e^{-tx²} J_0(rx) dx` -/
theorem weberHalf_two (ht : 0 < t) (r : ℝ) :
    2 * t * ∫ x in Ioi (0:ℝ), x ^ 2 * exp (-t * x ^ 2) * besselJ0 (x * r)
      = (∫ x in Ioi (0:ℝ), x ^ 0 * exp (-t * x ^ 2) * besselJ0 (x * r)) - r * ∫ x in Ioi (0:ℝ), x ^ 1 * exp (-t * x ^ 2) * besselJ1 (x * r) := by
  have i0 := integrableOn_gauss_mul ht 0 (continuous_J0_mul r) (fun x => abs_besselJ0_le _)
  have i1 := integrableOn_gauss_mul ht 1 (continuous_J1_mul r) (fun x => abs_besselJ1_le _)
  have i2 := integrableOn_gauss_mul ht 2 (continuous_J0_mul r) (fun x => abs_besselJ0_le _)
  have e1 : ∀ x : ℝ, x ^ 2 * exp (-t * x ^ 2) * besselJ0 (x * r) = x * exp (-t * x ^ 2) * (x * besselJ0 (x * r)) := fun x => by ring
  have e2 : ∀ x : ℝ, exp (-t * x ^ 2) * (besselJ0 (x * r) + x * -(r * besselJ1 (x * r)))
    = x ^ 0 * exp (-t * x ^ 2) * besselJ0 (x * r) - r * (x ^ 1 * exp (-t * x ^ 2) * besselJ1 (x * r)) := fun x => by ring
  have h := gauss_parts ht (g := fun x => x * besselJ0 (x * r)) (g' := fun x => besselJ0 (x * r) + x * -(r * besselJ1 (x * r)))
    (fun x => ((hasDerivAt_id x).fun_mul (hasDerivAt_J0_mul r x)).congr_deriv
      (by simp)) (by simp) (n := 1) (C := 1) (fun x hx => by
      rw [abs_mul, abs_of_nonneg hx, one_mul, pow_one]
      exact mul_le_of_le_one_right hx (abs_besselJ0_le _)) ?_ ?_
  · simp only [← e1, e2] at h
    rw [integral_sub i0 (i1.const_mul r), integral_const_mul] at h
    exact h
  · simp only [← e1]; exact i2
  · simp only [e2]; exact i0.sub (i1.const_mul r)

/-- `∫ x³ e^{-tx²} J_1(rx) dx` -/
theorem weberHalf_three (ht : 0 < t) (r : ℝ) :
    2 * t * ∫ x in Ioi (0:ℝ), x ^ 3 * exp (-t * x ^ 2) * besselJ1 (x * r)
      = (∫ x in Ioi (0:ℝ), x ^ 1 * exp (-t * x ^ 2) * besselJ1 (x * r)) + r * ∫ x in Ioi (0:ℝ), x ^ 2 * exp (-t * x ^ 2) * besselJ0 (x * r) := by
  have i1 := integrableOn_gauss_mul ht 1 (continuous_J1_mul r) (fun x => abs_besselJ1_le _)
  have i2 := integrableOn_gauss_mul ht 2 (continuous_J0_mul r) (fun x => abs_besselJ0_le _)
  have i3 := integrableOn_gauss_mul ht 3 (continuous_J1_mul r) (fun x => abs_besselJ1_le _)
  have e1 : ∀ x : ℝ, x ^ 3 * exp (-t * x ^ 2) * besselJ1 (x * r) = x * exp (-t * x ^ 2) * (x * (x * besselJ1 (x * r))) := fun x => by ring
  have e2 : ∀ x : ℝ, exp (-t * x ^ 2) * (x * besselJ1 (x * r) + x * (x * r * besselJ0 (x * r)))
    = x ^ 1 * exp (-t * x ^ 2) * besselJ1 (x * r) + r * (x ^ 2 * exp (-t * x ^ 2) * besselJ0 (x * r)) := fun x => by ring
  have h := gauss_parts ht (g := fun x => x * (x * besselJ1 (x * r))) (g' := fun x => x * besselJ1 (x * r) + x * (x * r * besselJ0 (x * r)))
    (fun x => ((hasDerivAt_id x).fun_mul (hasDerivAt_mul_J1 r x)).congr_deriv
      (by simp)) (by simp) (n := 2) (C := 1) (fun x hx => by
      rw [abs_mul, abs_mul, abs_of_nonneg hx, one_mul, sq, ← mul_assoc]
      exact mul_le_of_le_one_right (by positivity) (abs_besselJ1_le _)) ?_ ?_
  · simp only [← e1, e2] at h
    rw [integral_add i1 (i2.const_mul r), integral_const_mul] at h
    exact h
  · simp only [← e1]; exact i3
  · simp only [e2]; exact i1.add (i2.const_mul r)

end Verif
