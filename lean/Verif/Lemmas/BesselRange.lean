import Verif.Lemmas.BesselProduct
import Mathlib.Analysis.Complex.ExponentialBounds

/-! # How large and how small the modified Bessel functions are (helper lemmas for C138) -/

namespace Verif.BesselIK

open Real MeasureTheory Set Filter Topology

/-- `|I_n(z)| ≤ exp(Re z)` -/
theorem norm_I_le (n : ℕ) {z : ℂ} (hz : 0 ≤ z.re) : ‖cbesselI n z‖ ≤ exp z.re := by
  have h := intervalIntegral.norm_integral_le_of_norm_le_const (a := 0) (b := π) (C := exp z.re)
    (f := fun t : ℝ => Complex.exp (z * (cos t : ℝ)) * ((cos (n * t) : ℝ) : ℂ)) fun t _ => by
      rw [norm_mul, Complex.norm_exp, Complex.norm_real, norm_eq_abs]
      have : (z * ((cos t : ℝ) : ℂ)).re = z.re * cos t := Complex.re_mul_ofReal _ _
      rw [this]
      calc exp (z.re * cos t) * |cos (n * t)| ≤ exp z.re * 1 :=
            mul_le_mul (exp_le_exp.2 (mul_le_of_le_one_right hz (cos_le_one t))) (abs_cos_le_one _) (abs_nonneg _) (exp_pos _).le
        _ = _ := mul_one _
  rw [sub_zero, abs_of_pos pi_pos] at h
  rw [cbesselI, norm_mul, norm_div, norm_one, Complex.norm_real, norm_of_nonneg pi_pos.le, one_div, inv_mul_le_iff₀ pi_pos, mul_comm]
  exact h

/-- `|K_n(z)| ≤ 2 exp(4 - Re z)` for `n ≤ 2`, `Re z ≥ 1` -/
theorem norm_K_le {n : ℕ} (hn : n ≤ 2) {z : ℂ} (hz : 1 ≤ z.re) : ‖cbesselK n z‖ ≤ 2 * exp (4 - z.re) := by
  have hg : IntegrableOn (fun u : ℝ => exp (4 - z.re) * exp (-(1 / 4) * u ^ 2)) (Ioi 0) :=
    ((integrable_exp_neg_mul_sq (b := 1 / 4) (by norm_num)).const_mul _).integrableOn
  have h := norm_integral_le_of_norm_le (μ := volume.restrict (Ioi 0)) hg
    (f := fun t : ℝ => Complex.exp (-z * (cosh t : ℝ)) * ((cosh (n * t) : ℝ) : ℂ))
    ((ae_restrict_iff' measurableSet_Ioi).2 (ae_of_all _ fun u (hu : 0 < u) => by
      rw [norm_mul, norm_cexp_cosh, Complex.norm_real, norm_of_nonneg (cosh_pos _).le]
      have h1 := cosh_le_gauss one_pos n u
      have h2 := half_sq_le_cosh hu.le
      have h3 : ((n : ℝ)) ^ 2 ≤ 4 := by
        have : (n : ℝ) ≤ 2 := by exact_mod_cast hn
        nlinarith [(Nat.cast_nonneg n : (0 : ℝ) ≤ n)]
      calc exp (-(z.re * cosh u)) * cosh (n * u) ≤ exp (-(z.re * cosh u)) * (exp ((n : ℝ) ^ 2 / 1) * exp (1 / 4 * u ^ 2)) := by gcongr
        _ = exp (-(z.re * cosh u) + (n : ℝ) ^ 2 + 1 / 4 * u ^ 2) := by rw [exp_add, exp_add, div_one]; ring
        _ ≤ exp (4 - z.re + -(1 / 4) * u ^ 2) := exp_le_exp.2 (by nlinarith [sq_nonneg u])
        _ = _ := exp_add _ _))
  refine h.trans ?_
  rw [integral_const_mul, integral_gaussian_Ioi, mul_comm]
  gcongr
  have : √(π / (1 / 4)) ≤ 4 := by
    rw [sqrt_le_left (by norm_num)]
    linarith [pi_le_four]
  linarith

/-- The Wronskian: `z (I₁ K₂ + I₂ K₁) = 1` -/
theorem wronskian {z : ℂ} (hz : 0 < z.re) : z * (cbesselI 1 z * cbesselK 2 z + cbesselI 2 z * cbesselK 1 z) = 1 := by
  set f : ℂ → ℂ := fun z => z * (cbesselI 1 z * cbesselK 2 z + cbesselI 2 z * cbesselK 1 z) with hf
  have hd : ∀ w ∈ {z : ℂ | 0 < z.re}, HasDerivAt f 0 w := fun w hw => by
    have hw0 := ne_of_re hw
    refine ((hasDerivAt_id w).mul (((hasDerivAt_cbesselI_one hw0).mul (hasDerivAt_cbesselK_two hw)).add
      ((hasDerivAt_cbesselI_two hw0).mul (hasDerivAt_cbesselK_one hw)))).congr_deriv ?_
    simp only [id, Pi.add_apply, Pi.mul_apply]
    field_simp
    ring
  have ho : IsOpen {z : ℂ | 0 < z.re} := isOpen_lt continuous_const Complex.continuous_re
  have hc : Convex ℝ {z : ℂ | 0 < z.re} := convex_halfSpace_re_gt 0
  have hconst : ∀ w ∈ {z : ℂ | 0 < z.re}, f w = f z := fun w hw =>
    ho.is_const_of_deriv_eq_zero hc.isPreconnected (fun x hx => (hd x hx).differentiableAt.differentiableWithinAt) (fun x hx => (hd x hx).deriv) hw hz
  have hlim : Tendsto f (𝓝[{z : ℂ | 0 < z.re}] 0) (𝓝 1) := by
    have hz0 : Tendsto (fun z : ℂ => z) (𝓝[{z : ℂ | 0 < z.re}] 0) (𝓝 0) := nhdsWithin_le_nhds
    have h1 := (tendsto_I1_div.mono_left nhdsWithin_le_nhds).mul tendsto_K2
    have h2 := (hz0.pow 2).mul ((tendsto_I2_div.mono_left nhdsWithin_le_nhds).mul tendsto_K1)
    have := h1.add h2
    rw [show (1 : ℂ) / 2 * 2 + 0 ^ 2 * (1 / 8 * 1) = 1 by norm_num] at this
    refine this.congr fun z => ?_
    rw [hf]
    simp only
    rw [I1_eq, I2_eq]
    ring
  have : (𝓝[{z : ℂ | 0 < z.re}] (0 : ℂ)).NeBot := tendsto_ofReal_right.neBot
  refine tendsto_nhds_unique (Tendsto.congr' ?_ tendsto_const_nhds) hlim
  filter_upwards [self_mem_nhdsWithin] with w hw
  exact (hconst w hw).symm

set_option exponentiation.threshold 2000 in
theorem exp_large {a : ℝ} (ha : 756 ≤ a) : (2 : ℝ) ^ 1080 ≤ exp a := by
  have h1 : (27 / 10 : ℝ) ≤ exp 1 := by linarith [exp_one_gt_d9]
  calc (2 : ℝ) ^ 1080 ≤ (27 / 10) ^ 756 := by norm_num
    _ ≤ exp 1 ^ 756 := by gcongr
    _ = exp 756 := by rw [← exp_nat_mul]; norm_num
    _ ≤ _ := exp_le_exp.2 ha

set_option exponentiation.threshold 2000 in
theorem exp_small {a : ℝ} (ha : a ≤ 693) : exp a ≤ (2 : ℝ) ^ 1000 := by
  have h1 : exp 1 ≤ (2718281829 / 1000000000 : ℝ) := by linarith [exp_one_lt_d9]
  calc exp a ≤ exp 693 := exp_le_exp.2 ha
    _ = exp 1 ^ 693 := by rw [← exp_nat_mul]; norm_num
    _ ≤ (2718281829 / 1000000000) ^ 693 := by gcongr
    _ ≤ _ := by norm_num

set_option exponentiation.threshold 2000 in
/-- Far to the right `K₁` and `K₂` are too small for double precision. -/
theorem K_tiny {n : ℕ} (hn : n ≤ 2) {z : ℂ} (hz : 760 ≤ z.re) : ‖cbesselK n z‖ ≤ 1 / 2 ^ 1076 := by
  refine (norm_K_le hn (by linarith)).trans ?_
  have h := exp_large (a := z.re - 4) (by linarith)
  rw [show 4 - z.re = -(z.re - 4) by ring, exp_neg, le_div_iff₀ (by positivity), ← div_eq_mul_inv, div_mul_eq_mul_div, div_le_one (exp_pos _)]
  exact le_trans (by norm_num) h

set_option exponentiation.threshold 2000 in
/-- There `I₁` or `I₂` is too large. -/
theorem I_big {z : ℂ} (hz : 760 ≤ z.re) (hn : ‖z‖ ≤ 10 ^ 6) : 2 * 2 ^ 1024 ≤ ‖cbesselI 1 z‖ ∨ 2 * 2 ^ 1024 ≤ ‖cbesselI 2 z‖ := by
  by_contra hc
  push Not at hc
  have h1 := congrArg norm (wronskian (z := z) (by linarith))
  rw [norm_mul, norm_one] at h1
  have h2 := norm_add_le (cbesselI 1 z * cbesselK 2 z) (cbesselI 2 z * cbesselK 1 z)
  rw [norm_mul, norm_mul] at h2
  have e := exp_large (a := z.re - 4) (by linarith)
  have hk : ∀ n ≤ 2, ‖cbesselK n z‖ ≤ 2 / 2 ^ 1080 := fun n hn => by
    refine (norm_K_le hn (by linarith)).trans ?_
    rw [show 4 - z.re = -(z.re - 4) by ring, exp_neg, ← div_eq_mul_inv]
    gcongr
  have h3 : ‖cbesselI 1 z‖ * ‖cbesselK 2 z‖ ≤ 2 * 2 ^ 1024 * (2 / 2 ^ 1080) := by
    gcongr
    · exact hc.1.le
    · exact hk 2 le_rfl
  have h4 : ‖cbesselI 2 z‖ * ‖cbesselK 1 z‖ ≤ 2 * 2 ^ 1024 * (2 / 2 ^ 1080) := by
    gcongr
    · exact hc.2.le
    · exact hk 1 one_le_two
  have h5 : ‖z‖ * ‖cbesselI 1 z * cbesselK 2 z + cbesselI 2 z * cbesselK 1 z‖ ≤ 10 ^ 6 * (2 * 2 ^ 1024 * (2 / 2 ^ 1080) + 2 * 2 ^ 1024 * (2 / 2 ^ 1080)) := by
    gcongr
    linarith
  rw [h1] at h5
  norm_num at h5

end Verif.BesselIK
