import Verif.Lemmas.Weber
import Mathlib.Analysis.Calculus.MeanValue

/-! # Lipschitz's integral (helper lemmas) -/

namespace Verif

open Real Filter MeasureTheory Set
open scoped Topology

variable {r z : ℝ}

theorem integrableOn_pow_exp (hz : 0 < z) (n : ℕ) : IntegrableOn (fun x : ℝ => x ^ n * exp (-z * x)) (Ioi 0) := by
  have h := integrableOn_rpow_mul_exp_neg_mul_rpow (p := 1) (s := n) (b := z)
    (by have : (0:ℝ) ≤ n := Nat.cast_nonneg n; linarith) one_pos hz
  refine h.congr_fun (fun x _ => ?_) measurableSet_Ioi
  simp [rpow_natCast]

theorem integrableOn_exp_mul (hz : 0 < z) (n : ℕ) {b : ℝ → ℝ} (hb : Continuous b) {C : ℝ} (hC : ∀ x, |b x| ≤ C) :
    IntegrableOn (fun x : ℝ => x ^ n * exp (-z * x) * b x) (Ioi 0) :=
  Integrable.mul_bdd (c := C) (integrableOn_pow_exp hz n) hb.aestronglyMeasurable (Eventually.of_forall fun x => by
    rw [norm_eq_abs]; exact hC x)

/-- Integration by parts against the exponential. -/
theorem exp_parts (hz : 0 < z) {g g' : ℝ → ℝ} (hg : ∀ x, HasDerivAt g (g' x) x)
    {n : ℕ} {C : ℝ} (hC : ∀ x, 0 ≤ x → |g x| ≤ C * x ^ n) (hi : IntegrableOn (fun x => exp (-z * x) * g x) (Ioi 0))
    (hi' : IntegrableOn (fun x => exp (-z * x) * g' x) (Ioi 0)) :
    z * ∫ x in Ioi (0:ℝ), exp (-z * x) * g x = g 0 + ∫ x in Ioi (0:ℝ), exp (-z * x) * g' x := by
  have key := integral_Ioi_of_limits (f := fun x => exp (-z * x) * g x)
    (f' := fun x => exp (-z * x) * g' x - z * (exp (-z * x) * g x)) (l := g 0) (m := 0) ?_ ?_ ?_ ?_
  · rw [integral_sub hi' (hi.const_mul _), integral_const_mul] at key
    linarith
  · have hc : ContinuousAt (fun x => exp (-z * x) * g x) 0 := ((by fun_prop : Continuous fun x : ℝ => exp (-z * x)).continuousAt).mul
      (hg 0).continuousAt
    have := hc.tendsto
    simp only [mul_zero, exp_zero, one_mul] at this
    exact this.mono_left nhdsWithin_le_nhds
  · intro x _
    have h : HasDerivAt (fun x : ℝ => exp (-z * x)) (exp (-z * x) * (-z)) x := by
      simpa using ((hasDerivAt_id x).const_mul (-z)).exp
    exact (h.mul (hg x)).congr_deriv (by ring)
  · exact hi'.sub (hi.const_mul _)
  · refine squeeze_zero_norm' (a := fun x => C * (x ^ n * exp (-z * x))) ?_ ?_
    · filter_upwards [eventually_ge_atTop 0] with x hx
      rw [norm_eq_abs, abs_mul, abs_of_pos (exp_pos _)]
      calc _ ≤ exp (-z * x) * (C * x ^ n) := mul_le_mul_of_nonneg_left (hC x hx) (exp_pos _).le
        _ = _ := by ring
    · have h := tendsto_rpow_mul_exp_neg_mul_atTop_nhds_zero n z hz
      simp only [rpow_natCast] at h
      simpa using h.const_mul C

section

variable (r z)

noncomputable def lipL : ℝ := ∫ x in Ioi (0:ℝ), x ^ 0 * exp (-z * x) * besselJ0 (x * r)
noncomputable def lipM : ℝ := ∫ x in Ioi (0:ℝ), x ^ 0 * exp (-z * x) * besselJ1 (x * r)
noncomputable def lipL1 : ℝ := ∫ x in Ioi (0:ℝ), x ^ 1 * exp (-z * x) * besselJ0 (x * r)
noncomputable def lipM1 : ℝ := ∫ x in Ioi (0:ℝ), x ^ 1 * exp (-z * x) * besselJ1 (x * r)

end

theorem int_J0 (hz : 0 < z) (n : ℕ) : IntegrableOn (fun x : ℝ => x ^ n * exp (-z * x) * besselJ0 (x * r)) (Ioi 0) :=
  integrableOn_exp_mul hz n (continuous_J0_mul r) fun _ => abs_besselJ0_le _

theorem int_J1 (hz : 0 < z) (n : ℕ) : IntegrableOn (fun x : ℝ => x ^ n * exp (-z * x) * besselJ1 (x * r)) (Ioi 0) :=
  integrableOn_exp_mul hz n (continuous_J1_mul r) fun _ => abs_besselJ1_le _

theorem lip_parts_zero (hz : 0 < z) : z * lipL r z = 1 - r * lipM r z := by
  have e1 : ∀ x : ℝ, exp (-z * x) * besselJ0 (x * r) = x ^ 0 * exp (-z * x) * besselJ0 (x * r) := fun x => by ring
  have e2 : ∀ x : ℝ, exp (-z * x) * -(r * besselJ1 (x * r)) = -(r * (x ^ 0 * exp (-z * x) * besselJ1 (x * r))) := fun x => by ring
  have h := exp_parts hz (hasDerivAt_J0_mul r) (n := 0) (C := 1) (fun x _ => by simpa using abs_besselJ0_le _)
    (by simp only [e1]; exact int_J0 hz 0) (by simp only [e2]; exact ((int_J1 hz 0).const_mul r).neg)
  simp only [e1, e2, zero_mul, besselJ0_zero] at h
  rw [integral_neg, integral_const_mul] at h
  rw [lipL, lipM]
  linarith

theorem lip_parts_one (hz : 0 < z) : z * lipL1 r z = lipL r z - r * lipM1 r z := by
  have e1 : ∀ x : ℝ, exp (-z * x) * (x * besselJ0 (x * r)) = x ^ 1 * exp (-z * x) * besselJ0 (x * r) := fun x => by ring
  have e2 : ∀ x : ℝ, exp (-z * x) * (besselJ0 (x * r) + x * -(r * besselJ1 (x * r)))
    = x ^ 0 * exp (-z * x) * besselJ0 (x * r) - (r * (x ^ 1 * exp (-z * x) * besselJ1 (x * r))) := fun x => by ring
  have h := exp_parts hz (g := fun x => x * besselJ0 (x * r)) (g' := fun x => besselJ0 (x * r) + x * -(r * besselJ1 (x * r)))
    (fun x => ((hasDerivAt_id x).fun_mul (hasDerivAt_J0_mul r x)).congr_deriv (by simp)) (n := 1) (C := 1)
    (fun x hx => by
      rw [abs_mul, abs_of_nonneg hx, one_mul, pow_one]
      exact mul_le_of_le_one_right hx (abs_besselJ0_le _))
    (by simp only [e1]; exact int_J0 hz 1) (by simp only [e2]; exact (int_J0 hz 0).sub ((int_J1 hz 1).const_mul r))
  simp only [e1, e2, zero_mul] at h
  rw [integral_sub (int_J0 hz 0) ((int_J1 hz 1).const_mul r), integral_const_mul] at h
  rw [lipL, lipM1, lipL1]
  linarith

theorem lip_parts_two (hz : 0 < z) : z * lipM1 r z = r * lipL1 r z := by
  have e1 : ∀ x : ℝ, exp (-z * x) * (x * besselJ1 (x * r)) = x ^ 1 * exp (-z * x) * besselJ1 (x * r) := fun x => by ring
  have e2 : ∀ x : ℝ, exp (-z * x) * (x * r * besselJ0 (x * r)) = r * (x ^ 1 * exp (-z * x) * besselJ0 (x * r)) := fun x => by ring
  have h := exp_parts hz (hasDerivAt_mul_J1 r) (n := 1) (C := 1)
    (fun x hx => by
      rw [abs_mul, abs_of_nonneg hx, one_mul, pow_one]
      exact mul_le_of_le_one_right hx (abs_besselJ1_le _))
    (by simp only [e1]; exact int_J1 hz 1) (by simp only [e2]; exact (int_J0 hz 1).const_mul r)
  simp only [e1, e2, zero_mul] at h
  rw [integral_const_mul] at h
  rw [lipM1, lipL1]
  linarith

theorem hasDerivAt_lipL (hz : 0 < z) : HasDerivAt (lipL r) (-lipL1 r z) z := by
  have key := hasDerivAt_integral_of_dominated_loc_of_deriv_le (𝕜 := ℝ) (μ := volume.restrict (Ioi (0:ℝ)))
    (F := fun (z : ℝ) (x : ℝ) => x ^ 0 * exp (-z * x) * besselJ0 (x * r))
    (F' := fun (z : ℝ) (x : ℝ) => -(x ^ 1 * exp (-z * x) * besselJ0 (x * r))) (x₀ := z) (s := Ioi (z / 2))
    (bound := fun x => x ^ 1 * exp (-(z / 2) * x)) (Ioi_mem_nhds (by linarith)) ?_ ?_ ?_ ?_ ?_ ?_
  · exact key.2.congr_deriv (integral_neg _)
  · exact Eventually.of_forall fun y => (Continuous.mul (by fun_prop) (continuous_J0_mul r)).aestronglyMeasurable
  · exact int_J0 hz 0
  · exact (Continuous.mul (by fun_prop) (continuous_J0_mul r)).neg.aestronglyMeasurable
  · filter_upwards [ae_restrict_mem measurableSet_Ioi] with x hx y hy
    have hx0 : (0:ℝ) < x := hx
    have hy0 : z / 2 < y := hy
    rw [norm_neg, norm_eq_abs, abs_mul, abs_of_nonneg (by positivity)]
    refine (mul_le_of_le_one_right (by positivity) (abs_besselJ0_le _)).trans ?_
    exact mul_le_mul_of_nonneg_left (exp_le_exp.2 (by nlinarith)) (by positivity)
  · exact integrableOn_pow_exp (by linarith) 1
  · refine Eventually.of_forall fun x y _ => ?_
    have h : HasDerivAt (fun y : ℝ => exp (-y * x)) (exp (-y * x) * (-x)) y := by
      simpa using ((hasDerivAt_id y).neg.mul_const x).exp
    exact ((h.const_mul (x ^ 0)).mul_const (besselJ0 (x * r))).congr_deriv (by ring)

theorem abs_lipM_le (hz : 0 < z) : |lipM r z| ≤ 1 / z := by
  have h := norm_integral_le_of_norm_le (μ := volume.restrict (Ioi (0:ℝ))) (integrableOn_pow_exp hz 0)
    (f := fun x => x ^ 0 * exp (-z * x) * besselJ1 (x * r)) (Eventually.of_forall fun x => by
      rw [norm_eq_abs, abs_mul, pow_zero, one_mul, abs_of_pos (exp_pos _)]
      exact mul_le_of_le_one_right (exp_pos _).le (abs_besselJ1_le _))
  have e : ∫ x in Ioi (0:ℝ), x ^ 0 * exp (-z * x) = 1 / z := by
    have := integral_Ioi_of_limits (f := fun x => -(1 / z) * exp (-z * x)) (f' := fun x => x ^ 0 * exp (-z * x)) (l := -(1 / z)) (m := 0)
      ?_ (fun x _ => ?_) (integrableOn_pow_exp hz 0) ?_
    · rw [this]; ring
    · have hc : Continuous fun x : ℝ => -(1 / z) * exp (-z * x) := by fun_prop
      have := hc.tendsto 0
      simp only [mul_zero, exp_zero, mul_one] at this
      exact this.mono_left nhdsWithin_le_nhds
    · have h : HasDerivAt (fun x : ℝ => exp (-z * x)) (exp (-z * x) * (-z)) x := by
        simpa using ((hasDerivAt_id x).const_mul (-z)).exp
      exact (h.const_mul _).congr_deriv (by field_simp)
    · have h := tendsto_rpow_mul_exp_neg_mul_atTop_nhds_zero 0 z hz
      simp only [rpow_zero, one_mul] at h
      simpa using h.const_mul (-(1 / z))
  rw [e] at h
  exact h

theorem lipL_eq (hz : 0 < z) : lipL r z = 1 / √(z ^ 2 + r ^ 2) := by
  have hd : ∀ y ∈ Ioi (0:ℝ), HasDerivAt (fun y => lipL r y * √(y ^ 2 + r ^ 2)) 0 y := by
    intro y hy
    have hy0 : (0:ℝ) < y := hy
    have hp : (0:ℝ) < y ^ 2 + r ^ 2 := by positivity
    have hs : HasDerivAt (fun y : ℝ => √(y ^ 2 + r ^ 2)) (2 * y / (2 * √(y ^ 2 + r ^ 2))) y :=
      (((hasDerivAt_pow 2 y).add_const (r ^ 2)).sqrt hp.ne').congr_deriv (by simp)
    refine ((hasDerivAt_lipL hy0).fun_mul hs).congr_deriv ?_
    have h1 := lip_parts_one (r := r) hy0
    have h2 := lip_parts_two (r := r) hy0
    have h3 : y * lipL r y = (y ^ 2 + r ^ 2) * lipL1 r y := by
      have : lipL r y = y * lipL1 r y + r * lipM1 r y := by linarith
      rw [this]; linear_combination r * h2
    have hq := sqrt_pos.2 hp
    have hqq := mul_self_sqrt hp.le
    field_simp
    rw [sq (√_), hqq]
    linarith
  have hconst : ∀ y, 0 < y → lipL r y * √(y ^ 2 + r ^ 2) = lipL r z * √(z ^ 2 + r ^ 2) := fun y hy =>
    isOpen_Ioi.is_const_of_deriv_eq_zero isPreconnected_Ioi
      (f := fun y => lipL r y * √(y ^ 2 + r ^ 2)) (fun y hy => (hd y hy).differentiableAt.differentiableWithinAt)
      (fun y hy => (hd y hy).deriv) hy hz
  have hlim : Tendsto (fun y => lipL r y * √(y ^ 2 + r ^ 2)) atTop (𝓝 1) := by
    have h1 : Tendsto (fun y : ℝ => 1 - r * lipM r y) atTop (𝓝 1) := by
      have : Tendsto (fun y : ℝ => lipM r y) atTop (𝓝 0) := by
        refine squeeze_zero_norm' (a := fun y : ℝ => 1 / y) ?_ ?_
        · filter_upwards [eventually_gt_atTop 0] with y hy
          exact abs_lipM_le hy
        · simpa using tendsto_inv_atTop_zero (𝕜 := ℝ)
      simpa using (this.const_mul r).const_sub 1
    have h2 : Tendsto (fun y : ℝ => √(1 + r ^ 2 / y ^ 2)) atTop (𝓝 1) := by
      have : Tendsto (fun y : ℝ => 1 + r ^ 2 / y ^ 2) atTop (𝓝 (1 + 0)) :=
        tendsto_const_nhds.add (tendsto_const_nhds.div_atTop (tendsto_pow_atTop two_ne_zero))
      rw [add_zero] at this
      have h := (continuous_sqrt.tendsto 1).comp this
      rw [sqrt_one] at h
      exact h
    have h3 := h1.mul h2
    rw [one_mul] at h3
    refine h3.congr' ?_
    filter_upwards [eventually_gt_atTop 0] with y hy
    rw [← lip_parts_zero hy]
    have : √(y ^ 2 + r ^ 2) = y * √(1 + r ^ 2 / y ^ 2) := by
      rw [show y ^ 2 + r ^ 2 = y ^ 2 * (1 + r ^ 2 / y ^ 2) by field_simp, sqrt_mul (by positivity), sqrt_sq hy.le]
    rw [this]; ring
  have hc : Tendsto (fun y => lipL r y * √(y ^ 2 + r ^ 2)) atTop (𝓝 (lipL r z * √(z ^ 2 + r ^ 2))) := by
    refine tendsto_const_nhds.congr' ?_
    filter_upwards [eventually_gt_atTop 0] with y hy
    exact (hconst y hy).symm
  have hq : (0:ℝ) < √(z ^ 2 + r ^ 2) := sqrt_pos.2 (by positivity)
  rw [eq_div_iff hq.ne']
  exact tendsto_nhds_unique hc hlim

/-- `∫ e^{-zx} J_0(rx) dx → 1/r` as `z → 0`. -/
theorem tendsto_lipL (hr : 0 < r) : Tendsto (lipL r) (𝓝[>] 0) (𝓝 (1 / r)) := by
  have h : Tendsto (fun z : ℝ => 1 / √(z ^ 2 + r ^ 2)) (𝓝 0) (𝓝 (1 / √(0 ^ 2 + r ^ 2))) := by
    refine ContinuousAt.tendsto (f := fun z : ℝ => 1 / √(z ^ 2 + r ^ 2)) ?_
    refine ContinuousAt.div (by fun_prop) (by fun_prop) ?_
    exact (sqrt_pos.2 (by positivity)).ne'
  rw [zero_pow two_ne_zero, zero_add, sqrt_sq hr.le] at h
  refine (h.mono_left nhdsWithin_le_nhds).congr' ?_
  filter_upwards [self_mem_nhdsWithin] with z hz
  exact (lipL_eq hz).symm

theorem tendsto_z_mul_lipM (hr : 0 < r) : Tendsto (fun z => z * lipM r z) (𝓝[>] 0) (𝓝 0) := by
  have hid : Tendsto (fun z : ℝ => z) (𝓝[>] 0) (𝓝 0) := tendsto_id.mono_left nhdsWithin_le_nhds
  have h : Tendsto (fun z => z * ((1 - z * lipL r z) / r)) (𝓝[>] 0) (𝓝 (0 * ((1 - 0 * (1 / r)) / r))) :=
    hid.mul ((tendsto_const_nhds.sub (hid.mul (tendsto_lipL hr))).div_const r)
  rw [zero_mul] at h
  refine h.congr' ?_
  filter_upwards [self_mem_nhdsWithin] with z hz
  rw [lip_parts_zero hz]
  field_simp
  ring

/-- `∫ e^{-zx} J_1(rx) dx → 1/r` as `z → 0`. -/
theorem tendsto_lipM (hr : 0 < r) : Tendsto (lipM r) (𝓝[>] 0) (𝓝 (1 / r)) := by
  have hid : Tendsto (fun z : ℝ => z) (𝓝[>] 0) (𝓝 0) := tendsto_id.mono_left nhdsWithin_le_nhds
  have h : Tendsto (fun z => (1 - z * lipL r z) / r) (𝓝[>] 0) (𝓝 ((1 - 0 * (1 / r)) / r)) :=
    ((tendsto_const_nhds.sub (hid.mul (tendsto_lipL hr))).div_const r)
  rw [zero_mul, sub_zero] at h
  refine h.congr' ?_
  filter_upwards [self_mem_nhdsWithin] with z hz
  rw [lip_parts_zero hz]
  field_simp
  ring

/-- `J_1(rx)/x`. -/
noncomputable def J1div (r x : ℝ) : ℝ := besselJ1 (x * r) / x

theorem J1div_eq {x : ℝ} (hx : x ≠ 0) : J1div r x = r * besselJ0 (x * r) - r * besselJ1' (x * r) := by
  have := besselJ1_add (x * r)
  rw [J1div, div_eq_iff hx]
  linarith

theorem abs_J1div_le (r : ℝ) {x : ℝ} (hx : 0 < x) : |J1div r x| ≤ |r| := by
  rw [J1div, abs_div, abs_of_pos hx, div_le_iff₀ hx]
  refine (abs_besselJ1_le_abs _).trans ?_
  rw [abs_mul, abs_of_pos hx, mul_comm]

theorem continuousOn_J1div (r : ℝ) : ContinuousOn (J1div r) (Ioi 0) := fun _ hx =>
  ((continuous_J1_mul r).continuousAt.div continuousAt_id (ne_of_gt hx)).continuousWithinAt

/-- `∫ e^{-zx} J_1(rx)/x dx → 1` as `z → 0`. -/
theorem tendsto_lipN (hr : 0 < r) : Tendsto (fun z => ∫ x in Ioi (0:ℝ), exp (-z * x) * J1div r x) (𝓝[>] 0) (𝓝 1) := by
  have h : Tendsto (fun z => r * lipL r z - z * lipM r z) (𝓝[>] 0) (𝓝 (r * (1 / r) - 0)) :=
    ((tendsto_lipL hr).const_mul r).sub (tendsto_z_mul_lipM hr)
  rw [sub_zero, mul_one_div_cancel hr.ne'] at h
  refine h.congr' ?_
  filter_upwards [self_mem_nhdsWithin] with z hz
  have hz0 : (0:ℝ) < z := hz
  have iN : IntegrableOn (fun x => exp (-z * x) * J1div r x) (Ioi 0) := by
    refine Integrable.mul_bdd (c := |r|) (by have := integrableOn_pow_exp hz0 0; simp only [pow_zero, one_mul] at this; exact this) ((continuousOn_J1div r).aestronglyMeasurable measurableSet_Ioi) ?_
    filter_upwards [ae_restrict_mem measurableSet_Ioi] with x hx
    exact abs_J1div_le r hx
  have e1 : ∀ x : ℝ, exp (-z * x) * besselJ1 (x * r) = x ^ 0 * exp (-z * x) * besselJ1 (x * r) := fun x => by ring
  have e2 : ∀ x ∈ Ioi (0:ℝ), exp (-z * x) * (r * besselJ1' (x * r))
    = r * (x ^ 0 * exp (-z * x) * besselJ0 (x * r)) - exp (-z * x) * J1div r x := fun x hx => by
    rw [J1div_eq (ne_of_gt hx)]; ring
  have hp := exp_parts hz0 (hasDerivAt_J1_mul r) (n := 0) (C := 1) (fun x _ => by simpa using abs_besselJ1_le _)
    (by simp only [e1]; exact int_J1 hz0 0)
    (IntegrableOn.congr_fun (((int_J0 hz0 0).const_mul r).sub iN) (fun x hx => (e2 x hx).symm) measurableSet_Ioi)
  rw [setIntegral_congr_fun measurableSet_Ioi e2, integral_sub ((int_J0 hz0 0).const_mul r) iN, integral_const_mul, zero_mul, besselJ1_zero] at hp
  simp only [e1] at hp
  rw [lipL, lipM]
  linarith

end Verif
