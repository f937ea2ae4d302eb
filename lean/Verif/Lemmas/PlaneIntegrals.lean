import Mathlib.Analysis.SpecialFunctions.ImproperIntegrals
import Mathlib.Analysis.SpecialFunctions.Sqrt

/-! # Integrals over the line and over a plane (helper lemmas) -/

namespace Verif.Elastic

open Real MeasureTheory Filter Topology

theorem integral_line {g g' : ℝ → ℝ} {m n : ℝ} (hd : ∀ x, HasDerivAt g (g' x) x) (hc : Continuous g') (h0 : ∀ x, 0 ≤ g' x)
    (hbot : Tendsto g atBot (𝓝 m)) (htop : Tendsto g atTop (𝓝 n)) : ∫ x, g' x = n - m := by
  refine integral_of_hasDerivAt_of_tendsto hd ?_ hbot htop
  refine integrable_of_intervalIntegral_norm_tendsto (l := atTop) (a := fun i : ℝ => -i) (b := fun i : ℝ => i) (n - m) ?_
    tendsto_neg_atTop_atBot tendsto_id ?_
  · exact fun i => (hc.integrableOn_Icc).mono_set Set.Ioc_subset_Icc_self
  · have e : (fun i : ℝ => ∫ x in -i..i, ‖g' x‖) = fun i => g i - g (-i) := by
      funext i
      simp only [norm_of_nonneg (h0 _)]
      exact intervalIntegral.integral_eq_sub_of_hasDerivAt (fun x _ => hd x) (hc.intervalIntegrable _ _)
    rw [e]
    exact htop.sub (hbot.comp tendsto_neg_atTop_atBot)

/-- The integral of an odd function. -/
theorem integral_odd {f : ℝ → ℝ} (h : ∀ x, f (-x) = -f x) : ∫ x, f x = 0 := by
  have h1 := integral_neg_eq_self f volume
  simp only [h, integral_neg] at h1
  linarith

section line

variable {A : ℝ}

theorem deriv_ratio (hA : 0 < A) (y : ℝ) : HasDerivAt (fun y => y * (√(A + y ^ 2))⁻¹) (A * (√(A + y ^ 2))⁻¹ ^ 3) y := by
  have hp : 0 < A + y ^ 2 := by positivity
  have hs : 0 < √(A + y ^ 2) := sqrt_pos.2 hp
  have hq : HasDerivAt (fun y : ℝ => A + y ^ 2) (2 * y) y := by simpa using ((hasDerivAt_id y).pow 2).const_add A
  refine ((hasDerivAt_id y).fun_mul ((hq.sqrt hp.ne').fun_inv hs.ne')).congr_deriv ?_
  have h2 : √(A + y ^ 2) ^ 2 = A + y ^ 2 := sq_sqrt hp.le
  simp only [id]
  generalize √(A + y ^ 2) = R at *
  field_simp
  linear_combination h2

theorem ratio_sq (hA : 0 < A) (y : ℝ) : (y * (√(A + y ^ 2))⁻¹) ^ 2 = 1 - A * (√(A + y ^ 2))⁻¹ ^ 2 := by
  have hp : 0 < A + y ^ 2 := by positivity
  have hs : 0 < √(A + y ^ 2) := sqrt_pos.2 hp
  have h2 : √(A + y ^ 2) ^ 2 = A + y ^ 2 := sq_sqrt hp.le
  generalize √(A + y ^ 2) = R at *
  field_simp
  linear_combination -h2

theorem tendsto_ratio_top (hA : 0 < A) : Tendsto (fun y : ℝ => y * (√(A + y ^ 2))⁻¹) atTop (𝓝 1) := by
  have h1 : Tendsto (fun y : ℝ => √(1 - A * (A + y ^ 2)⁻¹)) atTop (𝓝 (√(1 - A * 0))) := by
    refine (continuous_sqrt.tendsto _).comp (tendsto_const_nhds.sub (tendsto_const_nhds.mul (tendsto_inv_atTop_zero.comp ?_)))
    exact tendsto_atTop_add_const_left _ _ (tendsto_pow_atTop (by norm_num))
  simp only [mul_zero, sub_zero, sqrt_one] at h1
  refine h1.congr' ?_
  filter_upwards [eventually_ge_atTop 0] with y hy
  have hp : 0 < A + y ^ 2 := by positivity
  have h2 := ratio_sq hA y
  rw [inv_pow, sq_sqrt hp.le] at h2
  rw [← h2, sqrt_sq (by positivity)]

theorem tendsto_ratio_bot (hA : 0 < A) : Tendsto (fun y : ℝ => y * (√(A + y ^ 2))⁻¹) atBot (𝓝 (-1)) := by
  have := ((tendsto_ratio_top hA).comp tendsto_neg_atBot_atTop).neg
  refine this.congr fun y => ?_
  simp [Function.comp]

theorem continuous_inv_sqrt (hA : 0 < A) : Continuous fun y : ℝ => (√(A + y ^ 2))⁻¹ := by
  refine Continuous.inv₀ (by fun_prop) fun y => ?_
  have hp : 0 < A + y ^ 2 := by positivity
  exact (sqrt_pos.2 hp).ne'

theorem integral_inv5 (hA : 0 < A) : ∫ y, (√(A + y ^ 2))⁻¹ ^ 5 = 4 / (3 * A ^ 2) := by
  have hd : ∀ y, HasDerivAt (fun y => (y * (√(A + y ^ 2))⁻¹ - (y * (√(A + y ^ 2))⁻¹) ^ 3 / 3) / A ^ 2) ((√(A + y ^ 2))⁻¹ ^ 5) y := by
    intro y
    have h := deriv_ratio hA y
    refine ((h.fun_sub ((h.fun_pow 3).div_const 3)).div_const (A ^ 2)).congr_deriv ?_
    have h2 := ratio_sq hA y
    push_cast
    generalize y * (√(A + y ^ 2))⁻¹ = t at *
    generalize (√(A + y ^ 2))⁻¹ = u at *
    field_simp
    rw [h2]; ring
  have t1 := tendsto_ratio_top hA
  have t2 := tendsto_ratio_bot hA
  rw [integral_line hd ((continuous_inv_sqrt hA).pow 5) (fun y => by positivity) ((t2.sub ((t2.pow 3).div_const 3)).div_const (A ^ 2))
    ((t1.sub ((t1.pow 3).div_const 3)).div_const (A ^ 2))]
  field_simp
  norm_num

theorem integral_sq_inv5 (hA : 0 < A) : ∫ y, y ^ 2 * (√(A + y ^ 2))⁻¹ ^ 5 = 2 / (3 * A) := by
  have hd : ∀ y, HasDerivAt (fun y => (y * (√(A + y ^ 2))⁻¹) ^ 3 / (3 * A)) (y ^ 2 * (√(A + y ^ 2))⁻¹ ^ 5) y := by
    intro y
    have h := deriv_ratio hA y
    refine ((h.fun_pow 3).div_const (3 * A)).congr_deriv ?_
    push_cast
    generalize (√(A + y ^ 2))⁻¹ = u at *
    field_simp
  have t1 := tendsto_ratio_top hA
  have t2 := tendsto_ratio_bot hA
  rw [integral_line hd ((continuous_pow 2).mul ((continuous_inv_sqrt hA).pow 5)) (fun y => by positivity) ((t2.pow 3).div_const (3 * A))
    ((t1.pow 3).div_const (3 * A))]
  field_simp
  norm_num

theorem integral_odd_inv5 : ∫ y, y * (√(A + y ^ 2))⁻¹ ^ 5 = 0 := integral_odd fun y => by simp

end line

section plane

variable {h : ℝ}

theorem tendsto_atan (hh : 0 < h) : Tendsto (fun x : ℝ => arctan (x / h)) atTop (𝓝 (π / 2)) ∧
    Tendsto (fun x : ℝ => arctan (x / h)) atBot (𝓝 (-(π / 2))) :=
  ⟨(tendsto_nhds_of_tendsto_nhdsWithin tendsto_arctan_atTop).comp (tendsto_id.atTop_div_const hh),
   (tendsto_nhds_of_tendsto_nhdsWithin tendsto_arctan_atBot).comp (tendsto_id.atBot_div_const hh)⟩

theorem deriv_atan (hh : 0 < h) (x : ℝ) : HasDerivAt (fun x : ℝ => arctan (x / h)) (h / (x ^ 2 + h ^ 2)) x := by
  refine (((hasDerivAt_id x).div_const h).arctan).congr_deriv ?_
  have : x ^ 2 + h ^ 2 ≠ 0 := by positivity
  simp only [id]
  have e : 1 + (x / h) ^ 2 = (x ^ 2 + h ^ 2) / h ^ 2 := by field_simp; ring
  rw [e]
  field_simp

theorem tendsto_frac (hh : 0 < h) : Tendsto (fun x : ℝ => x / (x ^ 2 + h ^ 2)) atTop (𝓝 0) ∧
    Tendsto (fun x : ℝ => x / (x ^ 2 + h ^ 2)) atBot (𝓝 0) := by
  have h1 : Tendsto (fun x : ℝ => x / (x ^ 2 + h ^ 2)) atTop (𝓝 0) := by
    refine squeeze_zero' (g := fun x : ℝ => x⁻¹) ?_ ?_ tendsto_inv_atTop_zero
    · filter_upwards [eventually_gt_atTop 0] with x hx
      positivity
    · filter_upwards [eventually_gt_atTop 0] with x hx
      rw [div_le_iff₀ (by positivity)]
      have : x⁻¹ * (x ^ 2 + h ^ 2) = x + h ^ 2 / x := by field_simp
      rw [this]
      have : 0 < h ^ 2 / x := by positivity
      linarith
  refine ⟨h1, ?_⟩
  have := (h1.comp tendsto_neg_atBot_atTop).neg
  rw [neg_zero] at this
  refine this.congr fun x => ?_
  simp only [Function.comp, neg_sq]
  ring

theorem deriv_frac (hh : 0 < h) (x : ℝ) : HasDerivAt (fun x : ℝ => x / (x ^ 2 + h ^ 2)) ((h ^ 2 - x ^ 2) / (x ^ 2 + h ^ 2) ^ 2) x := by
  have hq : HasDerivAt (fun x : ℝ => x ^ 2 + h ^ 2) (2 * x) x := by simpa using ((hasDerivAt_id x).pow 2).add_const (h ^ 2)
  refine ((hasDerivAt_id x).fun_div hq (by positivity)).congr_deriv ?_
  simp only [id]
  congr 1
  ring

theorem continuous_inv_sq (hh : 0 < h) (n : ℕ) : Continuous fun x : ℝ => 1 / (x ^ 2 + h ^ 2) ^ n :=
  Continuous.div₀ (by fun_prop) (by fun_prop) fun x => by positivity

theorem integral_inv_sq (hh : 0 < h) : ∫ x, 1 / (x ^ 2 + h ^ 2) ^ 2 = π / (2 * h ^ 3) := by
  obtain ⟨a1, a2⟩ := tendsto_atan hh
  obtain ⟨b1, b2⟩ := tendsto_frac hh
  have hd : ∀ x, HasDerivAt (fun x : ℝ => (x / (x ^ 2 + h ^ 2)) / (2 * h ^ 2) + arctan (x / h) / (2 * h ^ 3)) (1 / (x ^ 2 + h ^ 2) ^ 2) x := by
    intro x
    refine (((deriv_frac hh x).div_const _).fun_add ((deriv_atan hh x).div_const _)).congr_deriv ?_
    have : x ^ 2 + h ^ 2 ≠ 0 := by positivity
    field_simp
    ring
  rw [integral_line hd (continuous_inv_sq hh 2) (fun x => by positivity) ((b2.div_const _).add (a2.div_const _))
    ((b1.div_const _).add (a1.div_const _))]
  field_simp
  ring

theorem integral_frac_sq (hh : 0 < h) : ∫ x, x ^ 2 * (1 / (x ^ 2 + h ^ 2) ^ 2) = π / (2 * h) := by
  obtain ⟨a1, a2⟩ := tendsto_atan hh
  obtain ⟨b1, b2⟩ := tendsto_frac hh
  have hd : ∀ x, HasDerivAt (fun x : ℝ => arctan (x / h) / (2 * h) - (x / (x ^ 2 + h ^ 2)) / 2) (x ^ 2 * (1 / (x ^ 2 + h ^ 2) ^ 2)) x := by
    intro x
    refine (((deriv_atan hh x).div_const _).fun_sub ((deriv_frac hh x).div_const _)).congr_deriv ?_
    have : x ^ 2 + h ^ 2 ≠ 0 := by positivity
    field_simp
    ring
  rw [integral_line hd ((continuous_pow 2).mul (continuous_inv_sq hh 2)) (fun x => by positivity) ((a2.div_const _).sub (b2.div_const _))
    ((a1.div_const _).sub (b1.div_const _))]
  field_simp
  ring

theorem integral_inv_one (hh : 0 < h) : ∫ x, 1 / (x ^ 2 + h ^ 2) = π / h := by
  obtain ⟨a1, a2⟩ := tendsto_atan hh
  have hd : ∀ x, HasDerivAt (fun x : ℝ => arctan (x / h) / h) (1 / (x ^ 2 + h ^ 2)) x := by
    intro x
    refine ((deriv_atan hh x).div_const _).congr_deriv ?_
    field_simp
  have hc := continuous_inv_sq hh 1
  simp only [pow_one] at hc
  rw [integral_line hd hc (fun x => by positivity) (a2.div_const _) (a1.div_const _)]
  field_simp
  ring

end plane

end Verif.Elastic
