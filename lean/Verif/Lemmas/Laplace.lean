import Verif.Lemmas.Transient
import Mathlib.Analysis.Calculus.ParametricIntegral
import Mathlib.Analysis.Complex.CauchyIntegral
import Mathlib.Analysis.Analytic.Uniqueness
import Mathlib.Analysis.SpecialFunctions.ImproperIntegrals
import Mathlib.Analysis.Convex.Topology

/-! # Laplace transforms of the diffusive transients (helper lemmas) -/

namespace Verif

open Real Filter MeasureTheory Set
open scoped Topology

/-- The fundamental theorem of calculus on `(0, ∞)` for a function with limits at both ends. -/
theorem integral_Ioi_of_limits {E : Type*} [NormedAddCommGroup E] [NormedSpace ℝ E] [CompleteSpace E] {f f' : ℝ → E} {l m : E}
    (h0 : Tendsto f (𝓝[>] 0) (𝓝 l)) (hd : ∀ t, 0 < t → HasDerivAt f (f' t) t) (hi : IntegrableOn f' (Ioi 0))
    (hm : Tendsto f atTop (𝓝 m)) : ∫ t in Ioi 0, f' t = m - l := by
  have key := integral_Ioi_of_hasDerivAt_of_tendsto (f := Function.update f 0 l) (f' := f') (a := 0) (m := m) ?_ ?_ hi ?_
  · simpa using key
  · rw [← Ioi_union_left, continuousWithinAt_union]
    refine ⟨?_, by simp [continuousWithinAt_singleton]⟩
    rw [ContinuousWithinAt, Function.update_self]
    refine h0.congr' ?_
    filter_upwards [self_mem_nhdsWithin] with t ht
    rw [Function.update_of_ne (ne_of_gt ht)]
  · intro t ht
    refine (hd t ht).congr_of_eventuallyEq ?_
    filter_upwards [isOpen_ne.mem_nhds (ne_of_gt ht)] with u hu
    rw [Function.update_of_ne hu]
  · refine hm.congr' ?_
    filter_upwards [eventually_gt_atTop 0] with t ht
    rw [Function.update_of_ne (ne_of_gt ht)]

section Continuation

variable {w : ℝ → ℝ}

theorem norm_weight_exp (s : ℂ) (t : ℝ) : ‖(w t : ℂ) * Complex.exp (-s * t)‖ = |w t| * exp (-s.re * t) := by
  rw [norm_mul, Complex.norm_real, Complex.norm_exp, norm_eq_abs]; simp

theorem aesm_weight_exp (hw : IntegrableOn w (Ioi 0)) (s : ℂ) :
    AEStronglyMeasurable (fun t : ℝ => (w t : ℂ) * Complex.exp (-s * t)) (volume.restrict (Ioi 0)) :=
  (Complex.continuous_ofReal.comp_aestronglyMeasurable hw.aestronglyMeasurable).mul
    (by fun_prop : Continuous fun t : ℝ => Complex.exp (-s * t)).aestronglyMeasurable

theorem weight_exp_integrable (hw : IntegrableOn w (Ioi 0)) {s : ℂ} (hs : 0 ≤ s.re) :
    IntegrableOn (fun t : ℝ => (w t : ℂ) * Complex.exp (-s * t)) (Ioi 0) := by
  refine Integrable.mono hw (aesm_weight_exp hw s) ?_
  filter_upwards [ae_restrict_mem measurableSet_Ioi] with t ht
  rw [norm_weight_exp, norm_eq_abs]
  refine mul_le_of_le_one_right (abs_nonneg _) (exp_le_one_iff.2 ?_)
  have := mul_nonneg hs (le_of_lt ht); linarith

/-- The Laplace transform of an integrable weight. -/
noncomputable def lap (w : ℝ → ℝ) (s : ℂ) : ℂ := ∫ t in Ioi (0:ℝ), (w t : ℂ) * Complex.exp (-s * t)

theorem lap_differentiableAt (hw : IntegrableOn w (Ioi 0)) {s : ℂ} (hs : 0 < s.re) : DifferentiableAt ℂ (lap w) s := by
  have key := hasDerivAt_integral_of_dominated_loc_of_deriv_le (𝕜 := ℂ) (μ := volume.restrict (Ioi (0:ℝ)))
    (F := fun (s : ℂ) (t : ℝ) => (w t : ℂ) * Complex.exp (-s * t))
    (F' := fun (s : ℂ) (t : ℝ) => (w t : ℂ) * (Complex.exp (-s * t) * (-t))) (x₀ := s) (s := {z : ℂ | s.re / 2 < z.re})
    (bound := fun t => |w t| * (2 / s.re)) ?_ ?_ (weight_exp_integrable hw hs.le) ?_ ?_ (hw.abs.mul_const _) ?_
  · exact key.2.differentiableAt
  · exact (isOpen_lt continuous_const Complex.continuous_re).mem_nhds (show s.re / 2 < s.re by linarith)
  · exact Eventually.of_forall fun z => aesm_weight_exp hw z
  · exact (Complex.continuous_ofReal.comp_aestronglyMeasurable hw.aestronglyMeasurable).mul
      (by fun_prop : Continuous fun t : ℝ => Complex.exp (-s * t) * (-(t:ℂ))).aestronglyMeasurable
  · filter_upwards [ae_restrict_mem measurableSet_Ioi] with t ht z hz
    have ht' : (0:ℝ) < t := ht
    rw [norm_mul, Complex.norm_real, norm_mul, Complex.norm_exp, norm_neg, Complex.norm_real, norm_eq_abs, norm_eq_abs,
      abs_of_pos ht']
    refine mul_le_mul_of_nonneg_left ?_ (abs_nonneg _)
    have e : (-z * (t:ℂ)).re = -(z.re * t) := by simp
    rw [e]
    have h1 : s.re / 2 * t ≤ z.re * t := mul_le_mul_of_nonneg_right (le_of_lt hz) ht'.le
    have h2 : s.re / 2 * t + 1 ≤ exp (z.re * t) := (add_one_le_exp _).trans (exp_le_exp.2 h1)
    rw [exp_neg, ← div_eq_inv_mul, div_le_div_iff₀ (exp_pos _) hs]
    nlinarith [mul_pos hs ht']
  · filter_upwards with t z _
    have h : HasDerivAt (fun z : ℂ => -z * (t:ℂ)) (-1 * (t:ℂ)) z := ((hasDerivAt_id z).fun_neg).mul_const _
    exact ((h.cexp).const_mul (w t : ℂ)).congr_deriv (by ring)

/-- Continuity along a horizontal approach to the boundary of the half plane of convergence. -/
theorem lap_tendsto (hw : IntegrableOn w (Ioi 0)) {ι : Type*} {l : Filter ι} [l.IsCountablyGenerated] {z : ι → ℂ} {s : ℂ}
    (hz : ∀ i, 0 ≤ (z i).re) (h : Tendsto z l (𝓝 s)) : Tendsto (fun i => lap w (z i)) l (𝓝 (lap w s)) := by
  refine tendsto_integral_filter_of_dominated_convergence (fun t => |w t|) ?_ ?_ hw.abs ?_
  · exact Eventually.of_forall fun i => aesm_weight_exp hw _
  · refine Eventually.of_forall fun i => ?_
    filter_upwards [ae_restrict_mem measurableSet_Ioi] with t ht
    rw [norm_weight_exp]
    refine mul_le_of_le_one_right (abs_nonneg _) (exp_le_one_iff.2 ?_)
    have := mul_nonneg (hz i) (le_of_lt ht); linarith
  · filter_upwards with t
    exact ((Complex.continuous_exp.tendsto _).comp ((h.neg).mul_const _)).const_mul _

/-- Two formulas for a transform that agree for real arguments agree in the closed right half plane, the argument being
the square of `κ`. -/
theorem lap_continuation_of (hw : IntegrableOn w (Ioi 0)) {H : ℂ → ℂ} (hH : ∀ z : ℂ, |z.im| < z.re → DifferentiableAt ℂ H z)
    {κ : ℂ} (hcont : ContinuousAt H κ) (hreal : ∀ c : ℝ, 0 < c → lap w ((c:ℂ) ^ 2) = H c) (hκ : |κ.im| ≤ κ.re) : lap w (κ ^ 2) = H κ := by
  set S : Set ℂ := {z : ℂ | |z.im| < z.re} with hS
  have hre : ∀ z : ℂ, (z ^ 2).re = z.re ^ 2 - z.im ^ 2 := fun z => by simp [sq]
  have hopen : IsOpen S := isOpen_lt (continuous_abs.comp Complex.continuous_im) Complex.continuous_re
  have hpos : ∀ z ∈ S, 0 < (z ^ 2).re := by
    intro z hz
    rw [hre, sub_pos, ← sq_abs z.im]
    exact pow_lt_pow_left₀ hz (abs_nonneg _) two_ne_zero
  have hconv : Convex ℝ S := by
    intro x hx y hy a b ha hb hab
    have hx' : |x.im| < x.re := hx
    have hy' : |y.im| < y.re := hy
    show |(a • x + b • y).im| < (a • x + b • y).re
    simp only [Complex.add_im, Complex.add_re, Complex.real_smul, Complex.re_ofReal_mul, Complex.im_ofReal_mul]
    have h1 : |a * x.im + b * y.im| ≤ a * |x.im| + b * |y.im| := by
      refine (abs_add_le _ _).trans ?_
      rw [abs_mul, abs_mul, abs_of_nonneg ha, abs_of_nonneg hb]
    rcases ha.eq_or_lt with rfl | ha'
    · have : b = 1 := by linarith
      subst this; linarith
    · have := mul_lt_mul_of_pos_left hx' ha'
      have := mul_le_mul_of_nonneg_left hy'.le hb
      linarith
  have hd : DifferentiableOn ℂ (fun z => lap w (z ^ 2)) S := fun z hz =>
    (DifferentiableAt.comp (g := lap w) (f := fun z : ℂ => z ^ 2) z (lap_differentiableAt hw (hpos z hz))
      (by fun_prop)).differentiableWithinAt
  have heq : EqOn (fun z => lap w (z ^ 2)) H S := by
    have h1 : (1:ℂ) ∈ S := by simp [hS]
    refine (hd.analyticOnNhd hopen).eqOn_of_preconnected_of_frequently_eq
      (DifferentiableOn.analyticOnNhd (fun z hz => (hH z hz).differentiableWithinAt) hopen) hconv.isPreconnected h1 ?_
    have ht : Tendsto (fun n : ℕ => ((1 + 1 / ((n:ℝ) + 1) : ℝ) : ℂ)) atTop (𝓝[≠] 1) := by
      refine tendsto_nhdsWithin_iff.2 ⟨?_, Eventually.of_forall fun n => ?_⟩
      · have h2 : Tendsto (fun n : ℕ => (1 + 1 / ((n:ℝ) + 1) : ℝ)) atTop (𝓝 (1 + 0)) :=
          tendsto_const_nhds.add tendsto_one_div_add_atTop_nhds_zero_nat
        rw [add_zero] at h2
        exact_mod_cast (Complex.continuous_ofReal.tendsto _).comp h2
      · simp only [mem_compl_iff, mem_singleton_iff]
        intro h
        have : (1 + 1 / ((n:ℝ) + 1) : ℝ) = 1 := by exact_mod_cast h
        have : 0 < 1 / ((n:ℝ) + 1) := by positivity
        linarith
    refine ht.frequently (Frequently.of_forall fun n => ?_)
    exact hreal _ (by positivity)
  -- approach the boundary from inside
  have hz : Tendsto (fun e : ℝ => κ + e) (𝓝[>] 0) (𝓝 κ) := by
    have : Tendsto (fun e : ℝ => κ + (e:ℂ)) (𝓝 0) (𝓝 (κ + ((0:ℝ):ℂ))) := by
      exact (Continuous.tendsto (by fun_prop) 0)
    simpa using this.mono_left nhdsWithin_le_nhds
  have hin : ∀ e : ℝ, 0 < e → κ + e ∈ S := fun e he => by
    show |(κ + e).im| < (κ + e).re
    simp; linarith
  set z : ℝ → ℂ := fun e => if 0 < e then κ + e else κ with hzdef
  have hκ2 : 0 ≤ (κ ^ 2).re := by
    rw [hre, sub_nonneg, ← sq_abs κ.im]
    exact pow_le_pow_left₀ (abs_nonneg _) hκ 2
  have hz' : Tendsto z (𝓝[>] 0) (𝓝 κ) := by
    refine hz.congr' ?_
    filter_upwards [self_mem_nhdsWithin] with e he
    simp only [hzdef]; rw [if_pos (show 0 < e from he)]
  have hl := lap_tendsto hw (l := 𝓝[>] (0:ℝ)) (z := fun e => z e ^ 2) (s := κ ^ 2) (fun e => by
    simp only [hzdef]; split_ifs with h
    · exact (hpos _ (hin e h)).le
    · exact hκ2) (hz'.pow 2)
  have hr : Tendsto (fun e => H (z e)) (𝓝[>] 0) (𝓝 (H κ)) := hcont.tendsto.comp hz'
  refine tendsto_nhds_unique (hl.congr' ?_) hr
  filter_upwards [self_mem_nhdsWithin] with e he
  have hm : z e ∈ S := by simp only [hzdef]; rw [if_pos (show 0 < e from he)]; exact hin e he
  exact heq hm

theorem lap_continuation (hw : IntegrableOn w (Ioi 0)) {H : ℂ → ℂ} (hH : Differentiable ℂ H)
    (hreal : ∀ c : ℝ, 0 < c → lap w ((c:ℂ) ^ 2) = H c) {κ : ℂ} (hκ : |κ.im| ≤ κ.re) : lap w (κ ^ 2) = H κ :=
  lap_continuation_of hw (fun z _ => hH z) (hH.continuous.continuousAt) hreal hκ

end Continuation

end Verif
