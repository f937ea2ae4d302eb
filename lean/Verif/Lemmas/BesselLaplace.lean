import Verif.Lemmas.BesselIe
import Verif.Lemmas.Lipschitz

/-! # Laplace transforms of the scaled modified Bessel functions (helper lemmas) -/

namespace Verif

open Real Filter MeasureTheory Set
open scoped Topology

/-- What is used of the weight `τ ↦ e^{-w} I_n(w)`, `w = 1/(2τ)`. -/
structure Profile (φ : ℝ → ℝ) : Prop where
  cont : ContinuousOn φ (Ioi 0)
  le_one : ∀ τ, 0 < τ → |φ τ| ≤ 1
  le_inv : ∀ τ, 0 < τ → |φ τ| ≤ 1 / (2 * τ)
  le_sqrt : ∀ τ, 0 < τ → |φ τ| ≤ √(2 * τ)

/-- The moments of the weight `φ/τ` against `e^{-sτ}`. -/
noncomputable def LM (φ : ℝ → ℝ) (k : ℕ) (s : ℝ) : ℝ := ∫ τ in Ioi (0:ℝ), τ ^ k * (φ τ / τ) * exp (-s * τ)

namespace Profile

variable {φ : ℝ → ℝ} (h : Profile φ)
include h

theorem contDiv : ContinuousOn (fun τ => φ τ / τ) (Ioi 0) :=
  h.cont.div continuousOn_id fun _ hx => ne_of_gt hx

theorem meas (k : ℕ) (s : ℝ) : AEStronglyMeasurable (fun τ => τ ^ k * (φ τ / τ) * exp (-s * τ)) (volume.restrict (Ioi 0)) :=
  (((continuous_pow k).continuousOn.mul h.contDiv).mul (Continuous.continuousOn (by fun_prop))).aestronglyMeasurable measurableSet_Ioi

theorem integrable_div : IntegrableOn (fun τ => φ τ / τ) (Ioi 0) := by
  have hm : AEStronglyMeasurable (fun τ => φ τ / τ) (volume.restrict (Ioi 0)) := h.contDiv.aestronglyMeasurable measurableSet_Ioi
  have hu : Ioc (0:ℝ) 1 ∪ Ioi 1 = Ioi 0 := Ioc_union_Ioi_eq_Ioi zero_le_one
  rw [← hu]
  refine IntegrableOn.union ?_ ?_
  · have hi : IntegrableOn (fun τ : ℝ => √2 * τ ^ (-(1/2) : ℝ)) (Ioc 0 1) := by
      have := (intervalIntegral.intervalIntegrable_rpow' (a := 0) (b := 1) (r := -(1/2)) (by norm_num)).1
      exact this.const_mul _
    refine Integrable.mono' hi (hm.mono_measure (Measure.restrict_mono Ioc_subset_Ioi_self le_rfl)) ?_
    filter_upwards [ae_restrict_mem measurableSet_Ioc] with τ hτ
    have h0 : 0 < τ := hτ.1
    rw [norm_eq_abs, abs_div, abs_of_pos h0, div_le_iff₀ h0]
    refine (h.le_sqrt τ h0).trans (le_of_eq ?_)
    have hq : τ ^ (-(1/2) : ℝ) = 1 / √τ := by rw [rpow_neg h0.le, sqrt_eq_rpow, one_div (τ ^ _)]
    have := sqrt_pos.2 h0
    rw [sqrt_mul two_pos.le, hq, mul_assoc]
    congr 1
    rw [div_mul_eq_mul_div, one_mul, eq_div_iff this.ne', mul_self_sqrt h0.le]
  · have hi : IntegrableOn (fun τ : ℝ => τ ^ (-2 : ℝ)) (Ioi 1) := integrableOn_Ioi_rpow_of_lt (by norm_num) one_pos
    refine Integrable.mono' hi (hm.mono_measure (Measure.restrict_mono (Ioi_subset_Ioi zero_le_one) le_rfl)) ?_
    filter_upwards [ae_restrict_mem measurableSet_Ioi] with τ hτ
    have h0 : 0 < τ := one_pos.trans hτ
    rw [norm_eq_abs, abs_div, abs_of_pos h0, div_le_iff₀ h0]
    refine (h.le_inv τ h0).trans ?_
    have hq : τ ^ (-2 : ℝ) = 1 / τ ^ 2 := by
      rw [rpow_neg h0.le, one_div]; norm_num
    rw [hq]
    have : 1 / τ ^ 2 * τ = 1 / τ := by field_simp
    rw [this]
    exact one_div_le_one_div_of_le h0 (by linarith)

theorem integrable_zero {s : ℝ} (hs : 0 ≤ s) : IntegrableOn (fun τ => τ ^ 0 * (φ τ / τ) * exp (-s * τ)) (Ioi 0) := by
  refine Integrable.mono h.integrable_div (h.meas 0 s) ?_
  filter_upwards [ae_restrict_mem measurableSet_Ioi] with τ hτ
  have h0 : 0 < τ := hτ
  rw [pow_zero, one_mul, norm_mul]
  refine mul_le_of_le_one_right (norm_nonneg _) ?_
  rw [norm_eq_abs, abs_of_pos (exp_pos _)]
  exact exp_le_one_iff.2 (by nlinarith)

theorem bound_succ (k : ℕ) {τ : ℝ} (h0 : 0 < τ) (E : ℝ) (hE : 0 ≤ E) : |τ ^ (k + 1) * (φ τ / τ) * E| ≤ τ ^ k * E := by
  have e : τ ^ (k + 1) * (φ τ / τ) = τ ^ k * φ τ := by
    rw [pow_succ]; field_simp
  rw [e, abs_mul, abs_mul, abs_of_nonneg hE, abs_of_pos (pow_pos h0 k)]
  exact mul_le_mul_of_nonneg_right (mul_le_of_le_one_right (pow_pos h0 k).le (h.le_one τ h0)) hE

theorem integrable_succ (k : ℕ) {s : ℝ} (hs : 0 < s) : IntegrableOn (fun τ => τ ^ (k + 1) * (φ τ / τ) * exp (-s * τ)) (Ioi 0) := by
  refine Integrable.mono' (integrableOn_pow_exp hs k) (h.meas (k + 1) s) ?_
  filter_upwards [ae_restrict_mem measurableSet_Ioi] with τ hτ
  exact h.bound_succ k hτ _ (exp_pos _).le

theorem integrable (k : ℕ) {s : ℝ} (hs : 0 < s) : IntegrableOn (fun τ => τ ^ k * (φ τ / τ) * exp (-s * τ)) (Ioi 0) := by
  cases k with
  | zero => exact h.integrable_zero hs.le
  | succ k => exact h.integrable_succ k hs

theorem hasDerivAt_LM (k : ℕ) {s : ℝ} (hs : 0 < s) : HasDerivAt (LM φ k) (-LM φ (k + 1) s) s := by
  have key := hasDerivAt_integral_of_dominated_loc_of_deriv_le (𝕜 := ℝ) (μ := volume.restrict (Ioi (0:ℝ)))
    (F := fun (s : ℝ) (τ : ℝ) => τ ^ k * (φ τ / τ) * exp (-s * τ))
    (F' := fun (s : ℝ) (τ : ℝ) => -(τ ^ (k + 1) * (φ τ / τ) * exp (-s * τ))) (x₀ := s) (s := Ioi (s / 2))
    (bound := fun τ => τ ^ k * exp (-(s / 2) * τ)) (Ioi_mem_nhds (by linarith)) ?_ ?_ ?_ ?_ ?_ ?_
  · refine key.2.congr_deriv ?_
    rw [integral_neg, LM]
  · exact Eventually.of_forall fun s => h.meas k s
  · exact h.integrable k hs
  · exact (h.meas (k + 1) s).neg
  · filter_upwards [ae_restrict_mem measurableSet_Ioi] with τ hτ x hx
    have h0 : 0 < τ := hτ
    have hx' : s / 2 < x := hx
    rw [norm_neg, norm_eq_abs]
    refine (h.bound_succ k h0 _ (exp_pos _).le).trans ?_
    refine mul_le_mul_of_nonneg_left (exp_le_exp.2 (by nlinarith)) (pow_pos h0 k).le
  · exact integrableOn_pow_exp (half_pos hs) k
  · filter_upwards [ae_restrict_mem measurableSet_Ioi] with τ hτ x _
    refine ((((hasDerivAt_id x).fun_neg.mul_const τ).exp).const_mul (τ ^ k * (φ τ / τ))).congr_deriv ?_
    simp only [id]
    ring

theorem tendsto_LM_zero : Tendsto (LM φ 0) (𝓝[>] 0) (𝓝 (∫ τ in Ioi (0:ℝ), φ τ / τ)) := by
  refine tendsto_integral_filter_of_dominated_convergence (fun τ => ‖φ τ / τ‖) ?_ ?_ h.integrable_div.norm ?_
  · exact Eventually.of_forall fun s => h.meas 0 s
  · filter_upwards [self_mem_nhdsWithin] with s hs
    have hs0 : 0 < s := hs
    filter_upwards [ae_restrict_mem measurableSet_Ioi] with τ hτ
    have h0 : 0 < τ := hτ
    rw [pow_zero, one_mul, norm_mul]
    refine mul_le_of_le_one_right (norm_nonneg _) ?_
    rw [norm_eq_abs, abs_of_pos (exp_pos _)]
    exact exp_le_one_iff.2 (by nlinarith)
  · refine Eventually.of_forall fun τ => ?_
    have hc : Continuous fun s : ℝ => τ ^ 0 * (φ τ / τ) * exp (-s * τ) := by fun_prop
    have := hc.tendsto 0
    simp only [neg_zero, zero_mul, exp_zero, pow_zero, one_mul, mul_one] at this
    simpa using this.mono_left nhdsWithin_le_nhds

theorem tendsto_LM_atTop : Tendsto (LM φ 0) atTop (𝓝 0) := by
  have e : (0:ℝ) = ∫ _ in Ioi (0:ℝ), (0:ℝ) := by simp
  rw [e]
  refine tendsto_integral_filter_of_dominated_convergence (fun τ => ‖φ τ / τ‖) ?_ ?_ h.integrable_div.norm ?_
  · exact Eventually.of_forall fun s => h.meas 0 s
  · filter_upwards [eventually_ge_atTop 0] with s hs0
    filter_upwards [ae_restrict_mem measurableSet_Ioi] with τ hτ
    have h0 : 0 < τ := hτ
    rw [pow_zero, one_mul, norm_mul]
    refine mul_le_of_le_one_right (norm_nonneg _) ?_
    rw [norm_eq_abs, abs_of_pos (exp_pos _)]
    exact exp_le_one_iff.2 (by nlinarith)
  · filter_upwards [ae_restrict_mem measurableSet_Ioi] with τ hτ
    have h0 : 0 < τ := hτ
    have h1 : Tendsto (fun s : ℝ => s * τ) atTop atTop := tendsto_id.atTop_mul_const h0
    have := (tendsto_exp_neg_atTop_nhds_zero.comp h1).const_mul (τ ^ 0 * (φ τ / τ))
    rw [mul_zero] at this
    refine this.congr fun s => ?_
    simp [neg_mul]

/-- `s^k M_k(s) → 0`, `k ≥ 1` -/
theorem tendsto_pow_LM (k : ℕ) : Tendsto (fun s => s ^ (k + 1) * LM φ (k + 1) s) (𝓝[>] 0) (𝓝 0) := by
  have e : ∀ s ∈ Ioi (0:ℝ), ∫ x in Ioi (0:ℝ), x ^ k * φ (x / s) * exp (-1 * x) = s ^ (k + 1) * LM φ (k + 1) s := by
    intro s hs
    have hs0 : 0 < s := hs
    have := integral_comp_mul_left_Ioi (fun x => x ^ k * φ (x / s) * exp (-1 * x)) 0 hs0
    rw [mul_zero, smul_eq_mul] at this
    have e2 : ∫ x in Ioi (0:ℝ), x ^ k * φ (x / s) * exp (-1 * x)
        = s * ∫ x in Ioi (0:ℝ), (s * x) ^ k * φ (s * x / s) * exp (-1 * (s * x)) := by
      rw [this, ← mul_assoc, mul_inv_cancel₀ hs0.ne', one_mul]
    rw [e2, LM, ← integral_const_mul, ← integral_const_mul]
    refine setIntegral_congr_fun measurableSet_Ioi fun x hx => ?_
    have hx0 : x ≠ 0 := ne_of_gt hx
    show s * ((s * x) ^ k * φ (s * x / s) * exp (-1 * (s * x))) = s ^ (k + 1) * (x ^ (k + 1) * (φ x / x) * exp (-s * x))
    rw [mul_div_cancel_left₀ x hs0.ne', show -1 * (s * x) = -s * x by ring, mul_pow, pow_succ, pow_succ]
    field_simp
  refine Tendsto.congr' (f₁ := fun s => ∫ x in Ioi (0:ℝ), x ^ k * φ (x / s) * exp (-1 * x)) ?_ ?_
  · filter_upwards [self_mem_nhdsWithin] with s hs
    exact e s hs
  suffices hh : Tendsto (fun s => ∫ x in Ioi (0:ℝ), x ^ k * φ (x / s) * exp (-1 * x)) (𝓝[>] 0) (𝓝 (∫ _ in Ioi (0:ℝ), (0:ℝ))) by
    simpa only [integral_zero] using hh
  refine tendsto_integral_filter_of_dominated_convergence (fun x => x ^ k * exp (-1 * x)) ?_ ?_ (integrableOn_pow_exp one_pos k) ?_
  · filter_upwards [self_mem_nhdsWithin] with s hs
    refine ContinuousOn.aestronglyMeasurable ?_ measurableSet_Ioi
    refine ContinuousOn.mul (ContinuousOn.mul (by fun_prop) ?_) (by fun_prop)
    exact h.cont.comp (by fun_prop) fun x hx => mem_Ioi.2 (div_pos (mem_Ioi.1 hx) (mem_Ioi.1 hs))
  · filter_upwards [self_mem_nhdsWithin] with s hs
    filter_upwards [ae_restrict_mem measurableSet_Ioi] with x hx
    have hx0 : 0 < x := hx
    rw [norm_eq_abs, abs_mul, abs_mul, abs_of_pos (exp_pos _), abs_of_pos (pow_pos hx0 k)]
    exact mul_le_mul_of_nonneg_right (mul_le_of_le_one_right (pow_pos hx0 k).le (h.le_one _ (div_pos hx hs))) (exp_pos _).le
  · filter_upwards [ae_restrict_mem measurableSet_Ioi] with x hx
    have hx0 : 0 < x := hx
    have h1 : Tendsto (fun s : ℝ => φ (x / s)) (𝓝[>] 0) (𝓝 0) := by
      refine squeeze_zero_norm' (a := fun s => s / (2 * x)) ?_ ?_
      · filter_upwards [self_mem_nhdsWithin] with s hs
        have hs0 : 0 < s := hs
        refine (h.le_inv _ (div_pos hx hs)).trans (le_of_eq ?_)
        field_simp
      · have : Tendsto (fun s : ℝ => s / (2 * x)) (𝓝 0) (𝓝 (0 / (2 * x))) := tendsto_id.div_const _
        rw [zero_div] at this
        exact this.mono_left nhdsWithin_le_nhds
    have := (h1.const_mul (x ^ k)).mul_const (exp (-1 * x))
    simpa using this

end Profile

/-! ## The two weights -/

/-- `e^{-w} I_n(w)` at `w = 1/(2τ)` -/
noncomputable def phi (n : ℕ) (τ : ℝ) : ℝ := ie n (1 / (2 * τ))

theorem hasDerivAt_half_inv {τ : ℝ} (hτ : 0 < τ) : HasDerivAt (fun τ : ℝ => 1 / (2 * τ)) (-(1 / (2 * τ ^ 2))) τ := by
  refine ((hasDerivAt_const τ (1:ℝ)).fun_div ((hasDerivAt_id τ).const_mul 2) (by simp; positivity)).congr_deriv ?_
  simp only [id]
  field_simp
  ring

theorem hasDerivAt_phi_one {τ : ℝ} (hτ : 0 < τ) :
    HasDerivAt (phi 1) (-(1 / (2 * τ ^ 2)) * (phi 2 τ + (2 * τ - 1) * phi 1 τ)) τ := by
  refine ((hasDerivAt_ie_one (w := 1 / (2 * τ)) (by positivity)).comp τ (hasDerivAt_half_inv hτ)).congr_deriv ?_
  simp only [phi]
  rw [one_div_one_div]
  ring

theorem hasDerivAt_phi_two {τ : ℝ} (hτ : 0 < τ) :
    HasDerivAt (phi 2) (-(1 / (2 * τ ^ 2)) * (phi 1 τ - (4 * τ + 1) * phi 2 τ)) τ := by
  refine ((hasDerivAt_ie_two (w := 1 / (2 * τ)) (by positivity)).comp τ (hasDerivAt_half_inv hτ)).congr_deriv ?_
  simp only [phi]
  rw [div_div_eq_mul_div]
  ring

theorem abs_phi_le_sqrt (n : ℕ) {τ : ℝ} (hτ : 0 < τ) : |phi n τ| ≤ √(2 * τ) := by
  refine (abs_ie_le_sqrt n (by positivity)).trans (le_of_eq ?_)
  rw [sqrt_div zero_le_one, sqrt_one, one_div_one_div]

theorem continuousOn_phi (n : ℕ) : ContinuousOn (phi n) (Ioi 0) :=
  (continuous_ie n).comp_continuousOn (continuousOn_const.div (by fun_prop) fun x hx => by
    have : (0:ℝ) < x := hx
    positivity)

theorem profile_one : Profile (phi 1) :=
  ⟨continuousOn_phi 1, fun τ hτ => abs_ie_le_one 1 (by positivity), fun τ hτ => abs_ie_one_le (by positivity), fun τ hτ => abs_phi_le_sqrt 1 hτ⟩

theorem profile_two : Profile (phi 2) :=
  ⟨continuousOn_phi 2, fun τ hτ => abs_ie_le_one 2 (by positivity), fun τ hτ => abs_ie_two_le (by positivity), fun τ hτ => abs_phi_le_sqrt 2 hτ⟩

theorem tendsto_half_inv_zero : Tendsto (fun τ : ℝ => 1 / (2 * τ)) (𝓝[>] 0) atTop := by
  have : Tendsto (fun τ : ℝ => (1/2) * τ⁻¹) (𝓝[>] 0) atTop := tendsto_inv_nhdsGT_zero.const_mul_atTop (by norm_num)
  refine this.congr fun τ => ?_
  rw [one_div, one_div, mul_inv]

theorem tendsto_half_inv_atTop : Tendsto (fun τ : ℝ => 1 / (2 * τ)) atTop (𝓝 0) := by
  have : Tendsto (fun τ : ℝ => (1/2) * τ⁻¹) atTop (𝓝 ((1/2) * 0)) := tendsto_inv_atTop_zero.const_mul _
  rw [mul_zero] at this
  refine this.congr fun τ => ?_
  rw [one_div, one_div, mul_inv]

theorem tendsto_phi_zero (n : ℕ) : Tendsto (phi n) (𝓝[>] 0) (𝓝 0) := (tendsto_ie_atTop n).comp tendsto_half_inv_zero

theorem tendsto_phi_atTop (n : ℕ) : Tendsto (phi n) atTop (𝓝 (ie n 0)) := ((continuous_ie n).tendsto 0).comp tendsto_half_inv_atTop

/-- `∫ φ_1/τ dτ = 1` -/
theorem integral_phi_one : ∫ τ in Ioi (0:ℝ), phi 1 τ / τ = 1 := by
  have hd0 : ∀ τ, 0 < τ → HasDerivAt (phi 0) (-(1 / (2 * τ ^ 2)) * (phi 1 τ - phi 0 τ)) τ := fun τ hτ =>
    ((hasDerivAt_ie_zero (1 / (2 * τ))).comp τ (hasDerivAt_half_inv hτ)).congr_deriv (by simp only [phi]; ring)
  have hrec : ∀ τ : ℝ, 0 < τ → phi 0 τ - phi 2 τ = 4 * τ * phi 1 τ := fun τ hτ => by
    have h := ie_rec 0 (1 / (2 * τ))
    simp only [zero_add, Nat.cast_zero, mul_one] at h
    simp only [phi]
    generalize ie 0 (1 / (2 * τ)) = a at *
    generalize ie 1 (1 / (2 * τ)) = b at *
    generalize ie 2 (1 / (2 * τ)) = c at *
    field_simp at h
    linarith
  have key := integral_Ioi_of_limits (f := fun τ => phi 0 τ + phi 1 τ) (f' := fun τ => phi 1 τ / τ) (l := 0) (m := 1) ?_ (fun τ hτ => ?_)
    profile_one.integrable_div ?_
  · rw [key, sub_zero]
  · simpa using (tendsto_phi_zero 0).add (tendsto_phi_zero 1)
  · refine ((hd0 τ hτ).fun_add (hasDerivAt_phi_one hτ)).congr_deriv ?_
    have := hrec τ hτ
    field_simp
    linear_combination this
  · simpa [ie_zero_zero, ie_one_zero] using (tendsto_phi_atTop 0).add (tendsto_phi_atTop 1)

/-- `∫ φ_2/τ dτ = 1/2` -/
theorem integral_phi_two : ∫ τ in Ioi (0:ℝ), phi 2 τ / τ = 1 / 2 := by
  have hd0 : ∀ τ, 0 < τ → HasDerivAt (phi 0) (-(1 / (2 * τ ^ 2)) * (phi 1 τ - phi 0 τ)) τ := fun τ hτ =>
    ((hasDerivAt_ie_zero (1 / (2 * τ))).comp τ (hasDerivAt_half_inv hτ)).congr_deriv (by simp only [phi]; ring)
  have hrec : ∀ τ : ℝ, 0 < τ → phi 0 τ - phi 2 τ = 4 * τ * phi 1 τ := fun τ hτ => by
    have h := ie_rec 0 (1 / (2 * τ))
    simp only [zero_add, Nat.cast_zero, mul_one] at h
    simp only [phi]
    generalize ie 0 (1 / (2 * τ)) = a at *
    generalize ie 1 (1 / (2 * τ)) = b at *
    generalize ie 2 (1 / (2 * τ)) = c at *
    field_simp at h
    linarith
  have key := integral_Ioi_of_limits (f := fun τ => 1 / 4 * (2 * phi 0 τ + 4 * phi 1 τ + 2 * phi 2 τ)) (f' := fun τ => phi 2 τ / τ) (l := 0)
    (m := 1 / 2) ?_ (fun τ hτ => ?_) profile_two.integrable_div ?_
  · rw [key, sub_zero]
  · have := ((((tendsto_phi_zero 0).const_mul 2).add ((tendsto_phi_zero 1).const_mul 4)).add ((tendsto_phi_zero 2).const_mul 2)).const_mul (1 / 4)
    simp only [mul_zero, add_zero] at this
    exact this
  · refine (((((hd0 τ hτ).const_mul 2).fun_add ((hasDerivAt_phi_one hτ).const_mul 4)).fun_add ((hasDerivAt_phi_two hτ).const_mul 2)).const_mul
      (1 / 4)).congr_deriv ?_
    have := hrec τ hτ
    field_simp
    linear_combination 2 * this
  · have := ((((tendsto_phi_atTop 0).const_mul 2).add ((tendsto_phi_atTop 1).const_mul 4)).add ((tendsto_phi_atTop 2).const_mul 2)).const_mul (1 / 4)
    simp only [ie_zero_zero, ie_one_zero, ie_two_zero] at this
    norm_num at this ⊢
    exact this

end Verif
