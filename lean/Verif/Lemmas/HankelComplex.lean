import Verif.Lemmas.HankelKernel
import Mathlib.Analysis.SpecialFunctions.Complex.Analytic
import Mathlib.Analysis.SpecialFunctions.Complex.LogDeriv

/-! # The kernel for complex wavenumbers (helper lemmas) -/

namespace Verif

open Real Filter MeasureTheory Set
open scoped Topology ComplexOrder

/-! ## The root `(x² + κ²)^(1/2)` -/

/-- `(x² + κ²)^(1/2)` -/
noncomputable def cru (κ : ℂ) (x : ℝ) : ℂ := Complex.sqrt ((x : ℂ) ^ 2 + κ ^ 2)

variable {κ : ℂ}

theorem cru_sq (κ : ℂ) (x : ℝ) : cru κ x ^ 2 = (x : ℂ) ^ 2 + κ ^ 2 := csqrt_sq _

theorem cru_slit (hκ : 0 < κ.re) (x : ℝ) : (x : ℂ) ^ 2 + κ ^ 2 ∈ Complex.slitPlane := by
  rw [Complex.mem_slitPlane_iff]
  by_cases h : κ.im = 0
  · left
    have : ((x : ℂ) ^ 2 + κ ^ 2).re = x ^ 2 + κ.re ^ 2 := by simp [sq, h]
    rw [this]; positivity
  · right
    have : ((x : ℂ) ^ 2 + κ ^ 2).im = 2 * (κ.re * κ.im) := by simp [sq]; ring
    rw [this]
    exact mul_ne_zero two_ne_zero (mul_ne_zero hκ.ne' h)

theorem cru_ne (hκ : 0 < κ.re) (x : ℝ) : cru κ x ≠ 0 := fun h => by
  have := cru_sq κ x
  rw [h, zero_pow two_ne_zero] at this
  exact Complex.slitPlane_ne_zero (cru_slit hκ x) this.symm

theorem continuous_cru (hκ : 0 < κ.re) : Continuous (cru κ) := by
  unfold cru Complex.sqrt
  exact Continuous.cpow (by fun_prop) continuous_const fun x => cru_slit hκ x

/-- `‖x² + κ²‖ = ‖x + iκ‖ ‖x - iκ‖` is at least `(Re κ)²` and at least `(Re κ/|κ|)² x²`. -/
theorem norm_radicand (κ : ℂ) (x : ℝ) :
    κ.re ^ 2 ≤ ‖(x : ℂ) ^ 2 + κ ^ 2‖ ∧ κ.re ^ 2 * x ^ 2 ≤ ‖(x : ℂ) ^ 2 + κ ^ 2‖ * ‖κ‖ ^ 2 := by
  have hf : (x : ℂ) ^ 2 + κ ^ 2 = (x + Complex.I * κ) * (x - Complex.I * κ) := by
    linear_combination κ ^ 2 * Complex.I_sq
  have n1 : ‖(x : ℂ) + Complex.I * κ‖ ^ 2 = (x - κ.im) ^ 2 + κ.re ^ 2 := by
    rw [← Complex.normSq_eq_norm_sq, Complex.normSq_apply]; simp; ring
  have n2 : ‖(x : ℂ) - Complex.I * κ‖ ^ 2 = (x + κ.im) ^ 2 + κ.re ^ 2 := by
    rw [← Complex.normSq_eq_norm_sq, Complex.normSq_apply]; simp; ring
  have nk : ‖κ‖ ^ 2 = κ.re ^ 2 + κ.im ^ 2 := by
    rw [← Complex.normSq_eq_norm_sq, Complex.normSq_apply]; ring
  have a1 : |κ.re| ≤ ‖(x : ℂ) + Complex.I * κ‖ := abs_le.2 (abs_le_of_sq_le_sq' (by nlinarith [sq_nonneg (x - κ.im)]) (norm_nonneg _))
  have a2 : |κ.re| ≤ ‖(x : ℂ) - Complex.I * κ‖ := abs_le.2 (abs_le_of_sq_le_sq' (by nlinarith [sq_nonneg (x + κ.im)]) (norm_nonneg _))
  have b1 : |κ.re * x| ≤ ‖(x : ℂ) + Complex.I * κ‖ * ‖κ‖ := by
    refine abs_le.2 (abs_le_of_sq_le_sq' ?_ (by positivity))
    rw [mul_pow (‖_‖), n1, nk]; nlinarith [sq_nonneg (κ.re ^ 2 - (x - κ.im) * κ.im)]
  have b2 : |κ.re * x| ≤ ‖(x : ℂ) - Complex.I * κ‖ * ‖κ‖ := by
    refine abs_le.2 (abs_le_of_sq_le_sq' ?_ (by positivity))
    rw [mul_pow (‖_‖), n2, nk]; nlinarith [sq_nonneg (κ.re ^ 2 + (x + κ.im) * κ.im)]
  rw [hf, norm_mul]
  constructor
  · rw [← sq_abs, sq]; exact mul_le_mul a1 a2 (abs_nonneg _) (norm_nonneg _)
  · have := mul_le_mul b1 b2 (abs_nonneg _) (by positivity)
    rw [← mul_pow, ← sq_abs (κ.re * x)]
    calc |κ.re * x| ^ 2 = |κ.re * x| * |κ.re * x| := sq _
      _ ≤ _ := this
      _ = _ := by ring

theorem norm_cru_sq (κ : ℂ) (x : ℝ) : ‖cru κ x‖ ^ 2 = ‖(x : ℂ) ^ 2 + κ ^ 2‖ := by rw [← norm_pow, cru_sq]

/-- A lower bound uniform in the scale of `κ`. -/
theorem norm_cru_ge (hκ : 0 < κ.re) {v : ℝ} (x : ℝ) :
    κ.re / ‖κ‖ / 2 * √(x ^ 2 + (v * ‖κ‖) ^ 2) ≤ ‖cru (v * κ) x‖ := by
  have hk : 0 < ‖κ‖ := lt_of_lt_of_le hκ ((le_abs_self _).trans (Complex.abs_re_le_norm κ))
  by_cases hv : v = 0
  · subst hv
    have hle : κ.re / ‖κ‖ ≤ 1 := (div_le_one hk).2 ((le_abs_self _).trans (Complex.abs_re_le_norm κ))
    have h1 : ‖cru ((0:ℝ) * κ) x‖ ^ 2 = x ^ 2 := by
      rw [norm_cru_sq]; simp [sq]
    refine le_of_sq_le_sq ?_ (norm_nonneg _)
    rw [h1, mul_pow, sq_sqrt (by positivity)]
    have : (κ.re / ‖κ‖ / 2) ^ 2 ≤ 1 := by
      have : 0 ≤ κ.re / ‖κ‖ := by positivity
      nlinarith
    nlinarith [sq_nonneg x]
  · have ⟨h1, h2⟩ := norm_radicand (v * κ) x
    have e1 : ((v:ℂ) * κ).re = v * κ.re := by simp
    have e2 : ‖(v:ℂ) * κ‖ = |v| * ‖κ‖ := by rw [norm_mul, Complex.norm_real, norm_eq_abs]
    rw [e1] at h1 h2
    rw [e2, mul_pow (|v|), sq_abs] at h2
    rw [← norm_cru_sq] at h1 h2
    refine le_of_sq_le_sq ?_ (norm_nonneg _)
    rw [mul_pow, sq_sqrt (by positivity)]
    generalize ‖cru (v * κ) x‖ ^ 2 = N at *
    have hv2 : 0 < v ^ 2 := by positivity
    have h3 : κ.re ^ 2 * x ^ 2 ≤ N * ‖κ‖ ^ 2 := by
      have : v ^ 2 * (κ.re ^ 2 * x ^ 2) ≤ v ^ 2 * (N * ‖κ‖ ^ 2) := by nlinarith
      exact le_of_mul_le_mul_left this hv2
    have hN : 0 ≤ N := le_trans (by positivity) h1
    rw [div_div, div_pow, mul_pow, div_mul_eq_mul_div, div_le_iff₀ (by positivity)]
    nlinarith [mul_le_mul_of_nonneg_right h1 (sq_nonneg ‖κ‖), mul_nonneg hN (sq_nonneg ‖κ‖)]

/-- The complex kernel `x³ (x² + κ²)^(-5/2)`. -/
noncomputable def cker (κ : ℂ) (x : ℝ) : ℂ := (x : ℂ) ^ 3 / cru κ x ^ 5

theorem continuous_cker (hκ : 0 < κ.re) : Continuous (cker κ) :=
  Continuous.div (by fun_prop) ((continuous_cru hκ).pow 5) fun x => pow_ne_zero _ (cru_ne hκ x)

theorem cker_ofReal {c : ℝ} (hc : 0 < c) (x : ℝ) : cker c x = ((ker c x : ℝ) : ℂ) := by
  have h : cru c x = ((√(x ^ 2 + c ^ 2) : ℝ) : ℂ) := by
    have h0 : (0:ℂ) ≤ (x:ℂ) ^ 2 + (c:ℂ) ^ 2 := by
      have : (x:ℂ) ^ 2 + (c:ℂ) ^ 2 = ((x ^ 2 + c ^ 2 : ℝ) : ℂ) := by push_cast; ring
      rw [this]
      exact_mod_cast (by positivity : (0:ℝ) ≤ x ^ 2 + c ^ 2)
    rw [cru, Complex.sqrt_of_nonneg h0]
    congr 2
    simp [sq]
  rw [cker, ker, h]
  push_cast
  rfl

/-- The bounding constant. -/
noncomputable def kerC (κ : ℂ) : ℝ := (κ.re / ‖κ‖ / 2)⁻¹ ^ 5

theorem norm_cker_le (hκ : 0 < κ.re) {v : ℝ} (hv : 0 < v) {x : ℝ} (hx : 0 ≤ x) : ‖cker (v * κ) x‖ ≤ kerC κ * ker (v * ‖κ‖) x := by
  have hk : 0 < ‖κ‖ := lt_of_lt_of_le hκ ((le_abs_self _).trans (Complex.abs_re_le_norm κ))
  have h := norm_cru_ge hκ (v := v) x
  have hq : 0 < √(x ^ 2 + (v * ‖κ‖) ^ 2) := root_pos (by positivity) x
  have hm : 0 < κ.re / ‖κ‖ / 2 := by positivity
  rw [cker, norm_div, norm_pow, norm_pow, Complex.norm_real, norm_eq_abs, abs_of_nonneg hx, kerC, ker, inv_pow, ← div_eq_inv_mul,
    div_div, mul_comm (√_ ^ 5), ← mul_pow]
  exact div_le_div_of_nonneg_left (by positivity) (by positivity) (pow_le_pow_left₀ (by positivity) h 5)

theorem integrableOn_cker (hκ : 0 < κ.re) : IntegrableOn (cker κ) (Ioi 0) := by
  have hk : 0 < ‖κ‖ := lt_of_lt_of_le hκ ((le_abs_self _).trans (Complex.abs_re_le_norm κ))
  refine Integrable.mono' ((integrableOn_ker hk).const_mul (kerC κ)) (continuous_cker hκ).aestronglyMeasurable ?_
  filter_upwards [ae_restrict_mem measurableSet_Ioi] with x hx
  simpa using norm_cker_le hκ one_pos (le_of_lt hx)

/-! ## Continuation of its transforms -/

variable {g : ℝ → ℝ} {C : ℝ}

theorem hasDerivAt_cker (hκ : 0 < κ.re) (x : ℝ) :
    HasDerivAt (fun k => cker k x) (-(5 * κ * (x : ℂ) ^ 3 / cru κ x ^ 7)) κ := by
  have hu : HasDerivAt (fun k => cru k x) (κ / cru κ x) κ := by
    have h1 : HasDerivAt (fun k : ℂ => (x : ℂ) ^ 2 + k ^ 2) (2 * κ) κ := by
      simpa using (hasDerivAt_pow 2 κ).const_add ((x : ℂ) ^ 2)
    have h2 := h1.cpow_const (c := (2⁻¹ : ℂ)) (cru_slit hκ x)
    refine h2.congr_deriv ?_
    have hne := Complex.slitPlane_ne_zero (cru_slit hκ x)
    rw [Complex.cpow_sub _ _ hne, Complex.cpow_one]
    show 2⁻¹ * (cru κ x / _) * (2 * κ) = _
    rw [← cru_sq]
    have := cru_ne hκ x
    field_simp
  have hne := cru_ne hκ x
  refine ((hasDerivAt_const κ ((x:ℂ) ^ 3)).fun_div (hu.fun_pow 5) (pow_ne_zero _ hne)).congr_deriv ?_
  field_simp
  ring

theorem transform_differentiableAt (hg : ContinuousOn g (Ioi 0)) (hC : ∀ x, 0 < x → |g x| ≤ C) (hκ : 0 < κ.re) :
    DifferentiableAt ℂ (fun k => ∫ x in Ioi (0:ℝ), cker k x * (g x : ℂ)) κ := by
  have hk : 0 < ‖κ‖ := lt_of_lt_of_le hκ ((le_abs_self _).trans (Complex.abs_re_le_norm κ))
  have hgm : AEStronglyMeasurable (fun x : ℝ => (g x : ℂ)) (volume.restrict (Ioi 0)) :=
    (Complex.continuous_ofReal.comp_continuousOn hg).aestronglyMeasurable measurableSet_Ioi
  have hC0 : 0 ≤ C := (abs_nonneg _).trans (hC 1 one_pos)
  set a := κ.re / 2 with ha
  have ha0 : 0 < a := by positivity
  have hre : ∀ k ∈ Metric.ball κ a, a < k.re ∧ ‖k‖ < ‖κ‖ + a := by
    intro k hk
    rw [Metric.mem_ball, dist_eq_norm] at hk
    have h1 := (Complex.abs_re_le_norm (k - κ)).trans_lt hk
    rw [abs_lt, Complex.sub_re] at h1
    refine ⟨by linarith [h1.1], ?_⟩
    have := norm_add_le (k - κ) κ
    rw [sub_add_cancel] at this
    linarith
  set B := ‖κ‖ + a with hB
  have hB0 : 0 < B := by positivity
  -- the root is bounded below on the ball
  have hlow : ∀ k ∈ Metric.ball κ a, ∀ x : ℝ, a / B / 2 * √(x ^ 2 + a ^ 2) ≤ ‖cru k x‖ := by
    intro k hkb x
    have ⟨h1, h2⟩ := hre k hkb
    have hk0 : 0 < k.re := ha0.trans h1
    have hkn : 0 < ‖k‖ := lt_of_lt_of_le hk0 ((le_abs_self _).trans (Complex.abs_re_le_norm k))
    have hkr : k.re ≤ ‖k‖ := (le_abs_self _).trans (Complex.abs_re_le_norm k)
    have h3 := norm_cru_ge hk0 (v := 1) x
    simp only [Complex.ofReal_one, one_mul] at h3
    refine le_trans (mul_le_mul ?_ (sqrt_le_sqrt ?_) (sqrt_nonneg _) (by positivity)) h3
    · exact div_le_div_of_nonneg_right (div_le_div₀ hk0.le h1.le hkn h2.le) two_pos.le
    · have : a ^ 2 ≤ ‖k‖ ^ 2 := pow_le_pow_left₀ ha0.le (h1.le.trans hkr) 2
      linarith
  have key := hasDerivAt_integral_of_dominated_loc_of_deriv_le (𝕜 := ℂ) (μ := volume.restrict (Ioi (0:ℝ)))
    (F := fun (k : ℂ) (x : ℝ) => cker k x * (g x : ℂ))
    (F' := fun (k : ℂ) (x : ℝ) => -(5 * k * (x : ℂ) ^ 3 / cru k x ^ 7) * (g x : ℂ)) (x₀ := κ) (s := Metric.ball κ a)
    (bound := fun x => 5 * B * (a / B / 2)⁻¹ ^ 7 * (1 / a ^ 2) * C * ker a x) (Metric.ball_mem_nhds κ ha0) ?_ ?_ ?_ ?_ ?_ ?_
  · exact key.2.differentiableAt
  · filter_upwards [Metric.ball_mem_nhds κ ha0] with k hkb
    exact (continuous_cker (ha0.trans (hre k hkb).1)).aestronglyMeasurable.mul hgm
  · refine Integrable.mul_bdd (c := C) (integrableOn_cker hκ) hgm ?_
    filter_upwards [ae_restrict_mem measurableSet_Ioi] with x hx
    rw [Complex.norm_real]
    exact hC x hx
  · refine AEStronglyMeasurable.mul ?_ hgm
    exact (Continuous.neg (Continuous.div (by fun_prop) ((continuous_cru hκ).pow 7) fun x => pow_ne_zero _ (cru_ne hκ x))).aestronglyMeasurable
  · filter_upwards [ae_restrict_mem measurableSet_Ioi] with x hx k hkb
    have hx0 : (0:ℝ) < x := hx
    have hq : 0 < √(x ^ 2 + a ^ 2) := root_pos ha0 x
    have hm : 0 < a / B / 2 := by positivity
    have h1 := hlow k hkb x
    have hcru : 0 < ‖cru k x‖ := lt_of_lt_of_le (by positivity) h1
    rw [norm_mul, norm_neg, norm_div, norm_mul, norm_mul, norm_pow, norm_pow, Complex.norm_real, Complex.norm_real, norm_eq_abs, norm_eq_abs,
      abs_of_pos hx0]
    have h5 : ‖(5:ℂ)‖ = 5 := by simp
    rw [h5]
    have haq : a ^ 2 ≤ √(x ^ 2 + a ^ 2) ^ 2 := by rw [sq_sqrt (by positivity)]; nlinarith [sq_nonneg x]
    have step1 : 5 * ‖k‖ * x ^ 3 / ‖cru k x‖ ^ 7 ≤ 5 * B * x ^ 3 / (a / B / 2 * √(x ^ 2 + a ^ 2)) ^ 7 :=
      div_le_div₀ (by positivity) (by have := (hre k hkb).2.le; gcongr) (by positivity) (pow_le_pow_left₀ (by positivity) h1 7)
    have step2 : 5 * B * x ^ 3 / (a / B / 2 * √(x ^ 2 + a ^ 2)) ^ 7 ≤ 5 * B * (a / B / 2)⁻¹ ^ 7 * (1 / a ^ 2) * ker a x := by
      rw [ker]
      generalize √(x ^ 2 + a ^ 2) = q at *
      generalize a / B / 2 = m at *
      rw [mul_pow, inv_pow]
      have e1 : 5 * B * x ^ 3 / (m ^ 7 * q ^ 7) = 5 * B * x ^ 3 / (m ^ 7 * q ^ 5) * (1 / q ^ 2) := by field_simp
      have e2 : 5 * B * (m ^ 7)⁻¹ * (1 / a ^ 2) * (x ^ 3 / q ^ 5) = 5 * B * x ^ 3 / (m ^ 7 * q ^ 5) * (1 / a ^ 2) := by field_simp
      rw [e1, e2]
      exact mul_le_mul_of_nonneg_left (one_div_le_one_div_of_le (by positivity) haq) (by positivity)
    calc _ ≤ 5 * B * (a / B / 2)⁻¹ ^ 7 * (1 / a ^ 2) * ker a x * C :=
          mul_le_mul (step1.trans step2) (hC x hx0) (abs_nonneg _) (by have := ker_nonneg a hx0.le; positivity)
      _ = _ := by ring
  · exact (integrableOn_ker ha0).const_mul _
  · refine Eventually.of_forall fun x k hkb => ?_
    exact (hasDerivAt_cker (ha0.trans (hre k hkb).1) x).mul_const (g x : ℂ)

/-- Two formulas for a transform of the kernel that agree for real wavenumbers agree in the right half plane. -/
theorem transform_continuation (hg : ContinuousOn g (Ioi 0)) (hC : ∀ x, 0 < x → |g x| ≤ C) {H : ℂ → ℂ}
    (hH : ∀ k : ℂ, 0 < k.re → DifferentiableAt ℂ H k)
    (hreal : ∀ c : ℝ, 0 < c → ((∫ x in Ioi (0:ℝ), ker c x * g x : ℝ) : ℂ) = H c) (hκ : 0 < κ.re) :
    ∫ x in Ioi (0:ℝ), cker κ x * (g x : ℂ) = H κ := by
  set S : Set ℂ := {z : ℂ | 0 < z.re} with hS
  have hopen : IsOpen S := isOpen_lt continuous_const Complex.continuous_re
  have hconv : Convex ℝ S := convex_halfSpace_re_gt 0
  have heq : EqOn (fun k => ∫ x in Ioi (0:ℝ), cker k x * (g x : ℂ)) H S := by
    have h1 : (1:ℂ) ∈ S := by simp [hS]
    refine (DifferentiableOn.analyticOnNhd (fun k hk => (transform_differentiableAt hg hC hk).differentiableWithinAt)
      hopen).eqOn_of_preconnected_of_frequently_eq
      (DifferentiableOn.analyticOnNhd (fun k hk => (hH k hk).differentiableWithinAt) hopen) hconv.isPreconnected h1 ?_
    have ht : Tendsto (fun n : ℕ => ((1 + 1 / ((n:ℝ) + 1) : ℝ) : ℂ)) atTop (𝓝[≠] 1) := by
      refine tendsto_nhdsWithin_iff.2 ⟨?_, Eventually.of_forall fun n => ?_⟩
      · have h2 : Tendsto (fun n : ℕ => (1 + 1 / ((n:ℝ) + 1) : ℝ)) atTop (𝓝 (1 + 0)) :=
          tendsto_const_nhds.add tendsto_one_div_add_atTop_nhds_zero_nat
        rw [add_zero] at h2
        exact_mod_cast (Complex.continuous_ofReal.tendsto _).comp h2
      · simp only [mem_compl_iff, mem_singleton_iff]
        intro h
        have : (1 + 1 / ((n:ℝ) + 1) : ℝ) = 1 := by exact_mod_cast h
        have : 0 < 1 / ((n:ℝ) + 1) := by positivity
        linarith
    refine ht.frequently (Frequently.of_forall fun n => ?_)
    have hc : (0:ℝ) < 1 + 1 / ((n:ℝ) + 1) := by positivity
    rw [← hreal _ hc, ← integral_complex_ofReal]
    refine integral_congr_ae (Eventually.of_forall fun x => ?_)
    simp only [cker_ofReal hc]
    push_cast
    rfl
  exact heq hκ

/-- `∫ x³ (x²+κ²)^(-5/2) J_0(rx) dx`. -/
theorem cker_J0 {r : ℝ} (hr : 0 < r) (hκ : 0 < κ.re) :
    ∫ x in Ioi (0:ℝ), cker κ x * (besselJ0 (x * r) : ℂ) = Complex.exp (-r * κ) * (2 / (3 * κ) - r / 3) :=
  transform_continuation (g := fun x => besselJ0 (x * r)) (C := 1) (H := fun k => Complex.exp (-r * k) * (2 / (3 * k) - r / 3))
    (continuous_J0_mul r).continuousOn (fun _ _ => abs_besselJ0_le _)
    (fun k hk => by
      have : k ≠ 0 := fun h => by rw [h] at hk; simp at hk
      have h3 : (3 * k) ≠ 0 := mul_ne_zero three_ne_zero this
      fun_prop (disch := assumption))
    (fun c hc => by rw [ker_J0 hr hc]; push_cast; rfl) hκ

/-- `∫ x² (x²+κ²)^(-5/2) J_1(rx) dx`. -/
theorem cker_J1div {r : ℝ} (hr : 0 < r) (hκ : 0 < κ.re) :
    ∫ x in Ioi (0:ℝ), cker κ x * (J1div r x : ℂ) = Complex.exp (-r * κ) * (r / (3 * κ)) :=
  transform_continuation (g := fun x => J1div r x) (C := |r|) (H := fun k => Complex.exp (-r * k) * (r / (3 * k)))
    (continuousOn_J1div r) (fun _ hx => abs_J1div_le r hx)
    (fun k hk => by
      have : k ≠ 0 := fun h => by rw [h] at hk; simp at hk
      have h3 : (3 * k) ≠ 0 := mul_ne_zero three_ne_zero this
      fun_prop (disch := assumption))
    (fun c hc => by rw [ker_J1div hr hc]; push_cast; rfl) hκ

end Verif
