import Verif.Lemmas.BesselODE

/-! # The product `I_n K_n` as a Laplace transform (helper lemmas) -/

namespace Verif

open Real Filter MeasureTheory Set BesselIK
open scoped Topology

theorem ne_of_re {z : ℂ} (hz : 0 < z.re) : z ≠ 0 := fun h => by rw [h] at hz; simp at hz

/-! ## The Laplace side -/

section Laplace

variable {φ : ℝ → ℝ} (h : Profile φ)
include h

theorem Profile.hasDerivAt_sq (k : ℕ) {z : ℝ} (hz : 0 < z) :
    HasDerivAt (fun z => LM φ k (z ^ 2)) (-(2 * z * LM φ (k + 1) (z ^ 2))) z := by
  have h2 : HasDerivAt (fun z : ℝ => z ^ 2) (2 * z) z := by simpa using hasDerivAt_pow 2 z
  refine (HasDerivAt.comp z (h₂ := LM φ k) (h := fun z : ℝ => z ^ 2) (h.hasDerivAt_LM k (pow_pos hz 2)) h2).congr_deriv ?_
  ring

theorem Profile.p0 {z : ℝ} (hz : 0 < z) : HasDerivAt (fun z => 1 / 2 * LM φ 0 (z ^ 2)) (-(z ^ 2 * LM φ 1 (z ^ 2)) / z) z := by
  refine ((h.hasDerivAt_sq 0 hz).const_mul (1 / 2)).congr_deriv ?_
  field_simp

theorem Profile.p1 {z : ℝ} (hz : 0 < z) : HasDerivAt (fun z => -(z ^ 2 * LM φ 1 (z ^ 2)))
    ((-2 * (z ^ 2 * LM φ 1 (z ^ 2)) + 2 * (z ^ 4 * LM φ 2 (z ^ 2))) / z) z := by
  refine (((hasDerivAt_pow 2 z).fun_mul (h.hasDerivAt_sq 1 hz)).fun_neg).congr_deriv ?_
  push_cast
  field_simp
  ring

theorem Profile.p2 {z : ℝ} (hz : 0 < z) {N : ℝ}
    (hid : LM φ 1 (z ^ 2) - 3 * z ^ 2 * LM φ 2 (z ^ 2) + (z ^ 2) ^ 2 * LM φ 3 (z ^ 2) - (z ^ 2 + N ^ 2) * LM φ 1 (z ^ 2)
      + 1 / 2 * LM φ 0 (z ^ 2) = 0) :
    HasDerivAt (fun z => -2 * (z ^ 2 * LM φ 1 (z ^ 2)) + 2 * (z ^ 4 * LM φ 2 (z ^ 2)))
      ((4 * (z ^ 2 + N ^ 2) * -(z ^ 2 * LM φ 1 (z ^ 2)) + 4 * z ^ 2 * (1 / 2 * LM φ 0 (z ^ 2))) / z) z := by
  refine ((((hasDerivAt_pow 2 z).fun_mul (h.hasDerivAt_sq 1 hz)).const_mul (-2)).fun_add
    (((hasDerivAt_pow 4 z).fun_mul (h.hasDerivAt_sq 2 hz)).const_mul 2)).congr_deriv ?_
  push_cast
  field_simp
  linear_combination (-8) * hid

end Laplace

theorem tendsto_sq_zero : Tendsto (fun z : ℝ => z ^ 2) (𝓝[>] 0) (𝓝[>] 0) := by
  refine tendsto_nhdsWithin_iff.2 ⟨?_, ?_⟩
  · have : Tendsto (fun z : ℝ => z ^ 2) (𝓝 0) (𝓝 (0 ^ 2)) := Continuous.tendsto (by fun_prop) 0
    rw [zero_pow two_ne_zero] at this
    exact this.mono_left nhdsWithin_le_nhds
  · filter_upwards [self_mem_nhdsWithin] with z hz
    have : (0:ℝ) < z := hz
    exact mem_Ioi.2 (by positivity)

theorem tendsto_ofReal_right : Tendsto (fun x : ℝ => (x : ℂ)) (𝓝[>] 0) (𝓝[{z : ℂ | 0 < z.re}] 0) := by
  refine tendsto_nhdsWithin_iff.2 ⟨?_, ?_⟩
  · have := Complex.continuous_ofReal.tendsto 0
    rw [Complex.ofReal_zero] at this
    exact this.mono_left nhdsWithin_le_nhds
  · filter_upwards [self_mem_nhdsWithin] with x hx
    have : (0:ℝ) < x := hx
    simpa using this

/-- Two functions satisfying the equation, one given by the moments and one by a complex function, agree. -/
theorem product_agrees {φ : ℝ → ℝ} (h : Profile φ) {N : ℝ} {Y Y1 Y2 : ℂ → ℂ}
    (hid : ∀ s, 0 < s → LM φ 1 s - 3 * s * LM φ 2 s + s ^ 2 * LM φ 3 s - (s + N ^ 2) * LM φ 1 s + 1 / 2 * LM φ 0 s = 0)
    (hY : ∀ z : ℂ, 0 < z.re → HasDerivAt Y (Y1 z / z) z) (hY1 : ∀ z : ℂ, 0 < z.re → HasDerivAt Y1 (Y2 z / z) z)
    (hY2 : ∀ z : ℂ, 0 < z.re → HasDerivAt Y2 ((4 * (z ^ 2 + (N:ℂ) ^ 2) * Y1 z + 4 * z ^ 2 * Y z) / z) z)
    (l0 : Tendsto Y (𝓝[{z : ℂ | 0 < z.re}] 0) (𝓝 ((1 / 2 * ∫ τ in Ioi (0:ℝ), φ τ / τ : ℝ) : ℂ)))
    (l1 : Tendsto Y1 (𝓝[{z : ℂ | 0 < z.re}] 0) (𝓝 0)) (l2 : Tendsto Y2 (𝓝[{z : ℂ | 0 < z.re}] 0) (𝓝 0))
    (hi : Tendsto (fun t : ℝ => Y t) atTop (𝓝 0)) {z : ℝ} (hz : 0 < z) : (Y z).re = 1 / 2 * LM φ 0 (z ^ 2) := by
  have hre : Tendsto Complex.re (𝓝 0) (𝓝 0) := by simpa using Complex.continuous_re.tendsto 0
  have key := appell_unique (N := N) (D := fun z => (Y z).re - 1 / 2 * LM φ 0 (z ^ 2))
    (D1 := fun z => (Y1 z).re - -(z ^ 2 * LM φ 1 (z ^ 2)))
    (D2 := fun z => (Y2 z).re - (-2 * (z ^ 2 * LM φ 1 (z ^ 2)) + 2 * (z ^ 4 * LM φ 2 (z ^ 2)))) ?_ ?_ ?_ ?_ ?_ ?_ ?_ hz
  · linarith
  · intro z hz
    have hz' : 0 < (z:ℂ).re := by simpa using hz
    refine ((hY z hz').real_of_complex.sub (h.p0 hz)).congr_deriv ?_
    rw [Complex.div_ofReal_re, sub_div]
  · intro z hz
    have hz' : 0 < (z:ℂ).re := by simpa using hz
    refine ((hY1 z hz').real_of_complex.sub (h.p1 hz)).congr_deriv ?_
    rw [Complex.div_ofReal_re, sub_div]
  · intro z hz
    have hz' : 0 < (z:ℂ).re := by simpa using hz
    refine ((hY2 z hz').real_of_complex.sub (h.p2 hz (hid _ (by positivity)))).congr_deriv ?_
    have e : 4 * ((z:ℂ) ^ 2 + (N:ℂ) ^ 2) * Y1 z + 4 * (z:ℂ) ^ 2 * Y z
        = ((4 * (z ^ 2 + N ^ 2) : ℝ) : ℂ) * Y1 z + ((4 * z ^ 2 : ℝ) : ℂ) * Y z := by push_cast; ring
    rw [Complex.div_ofReal_re, e, Complex.add_re, Complex.re_ofReal_mul, Complex.re_ofReal_mul, ← sub_div]
    congr 1
    ring
  · have a := (Complex.continuous_re.tendsto _).comp (l0.comp tendsto_ofReal_right)
    have b := (h.tendsto_LM_zero.comp tendsto_sq_zero).const_mul (1 / 2)
    have := a.sub b
    rw [Complex.ofReal_re, sub_self] at this
    exact this
  · have a := hre.comp (l1.comp tendsto_ofReal_right)
    have b := ((h.tendsto_pow_LM 0).comp tendsto_sq_zero).neg
    have := a.sub b
    rw [neg_zero, sub_zero] at this
    refine this.congr fun z => ?_
    simp
  · have a := hre.comp (l2.comp tendsto_ofReal_right)
    have b := (((h.tendsto_pow_LM 0).comp tendsto_sq_zero).const_mul (-2)).add (((h.tendsto_pow_LM 1).comp tendsto_sq_zero).const_mul 2)
    have := a.sub b
    simp only [mul_zero, add_zero, sub_zero] at this
    refine this.congr fun z => ?_
    simp only [Function.comp_apply]
    ring_nf
  · have a := hre.comp hi
    have b := (h.tendsto_LM_atTop.comp (tendsto_pow_atTop two_ne_zero)).const_mul (1 / 2)
    have := a.sub b
    rw [mul_zero, sub_zero] at this
    exact this

/-! ## The Bessel side -/

section Products

/-- `θ(I_1K_1)` and `θ²(I_1K_1)` -/
noncomputable def Y11 (z : ℂ) : ℂ :=
  (cbesselI 1 z + z * cbesselI 2 z) * cbesselK 1 z + cbesselI 1 z * (cbesselK 1 z - z * cbesselK 2 z)

noncomputable def Y12 (z : ℂ) : ℂ :=
  2 * (z ^ 2 + 1) * (cbesselI 1 z * cbesselK 1 z) + 2 * (cbesselI 1 z + z * cbesselI 2 z) * (cbesselK 1 z - z * cbesselK 2 z)

/-- `θ(I_2K_2)` and `θ²(I_2K_2)` -/
noncomputable def Y21 (z : ℂ) : ℂ :=
  (z * cbesselI 1 z - 2 * cbesselI 2 z) * cbesselK 2 z + cbesselI 2 z * (-(z * cbesselK 1 z) - 2 * cbesselK 2 z)

noncomputable def Y22 (z : ℂ) : ℂ :=
  2 * (z ^ 2 + 4) * (cbesselI 2 z * cbesselK 2 z) + 2 * (z * cbesselI 1 z - 2 * cbesselI 2 z) * (-(z * cbesselK 1 z) - 2 * cbesselK 2 z)

variable {z : ℂ}

theorem derivs_one (hz : 0 < z.re) : HasDerivAt (fun z => cbesselI 1 z * cbesselK 1 z) (Y11 z / z) z ∧ HasDerivAt Y11 (Y12 z / z) z
    ∧ HasDerivAt Y12 ((4 * (z ^ 2 + ((1:ℝ):ℂ) ^ 2) * Y11 z + 4 * z ^ 2 * (cbesselI 1 z * cbesselK 1 z)) / z) z := by
  have hz0 := ne_of_re hz
  have a := hasDerivAt_cbesselI_one hz0
  have b := hasDerivAt_cbesselI_two hz0
  have c := hasDerivAt_cbesselK_one hz
  have d := hasDerivAt_cbesselK_two hz
  have i : HasDerivAt (fun z : ℂ => z) 1 z := hasDerivAt_id z
  have A := a.fun_add (i.fun_mul b)
  have C := c.fun_sub (i.fun_mul d)
  refine ⟨(a.fun_mul c).congr_deriv ?_, ((A.fun_mul c).fun_add (a.fun_mul C)).congr_deriv ?_,
    (((((hasDerivAt_pow 2 z).add_const 1).const_mul 2).fun_mul (a.fun_mul c)).fun_add ((A.const_mul 2).fun_mul C)).congr_deriv ?_⟩
  all_goals
    simp only [Y11, Y12]
    push_cast
    field_simp
    try ring

theorem derivs_two (hz : 0 < z.re) : HasDerivAt (fun z => cbesselI 2 z * cbesselK 2 z) (Y21 z / z) z ∧ HasDerivAt Y21 (Y22 z / z) z
    ∧ HasDerivAt Y22 ((4 * (z ^ 2 + ((2:ℝ):ℂ) ^ 2) * Y21 z + 4 * z ^ 2 * (cbesselI 2 z * cbesselK 2 z)) / z) z := by
  have hz0 := ne_of_re hz
  have a := hasDerivAt_cbesselI_one hz0
  have b := hasDerivAt_cbesselI_two hz0
  have c := hasDerivAt_cbesselK_one hz
  have d := hasDerivAt_cbesselK_two hz
  have i : HasDerivAt (fun z : ℂ => z) 1 z := hasDerivAt_id z
  have A := (i.fun_mul a).fun_sub (b.const_mul 2)
  have C := ((i.fun_mul c).fun_neg).fun_sub (d.const_mul 2)
  refine ⟨(b.fun_mul d).congr_deriv ?_, ((A.fun_mul d).fun_add (b.fun_mul C)).congr_deriv ?_,
    (((((hasDerivAt_pow 2 z).add_const 4).const_mul 2).fun_mul (b.fun_mul d)).fun_add ((A.const_mul 2).fun_mul C)).congr_deriv ?_⟩
  all_goals
    simp only [Y21, Y22]
    push_cast
    field_simp
    try ring

/-- The leading factors of the four functions at 0. -/
theorem limits_zero : ∃ A B C D : ℂ → ℂ, Tendsto A (𝓝[{z : ℂ | 0 < z.re}] 0) (𝓝 (1 / 2)) ∧ Tendsto B (𝓝[{z : ℂ | 0 < z.re}] 0) (𝓝 (1 / 8))
    ∧ Tendsto C (𝓝[{z : ℂ | 0 < z.re}] 0) (𝓝 1) ∧ Tendsto D (𝓝[{z : ℂ | 0 < z.re}] 0) (𝓝 2)
    ∧ ∀ z : ℂ, 0 < z.re → cbesselI 1 z = z * A z ∧ cbesselI 2 z = z ^ 2 * B z ∧ cbesselK 1 z = C z / z ∧ cbesselK 2 z = D z / z ^ 2 := by
  refine ⟨_, _, _, _, tendsto_I1_div.mono_left nhdsWithin_le_nhds, tendsto_I2_div.mono_left nhdsWithin_le_nhds, tendsto_K1, tendsto_K2,
    fun z hz => ⟨I1_eq z, I2_eq z, ?_, ?_⟩⟩
  · have := ne_of_re hz
    field_simp
  · have := ne_of_re hz
    field_simp

theorem tendsto_id_zero : Tendsto (fun z : ℂ => z) (𝓝[{z : ℂ | 0 < z.re}] 0) (𝓝 0) := nhdsWithin_le_nhds

theorem lim_Y11 : Tendsto Y11 (𝓝[{z : ℂ | 0 < z.re}] 0) (𝓝 0) := by
  obtain ⟨A, B, C, D, hA, hB, hC, hD, h⟩ := limits_zero
  have hz := tendsto_id_zero
  have := ((hA.add ((hz.pow 2).mul hB)).mul hC).add (hA.mul (hC.sub hD))
  rw [show ((1:ℂ) / 2 + 0 ^ 2 * (1 / 8)) * 1 + 1 / 2 * (1 - 2) = 0 by ring] at this
  refine this.congr' ?_
  filter_upwards [self_mem_nhdsWithin] with z hz
  obtain ⟨a, b, c, d⟩ := h z hz
  have := ne_of_re hz
  rw [Y11, a, b, c, d]
  field_simp

theorem lim_Y12 : Tendsto Y12 (𝓝[{z : ℂ | 0 < z.re}] 0) (𝓝 0) := by
  obtain ⟨A, B, C, D, hA, hB, hC, hD, h⟩ := limits_zero
  have hz := tendsto_id_zero
  have := ((((hz.pow 2).add_const 1).const_mul 2).mul (hA.mul hC)).add (((hA.add ((hz.pow 2).mul hB)).const_mul 2).mul (hC.sub hD))
  rw [show 2 * ((0:ℂ) ^ 2 + 1) * (1 / 2 * 1) + 2 * (1 / 2 + 0 ^ 2 * (1 / 8)) * (1 - 2) = 0 by ring] at this
  refine this.congr' ?_
  filter_upwards [self_mem_nhdsWithin] with z hz
  obtain ⟨a, b, c, d⟩ := h z hz
  have := ne_of_re hz
  rw [Y12, a, b, c, d]
  field_simp

theorem lim_Y21 : Tendsto Y21 (𝓝[{z : ℂ | 0 < z.re}] 0) (𝓝 0) := by
  obtain ⟨A, B, C, D, hA, hB, hC, hD, h⟩ := limits_zero
  have hz := tendsto_id_zero
  have := ((hA.sub (hB.const_mul 2)).mul hD).add (hB.mul ((((hz.pow 2).mul hC).neg).sub (hD.const_mul 2)))
  rw [show ((1:ℂ) / 2 - 2 * (1 / 8)) * 2 + 1 / 8 * (-(0 ^ 2 * 1) - 2 * 2) = 0 by ring] at this
  refine this.congr' ?_
  filter_upwards [self_mem_nhdsWithin] with z hz
  obtain ⟨a, b, c, d⟩ := h z hz
  have := ne_of_re hz
  rw [Y21, a, b, c, d]
  field_simp

theorem lim_Y22 : Tendsto Y22 (𝓝[{z : ℂ | 0 < z.re}] 0) (𝓝 0) := by
  obtain ⟨A, B, C, D, hA, hB, hC, hD, h⟩ := limits_zero
  have hz := tendsto_id_zero
  have := ((((hz.pow 2).add_const 4).const_mul 2).mul (hB.mul hD)).add
    (((hA.sub (hB.const_mul 2)).const_mul 2).mul ((((hz.pow 2).mul hC).neg).sub (hD.const_mul 2)))
  rw [show 2 * ((0:ℂ) ^ 2 + 4) * (1 / 8 * 2) + 2 * (1 / 2 - 2 * (1 / 8)) * (-(0 ^ 2 * 1) - 2 * 2) = 0 by ring] at this
  refine this.congr' ?_
  filter_upwards [self_mem_nhdsWithin] with z hz
  obtain ⟨a, b, c, d⟩ := h z hz
  have := ne_of_re hz
  rw [Y22, a, b, c, d]
  field_simp

theorem tendsto_IK_atTop (n : ℕ) : Tendsto (fun t : ℝ => cbesselI n t * cbesselK n t) atTop (𝓝 0) := by
  have h1 : 0 < (1:ℂ).re := by simp
  have hinv : Tendsto (fun t : ℝ => ((1 / t : ℝ) : ℂ)) atTop (𝓝 0) := by
    have : Tendsto (fun t : ℝ => 1 / t) atTop (𝓝 0) := by simpa using tendsto_inv_atTop_zero (𝕜 := ℝ)
    have h2 := (Complex.continuous_ofReal.tendsto 0).comp this
    rw [Complex.ofReal_zero] at h2
    exact h2
  have h := hinv.mul ((ray_A n h1).mul (ray_B n h1))
  rw [zero_mul] at h
  refine h.congr' ?_
  filter_upwards [eventually_gt_atTop 0] with t ht
  have ht' : (t:ℂ) ≠ 0 := by exact_mod_cast ht.ne'
  have hst : ((√t : ℝ) : ℂ) * ((√t : ℝ) : ℂ) = t := by
    rw [← Complex.ofReal_mul, mul_self_sqrt ht.le]
  have he : Complex.exp (-(t:ℂ)) * Complex.exp (t:ℂ) = 1 := by rw [← Complex.exp_add]; simp
  rw [mul_one]
  push_cast
  generalize Complex.exp (-(t:ℂ)) = E at *
  generalize Complex.exp (t:ℂ) = F at *
  generalize cbesselI n t = a
  generalize cbesselK n t = d
  generalize ((√t : ℝ) : ℂ) = q at *
  field_simp
  linear_combination (E * F * a * d) * hst + (t * a * d) * he

end Products

theorem cbesselI_ofReal (n : ℕ) (x : ℝ) : (cbesselI n x).im = 0 := by
  have h : cbesselI n x = ((besselI n x : ℝ) : ℂ) := by
    rw [cbesselI, besselI]
    push_cast
    rw [← intervalIntegral.integral_ofReal]
    congr 1
    refine intervalIntegral.integral_congr fun t _ => ?_
    push_cast
    rfl
  rw [h, Complex.ofReal_im]

theorem cbesselK_ofReal (n : ℕ) (x : ℝ) : (cbesselK n x).im = 0 := by
  have h : cbesselK n x = ((∫ t in Ioi (0 : ℝ), exp (-x * cosh t) * cosh (n * t) : ℝ) : ℂ) := by
    rw [cbesselK, ← integral_complex_ofReal]
    refine setIntegral_congr_fun measurableSet_Ioi fun t _ => ?_
    push_cast
    rfl
  rw [h, Complex.ofReal_im]

theorem eq_ofReal {z : ℂ} (h : z.im = 0) : z = ((z.re : ℝ) : ℂ) := Complex.ext (by simp) (by simpa using h)

theorem product_one {z : ℝ} (hz : 0 < z) : cbesselI 1 z * cbesselK 1 z = ((1 / 2 * LM (phi 1) 0 (z ^ 2) : ℝ) : ℂ) := by
  rw [← product_agrees profile_one (N := 1) (Y := fun z => cbesselI 1 z * cbesselK 1 z) (fun s hs => moment_identity_one hs)
    (fun z hz => (derivs_one hz).1) (fun z hz => (derivs_one hz).2.1) (fun z hz => (derivs_one hz).2.2)
    (by rw [integral_phi_one]; norm_num; simpa using tendsto_IK1) lim_Y11 lim_Y12 (tendsto_IK_atTop 1) hz]
  refine eq_ofReal ?_
  rw [Complex.mul_im, cbesselI_ofReal, cbesselK_ofReal]
  ring

theorem product_two {z : ℝ} (hz : 0 < z) : cbesselI 2 z * cbesselK 2 z = ((1 / 2 * LM (phi 2) 0 (z ^ 2) : ℝ) : ℂ) := by
  rw [← product_agrees profile_two (N := 2) (Y := fun z => cbesselI 2 z * cbesselK 2 z) (fun s hs => moment_identity_two hs)
    (fun z hz => (derivs_two hz).1) (fun z hz => (derivs_two hz).2.1) (fun z hz => (derivs_two hz).2.2)
    (by rw [integral_phi_two]; norm_num; simpa using tendsto_IK2) lim_Y21 lim_Y22 (tendsto_IK_atTop 2) hz]
  refine eq_ofReal ?_
  rw [Complex.mul_im, cbesselI_ofReal, cbesselK_ofReal]
  ring

end Verif
