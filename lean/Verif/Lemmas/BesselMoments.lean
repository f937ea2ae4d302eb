import Verif.Lemmas.BesselLaplace

/-! # The differential equation of the Laplace transforms (helper lemmas) -/

namespace Verif

open Real Filter MeasureTheory Set
open scoped Topology

theorem hasDerivAt_exp_lin (s τ : ℝ) : HasDerivAt (fun τ : ℝ => exp (-s * τ)) (-s * exp (-s * τ)) τ := by
  have h := ((hasDerivAt_id τ).const_mul (-s)).exp
  exact h.congr_deriv (by simp; ring)

theorem tendsto_bdd_exp {φ : ℝ → ℝ} {l : ℝ} (hφ : Tendsto φ atTop (𝓝 l)) (k : ℕ) {s : ℝ} (hs : 0 < s) :
    Tendsto (fun τ => φ τ * (τ ^ k * exp (-s * τ))) atTop (𝓝 0) := by
  have h := tendsto_rpow_mul_exp_neg_mul_atTop_nhds_zero k s hs
  simp only [rpow_natCast] at h
  simpa using hφ.mul h

theorem tendsto_phi_pow_zero {φ : ℝ → ℝ} (hφ : Tendsto φ (𝓝[>] 0) (𝓝 0)) (k : ℕ) (s : ℝ) :
    Tendsto (fun τ => φ τ * (τ ^ k * exp (-s * τ))) (𝓝[>] 0) (𝓝 0) := by
  have hc : Continuous fun τ : ℝ => τ ^ k * exp (-s * τ) := by fun_prop
  have := hφ.mul ((hc.tendsto 0).mono_left nhdsWithin_le_nhds)
  simpa using this

theorem moment_identity {φ ψ φ' ψ' : ℝ → ℝ} {N a : ℝ} {s : ℝ} (hs : 0 < s) (h : Profile φ)
    (hφ : ∀ τ, 0 < τ → HasDerivAt φ (φ' τ) τ) (hψ : ∀ τ, 0 < τ → HasDerivAt ψ (ψ' τ) τ)
    (h0φ : Tendsto φ (𝓝[>] 0) (𝓝 0)) (h0ψ : Tendsto ψ (𝓝[>] 0) (𝓝 0)) {l m : ℝ}
    (h1φ : Tendsto φ atTop (𝓝 l)) (h1ψ : Tendsto ψ atTop (𝓝 m))
    (hB : ∀ τ, 0 < τ → -(1 / 2) * ψ' τ - 1 / 2 * φ' τ + a * φ τ + a * τ * φ' τ + 2 * s * τ * φ τ + s * τ ^ 2 * φ' τ
      - s * (-(1 / 2) * ψ τ - 1 / 2 * φ τ + a * τ * φ τ + s * τ ^ 2 * φ τ)
      = -(φ τ - 3 * s * τ * φ τ + s ^ 2 * τ ^ 2 * φ τ - (s + N ^ 2) * φ τ + 1 / 2 * (φ τ / τ))) :
    LM φ 1 s - 3 * s * LM φ 2 s + s ^ 2 * LM φ 3 s - (s + N ^ 2) * LM φ 1 s + 1 / 2 * LM φ 0 s = 0 := by
  have i0 := h.integrable 0 hs
  have i1 := h.integrable 1 hs
  have i2 := h.integrable 2 hs
  have i3 := h.integrable 3 hs
  have key := integral_Ioi_of_limits
    (f := fun τ => -(1 / 2) * (ψ τ * (τ ^ 0 * exp (-s * τ))) - 1 / 2 * (φ τ * (τ ^ 0 * exp (-s * τ))) + a * (φ τ * (τ ^ 1 * exp (-s * τ)))
      + s * (φ τ * (τ ^ 2 * exp (-s * τ))))
    (f' := fun τ => -(τ ^ 1 * (φ τ / τ) * exp (-s * τ) - 3 * s * (τ ^ 2 * (φ τ / τ) * exp (-s * τ)) + s ^ 2 * (τ ^ 3 * (φ τ / τ) * exp (-s * τ))
      - (s + N ^ 2) * (τ ^ 1 * (φ τ / τ) * exp (-s * τ)) + 1 / 2 * (τ ^ 0 * (φ τ / τ) * exp (-s * τ)))) (l := 0) (m := 0) ?_ (fun τ hτ => ?_) ?_ ?_
  · rw [integral_neg, integral_add ((((i1.fun_sub (i2.const_mul _)).fun_add (i3.const_mul _)).fun_sub (i1.const_mul _))) (i0.const_mul _),
      integral_sub ((i1.fun_sub (i2.const_mul _)).fun_add (i3.const_mul _)) (i1.const_mul _),
      integral_add (i1.fun_sub (i2.const_mul _)) (i3.const_mul _), integral_sub i1 (i2.const_mul _), integral_const_mul, integral_const_mul,
      integral_const_mul, integral_const_mul] at key
    simp only [LM]
    linarith
  · have := ((((tendsto_phi_pow_zero h0ψ 0 s).const_mul (-(1 / 2))).sub ((tendsto_phi_pow_zero h0φ 0 s).const_mul (1 / 2))).add
      ((tendsto_phi_pow_zero h0φ 1 s).const_mul a)).add ((tendsto_phi_pow_zero h0φ 2 s).const_mul s)
    simp only [mul_zero, sub_zero, add_zero] at this
    exact this
  · have hE := hasDerivAt_exp_lin s τ
    have hp : ∀ k : ℕ, HasDerivAt (fun τ : ℝ => τ ^ k) (k * τ ^ (k - 1)) τ := fun k => hasDerivAt_pow k τ
    refine ((((((hψ τ hτ).fun_mul ((hp 0).fun_mul hE)).const_mul (-(1 / 2))).fun_sub
      (((hφ τ hτ).fun_mul ((hp 0).fun_mul hE)).const_mul (1 / 2))).fun_add
      (((hφ τ hτ).fun_mul ((hp 1).fun_mul hE)).const_mul a)).fun_add
      (((hφ τ hτ).fun_mul ((hp 2).fun_mul hE)).const_mul s)).congr_deriv ?_
    have e := hB τ hτ
    have hq : τ * (φ τ / τ) = φ τ := by field_simp
    push_cast
    simp only [pow_zero, pow_one, Nat.sub_self, one_mul, zero_mul, zero_add, mul_one]
    have h2 : τ ^ 2 * (φ τ / τ) = τ * φ τ := by field_simp
    have h3 : τ ^ 3 * (φ τ / τ) = τ ^ 2 * φ τ := by field_simp
    rw [hq, h2, h3]
    linear_combination exp (-s * τ) * e
  · exact ((((i1.sub (i2.const_mul _)).add (i3.const_mul _)).sub (i1.const_mul _)).add (i0.const_mul _)).neg
  · have := ((((tendsto_bdd_exp h1ψ 0 hs).const_mul (-(1 / 2))).sub ((tendsto_bdd_exp h1φ 0 hs).const_mul (1 / 2))).add
      ((tendsto_bdd_exp h1φ 1 hs).const_mul a)).add ((tendsto_bdd_exp h1φ 2 hs).const_mul s)
    simp only [mul_zero, sub_zero, add_zero] at this
    exact this

theorem moment_identity_one {s : ℝ} (hs : 0 < s) :
    LM (phi 1) 1 s - 3 * s * LM (phi 1) 2 s + s ^ 2 * LM (phi 1) 3 s - (s + 1 ^ 2) * LM (phi 1) 1 s + 1 / 2 * LM (phi 1) 0 s = 0 :=
  moment_identity hs profile_one (fun _ h => hasDerivAt_phi_one h) (fun _ h => hasDerivAt_phi_two h) (tendsto_phi_zero 1) (tendsto_phi_zero 2)
    (tendsto_phi_atTop 1) (tendsto_phi_atTop 2) (a := -2) (fun τ hτ => by
      have : τ ≠ 0 := hτ.ne'
      generalize phi 1 τ = a
      generalize phi 2 τ = b
      field_simp
      ring)

theorem moment_identity_two {s : ℝ} (hs : 0 < s) :
    LM (phi 2) 1 s - 3 * s * LM (phi 2) 2 s + s ^ 2 * LM (phi 2) 3 s - (s + 2 ^ 2) * LM (phi 2) 1 s + 1 / 2 * LM (phi 2) 0 s = 0 :=
  moment_identity hs profile_two (fun _ h => hasDerivAt_phi_two h) (fun _ h => hasDerivAt_phi_one h) (tendsto_phi_zero 2) (tendsto_phi_zero 1)
    (tendsto_phi_atTop 2) (tendsto_phi_atTop 1) (a := 1) (fun τ hτ => by
      have : τ ≠ 0 := hτ.ne'
      generalize phi 1 τ = a
      generalize phi 2 τ = b
      field_simp
      ring)

/-! ## Uniqueness -/

/-- A solution of `θ³y = 4(z²+N²)θy + 4z²y`, `θ = z d/dz`, that vanishes at 0 with its first two derivatives and at infinity is zero. -/
theorem appell_unique {D D1 D2 : ℝ → ℝ} {N : ℝ} (h0 : ∀ z, 0 < z → HasDerivAt D (D1 z / z) z)
    (h1 : ∀ z, 0 < z → HasDerivAt D1 (D2 z / z) z)
    (h2 : ∀ z, 0 < z → HasDerivAt D2 ((4 * (z ^ 2 + N ^ 2) * D1 z + 4 * z ^ 2 * D z) / z) z)
    (l0 : Tendsto D (𝓝[>] 0) (𝓝 0)) (l1 : Tendsto D1 (𝓝[>] 0) (𝓝 0)) (l2 : Tendsto D2 (𝓝[>] 0) (𝓝 0))
    (hi : Tendsto D atTop (𝓝 0)) {z : ℝ} (hz : 0 < z) : D z = 0 := by
  -- the first integral
  set E : ℝ → ℝ := fun z => D z * D2 z - 1 / 2 * D1 z ^ 2 - 2 * (z ^ 2 + N ^ 2) * D z ^ 2 with hE
  have hEd : ∀ z, 0 < z → HasDerivAt E 0 z := fun z hz => by
    have hq : HasDerivAt (fun z : ℝ => 2 * (z ^ 2 + N ^ 2)) (2 * (2 * z)) z :=
      (((hasDerivAt_pow 2 z).add_const (N ^ 2)).const_mul 2).congr_deriv (by simp)
    refine ((((h0 z hz).fun_mul (h2 z hz)).fun_sub (((h1 z hz).fun_pow 2).const_mul (1 / 2))).fun_sub (hq.fun_mul ((h0 z hz).fun_pow 2))).congr_deriv ?_
    push_cast
    simp only [pow_one]
    field_simp
    ring
  have hEc : ∀ x ∈ Ioi (0:ℝ), ∀ y ∈ Ioi (0:ℝ), E x = E y := by
    intro x hx y hy
    exact (convex_Ioi (0:ℝ)).is_const_of_fderivWithin_eq_zero (𝕜 := ℝ) (f := E)
      (fun w hw => (hEd w hw).differentiableAt.differentiableWithinAt)
      (fun w hw => by
        rw [fderivWithin_of_isOpen isOpen_Ioi hw]
        have h3 := (hEd w hw).hasFDerivAt.fderiv
        rw [h3]
        ext
        simp) hx hy
  have hEl : Tendsto E (𝓝[>] 0) (𝓝 0) := by
    have hz0 : Tendsto (fun z : ℝ => 2 * (z ^ 2 + N ^ 2)) (𝓝[>] 0) (𝓝 (2 * (0 ^ 2 + N ^ 2))) :=
      (Continuous.tendsto (by fun_prop) 0).mono_left nhdsWithin_le_nhds
    have := ((l0.mul l2).sub ((l1.pow 2).const_mul (1 / 2))).sub (hz0.mul (l0.pow 2))
    rw [show (0 : ℝ) * 0 - 1 / 2 * 0 ^ 2 - 2 * (0 ^ 2 + N ^ 2) * 0 ^ 2 = 0 by ring] at this
    exact this
  have hE0 : ∀ z, 0 < z → E z = 0 := fun z hz => by
    have hc : Tendsto E (𝓝[>] 0) (𝓝 (E z)) := by
      refine tendsto_const_nhds.congr' ?_
      filter_upwards [self_mem_nhdsWithin] with w hw
      exact hEc z hz w hw
    exact tendsto_nhds_unique hc hEl
  -- no extremum away from zero
  by_contra hne
  set G : ℝ → ℝ := fun z => D z ^ 2 with hG
  have hGd : ∀ z, 0 < z → HasDerivAt G (2 * D z * D1 z / z) z := fun z hz =>
    ((h0 z hz).fun_pow 2).congr_deriv (by push_cast; simp only [pow_one]; ring)
  have hGz : 0 < G z := by positivity
  -- a maximum of `G` exists
  have hl0 : Tendsto G (𝓝[>] 0) (𝓝 0) := by simpa using l0.pow 2
  have hl1 : Tendsto G atTop (𝓝 0) := by simpa using hi.pow 2
  obtain ⟨a, ha0, ha⟩ : ∃ a, 0 < a ∧ a < z ∧ ∀ x, 0 < x → x ≤ a → G x < G z := by
    have := (hl0.eventually (gt_mem_nhds hGz))
    obtain ⟨u, hu, hsub⟩ := (mem_nhdsGT_iff_exists_Ioc_subset).1 this
    refine ⟨min u (z / 2), lt_min hu (by linarith), (min_le_right _ _).trans_lt (by linarith), fun x hx hxa => ?_⟩
    exact hsub ⟨hx, hxa.trans (min_le_left _ _)⟩
  obtain ⟨b, hb⟩ : ∃ b, z < b ∧ ∀ x, b ≤ x → G x < G z := by
    have := (hl1.eventually (gt_mem_nhds hGz))
    obtain ⟨u, hu⟩ := eventually_atTop.1 this
    exact ⟨max u (z + 1), (by linarith : z < z + 1).trans_le (le_max_right _ _), fun x hx => hu x ((le_max_left _ _).trans hx)⟩
  have hcont : ContinuousOn G (Icc a b) := fun x hx => (hGd x (ha0.trans_le hx.1)).continuousAt.continuousWithinAt
  obtain ⟨m, hm, hmax⟩ := isCompact_Icc.exists_isMaxOn ⟨z, ha.1.le, hb.1.le⟩ hcont
  have hmz : G z ≤ G m := hmax ⟨ha.1.le, hb.1.le⟩
  have hm0 : 0 < m := ha0.trans_le hm.1
  have ham : a < m := by
    rcases hm.1.lt_or_eq with h | h
    · exact h
    · have := ha.2 m hm0 h.ge; linarith
  have hmb : m < b := by
    rcases hm.2.lt_or_eq with h | h
    · exact h
    · have := hb.2 m h.ge; linarith
  have hDm : D m ≠ 0 := fun h => by
    have : G m = 0 := by simp [hG, h]
    linarith
  have hloc : IsLocalMax G m := by
    filter_upwards [Ioo_mem_nhds ham hmb] with x hx
    exact hmax ⟨hx.1.le, hx.2.le⟩
  have hd1 : D1 m = 0 := by
    have := hloc.hasDerivAt_eq_zero (hGd m hm0)
    have h3 : 2 * D m * D1 m = 0 := by
      rw [div_eq_zero_iff] at this
      rcases this with h | h
      · exact h
      · exact absurd h hm0.ne'
    rcases mul_eq_zero.1 h3 with h | h
    · exact absurd (mul_eq_zero.1 h |>.resolve_left two_ne_zero) hDm
    · exact h
  have hE' := hE0 m hm0
  simp only [hE, hd1] at hE'
  have hD2 : 0 < D m * D2 m := by
    have h3 : 0 < (m ^ 2 + N ^ 2) * D m ^ 2 := by positivity
    nlinarith
  -- the derivative of `G` is increasing through `m`
  have hder : HasDerivAt (fun x => 2 * D x * D1 x / x) (2 * (D m * D2 m) / m ^ 2) m := by
    refine ((((h0 m hm0).const_mul 2).fun_mul (h1 m hm0)).fun_div (hasDerivAt_id m) hm0.ne').congr_deriv ?_
    rw [hd1]
    simp only [id]
    field_simp
    ring
  have hpos : 0 < 2 * (D m * D2 m) / m ^ 2 := by positivity
  have hev : ∀ᶠ x in 𝓝[>] m, 0 < 2 * D x * D1 x / x := by
    have h3 := (hasDerivAt_iff_tendsto_slope.1 hder).eventually (lt_mem_nhds hpos)
    have h4 : ∀ᶠ x in 𝓝[>] m, 0 < slope (fun x => 2 * D x * D1 x / x) m x :=
      h3.filter_mono (nhdsWithin_mono m fun x hx => ne_of_gt hx)
    filter_upwards [h4, self_mem_nhdsWithin] with x hx hxm
    have hxm' : m < x := hxm
    rw [slope_def_field, hd1, mul_zero, zero_div, sub_zero] at hx
    exact (div_pos_iff_of_pos_right (sub_pos.2 hxm')).1 hx
  obtain ⟨u, hu, hsub⟩ := (mem_nhdsGT_iff_exists_Ioc_subset).1 hev
  have hu' : m < u := hu
  set w := min u b with hw
  have hmw : m < w := lt_min hu' hmb
  have hlt : G m < G w := by
    have hmono : StrictMonoOn G (Icc m w) := by
      refine strictMonoOn_of_deriv_pos (convex_Icc m w) (fun x hx => (hGd x (hm0.trans_le hx.1)).continuousAt.continuousWithinAt) fun x hx => ?_
      rw [interior_Icc] at hx
      rw [(hGd x (hm0.trans hx.1)).deriv]
      exact hsub ⟨hx.1, hx.2.le.trans (min_le_left _ _)⟩
    exact hmono (left_mem_Icc.2 hmw.le) (right_mem_Icc.2 hmw.le) hmw
  have : G w ≤ G m := hmax ⟨ham.le.trans hmw.le, min_le_right _ _⟩
  linarith

end Verif
