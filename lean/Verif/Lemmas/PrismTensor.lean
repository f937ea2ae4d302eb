import Verif.Lemmas.PrismNewton

/-! # Integrals of the second derivatives of `1/r` over a box that does not contain the origin (helper lemmas) -/

namespace Verif.Prism

open Real Set MeasureTheory

variable {x y z : ℝ} {a1 b1 a2 b2 a3 b3 : ℝ}

/-- The origin is not in the closed box. -/
def Outside (a1 b1 a2 b2 a3 b3 : ℝ) : Prop := ¬((a1 ≤ 0 ∧ 0 ≤ b1) ∧ (a2 ≤ 0 ∧ 0 ≤ b2) ∧ a3 ≤ 0 ∧ 0 ≤ b3)

theorem Outside.cyc (h : Outside a1 b1 a2 b2 a3 b3) : Outside a2 b2 a3 b3 a1 b1 := fun ⟨h1, h2, h3⟩ => h ⟨h3, h1, h2⟩

theorem Outside.rr_pos (h : Outside a1 b1 a2 b2 a3 b3) (hx : x ∈ Icc a1 b1) (hy : y ∈ Icc a2 b2) (hz : z ∈ Icc a3 b3) :
    0 < rr x y z := by
  refine rr_pos_of ?_
  by_contra hc
  push Not at hc
  obtain ⟨rfl, rfl, rfl⟩ := hc
  exact h ⟨hx, hy, hz⟩

/-- The cyclic relabelling of the coordinates preserves volume. -/
theorem measurePreserving_cyc : MeasurePreserving (fun q : ℝ × ℝ × ℝ => (q.2.1, q.2.2, q.1)) volume volume := by
  have h1 : MeasurePreserving (Prod.swap : ℝ × (ℝ × ℝ) → (ℝ × ℝ) × ℝ) := Measure.measurePreserving_swap
  have h2 : MeasurePreserving (MeasurableEquiv.prodAssoc : (ℝ × ℝ) × ℝ ≃ᵐ ℝ × ℝ × ℝ) := volume_preserving_prodAssoc
  exact h2.comp h1

theorem integral_cyc (g : ℝ × ℝ × ℝ → ℝ) :
    ∫ q in Ioc a1 b1 ×ˢ Ioc a2 b2 ×ˢ Ioc a3 b3, g (q.2.1, q.2.2, q.1) =
      ∫ q in Ioc a2 b2 ×ˢ Ioc a3 b3 ×ˢ Ioc a1 b1, g q := by
  have e : Ioc a1 b1 ×ˢ Ioc a2 b2 ×ˢ Ioc a3 b3 =
      (fun q : ℝ × ℝ × ℝ => (q.2.1, q.2.2, q.1)) ⁻¹' (Ioc a2 b2 ×ˢ Ioc a3 b3 ×ˢ Ioc a1 b1) := by
    ext q
    simp only [mem_prod, mem_preimage]
    tauto
  rw [e]
  refine measurePreserving_cyc.setIntegral_preimage_emb ?_ g _
  exact ((MeasurableEquiv.prodComm : ℝ × (ℝ × ℝ) ≃ᵐ (ℝ × ℝ) × ℝ).trans MeasurableEquiv.prodAssoc).measurableEmbedding

theorem corners_cyc (f : ℝ → ℝ → ℝ → ℝ) :
    corners (fun x y z => f y z x) a1 b1 a2 b2 a3 b3 = corners f a2 b2 a3 b3 a1 b1 := by
  simp only [corners]; ring

/-- A continuous function on the closed box is integrable over it. -/
theorem Outside.integrableOn {f : ℝ × ℝ × ℝ → ℝ} (h : ContinuousOn f (Icc a1 b1 ×ˢ Icc a2 b2 ×ˢ Icc a3 b3)) :
    IntegrableOn f (Ioc a1 b1 ×ˢ Ioc a2 b2 ×ˢ Ioc a3 b3) :=
  (h.integrableOn_compact (isCompact_Icc.prod (isCompact_Icc.prod isCompact_Icc))).mono_set
    (prod_mono Ioc_subset_Icc_self (prod_mono Ioc_subset_Icc_self Ioc_subset_Icc_self))

theorem Outside.continuousOn_div (h : Outside a1 b1 a2 b2 a3 b3) {f : ℝ × ℝ × ℝ → ℝ} (hf : Continuous f) (n : ℕ) :
    ContinuousOn (fun q : ℝ × ℝ × ℝ => f q / rr q.1 q.2.1 q.2.2 ^ n) (Icc a1 b1 ×ˢ Icc a2 b2 ×ˢ Icc a3 b3) :=
  hf.continuousOn.div (continuous_rr.pow n).continuousOn fun _ hq => pow_ne_zero n (h.rr_pos hq.1 hq.2.1 hq.2.2).ne'

/-! ### The entry `zz` -/

theorem hasDerivAt_zz1 (hx : x ≠ 0) :
    HasDerivAt (fun z => -z / rr x y z ^ 3) (3 * z * z / rr x y z ^ 5 - 1 / rr x y z ^ 3) z := by
  have hr := (rr_pos (y := y) (z := z) hx).ne'
  refine ((hasDerivAt_id' z).fun_neg.fun_div ((hasDerivAt_rr_z hx).fun_pow 3) (pow_ne_zero 3 hr)).congr_deriv ?_
  field_simp
  norm_num
  ring

theorem hasDerivAt_zz2 (hx : x ≠ 0) :
    HasDerivAt (fun y => -z * (y / ((x * x + z * z) * rr x y z))) (-z / rr x y z ^ 3) y := by
  have h := (hasDerivAt_z2 (y := z) (z := y) hx).const_mul (-z)
  have e : (fun y => -z * (y / ((x * x + z * z) * rr x z y))) = fun y => -z * (y / ((x * x + z * z) * rr x y z)) :=
    funext fun y => by rw [rr3 x y z]
  rw [e, rr3 x y z] at h
  exact h.congr_deriv (by ring)

theorem hasDerivAt_zz3 (hx : x ≠ 0) :
    HasDerivAt (fun x => -Py.prismFzz x y z) (-z * (y / ((x * x + z * z) * rr x y z))) x := by
  by_cases hz : z = 0
  · subst hz
    simpa [Py.prismFzz] using hasDerivAt_const x (0 : ℝ)
  · simp only [prismFzz_eq hz]
    refine (kgrad_at (x := x) (y := y) hz).dx.fun_neg.congr_deriv ?_
    have hr := (rr_pos (y := y) (z := z) hx).ne'
    have hxz := sq_add_ne hx z
    field_simp

theorem continuous_prismFzz_x (y z : ℝ) : Continuous fun x => -Py.prismFzz x y z := by
  by_cases hz : z = 0
  · subst hz
    simpa [Py.prismFzz] using continuous_const (y := (0 : ℝ))
  · simp only [prismFzz_eq hz]
    exact continuous_iff_continuousAt.2 fun x => (kgrad_at (x := x) (y := y) hz).dx.continuousAt.neg

theorem integral_zz (h1 : a1 ≤ b1) (h2 : a2 ≤ b2) (h3 : a3 ≤ b3) (ho : Outside a1 b1 a2 b2 a3 b3) :
    ∫ q in Ioc a1 b1 ×ˢ Ioc a2 b2 ×ˢ Ioc a3 b3, (3 * q.2.2 * q.2.2 / rr q.1 q.2.1 q.2.2 ^ 5 - 1 / rr q.1 q.2.1 q.2.2 ^ 3) =
      corners (fun x y z => -Py.prismFzz x y z) a1 b1 a2 b2 a3 b3 := by
  refine triple_integral h1 h2 h3 (countable_singleton (0 : ℝ)) (f := fun x y z => 3 * z * z / rr x y z ^ 5 - 1 / rr x y z ^ 3)
    (f1 := fun x y z => -z / rr x y z ^ 3) (f2 := fun x y z => -z * (y / ((x * x + z * z) * rr x y z)))
    (f3 := fun x y z => -Py.prismFzz x y z) ?_ ?_ ?_ ?_ ?_ ?_ ?_
  · exact Outside.integrableOn ((ho.continuousOn_div (by fun_prop) 5).sub (ho.continuousOn_div (by fun_prop) 3))
  · intro x _ hx
    have hr := continuous_rr_slice x
    exact ((Continuous.div (by fun_prop) (hr.pow 5) fun q => pow_ne_zero 5 (rr_pos hx).ne').sub
      (continuous_const.div (hr.pow 3) fun q => pow_ne_zero 3 (rr_pos hx).ne')).continuousOn
  · intro x _ hx y _ z _
    exact hasDerivAt_zz1 hx
  · intro x _ hx
    have key : ∀ z, Continuous fun y => -z / rr x y z ^ 3 := fun z =>
      continuous_const.div ((continuous_rr_y x z).pow 3) fun y => pow_ne_zero 3 (rr_pos hx).ne'
    exact ((key b3).sub (key a3)).continuousOn
  · intro x _ hx y _
    exact (hasDerivAt_zz2 hx).fun_sub (hasDerivAt_zz2 hx)
  · have key := continuous_prismFzz_x
    exact ((((key b2 b3).sub (key b2 a3)).sub (key a2 b3)).add (key a2 a3)).continuousOn
  · intro x _ hx
    have key := fun y z => hasDerivAt_zz3 (y := y) (z := z) hx
    exact (((key b2 b3).fun_sub (key b2 a3)).fun_sub (key a2 b3)).fun_add (key a2 a3)

/-! ### The entry `yz` -/

theorem hasDerivAt_yz1 (hx : x ≠ 0) : HasDerivAt (fun z => -y / rr x y z ^ 3) (3 * y * z / rr x y z ^ 5) z := by
  have hr := (rr_pos (y := y) (z := z) hx).ne'
  refine ((hasDerivAt_const z (-y)).fun_div ((hasDerivAt_rr_z hx).fun_pow 3) (pow_ne_zero 3 hr)).congr_deriv ?_
  field_simp
  norm_num
  ring

theorem hasDerivAt_yz2 (hx : x ≠ 0) : HasDerivAt (fun y => 1 / rr x y z) (-y / rr x y z ^ 3) y := by
  have hr := (rr_pos (y := y) (z := z) hx).ne'
  refine ((hasDerivAt_const y (1 : ℝ)).fun_div (kgrad_rr hr).dy hr).congr_deriv ?_
  field_simp
  ring

theorem rr_axis (x : ℝ) : rr x 0 0 = |x| := by
  rw [rr, ← Real.sqrt_sq_eq_abs]; congr 1; ring

theorem prismFzy_axis (x : ℝ) : -Py.prismFzy x 0 0 = if 0 < x then log (2 * x) else if x < 0 then -log (-2 * x) else 0 := by
  have e : √(x * x + 0 * 0 + 0 * 0) = |x| := rr_axis x
  simp only [Py.prismFzy, e]
  rcases lt_trichotomy x 0 with h | h | h
  · have h0 : x + |x| = 0 := by rw [abs_of_neg h]; ring
    simp [h0, h, not_lt.2 h.le]
  · subst h
    simp
  · have h0 : x + |x| ≠ 0 := by rw [abs_of_pos h]; positivity
    have h1 : x + |x| = 2 * x := by rw [abs_of_pos h]; ring
    simp [h, h1, h.ne']

theorem lg_deriv_x {x y z : ℝ} (h : 0 < x + rr x y z) (hr : rr x y z ≠ 0) :
    HasDerivAt (fun x => lg x y z) (1 / rr x y z) x := by
  refine (((hasDerivAt_id' x).fun_add (kgrad_rr hr).dx).log h.ne').congr_deriv ?_
  field_simp
  ring

theorem prismFzy_off (h : y ≠ 0 ∨ z ≠ 0) : Py.prismFzy x y z = -lg x y z := by
  have h3 : 0 < x + rr x y z := by
    rcases h with h | h
    · exact add_rr_pos h
    · rw [← rr3]; exact add_rr_pos h
  unfold Py.prismFzy lg
  change 0 < x + √(x * x + y * y + z * z) at h3
  simp only [ne_eq, h3.ne', not_false_eq_true, if_true]
  rfl

theorem add_rr_pos' (h : y ≠ 0 ∨ z ≠ 0) : 0 < x + rr x y z := by
  rcases h with h | h
  · exact add_rr_pos h
  · rw [← rr3]; exact add_rr_pos h

theorem hasDerivAt_yz3 (hx : x ≠ 0 ∨ y ≠ 0 ∨ z ≠ 0) : HasDerivAt (fun x => -Py.prismFzy x y z) (1 / rr x y z) x := by
  by_cases h : y ≠ 0 ∨ z ≠ 0
  · simp only [prismFzy_off h, neg_neg]
    exact lg_deriv_x (add_rr_pos' h) (rr_pos_of hx).ne'
  · push Not at h
    obtain ⟨rfl, rfl⟩ := h
    have hx0 : x ≠ 0 := by simpa using hx
    simp only [prismFzy_axis, rr_axis]
    rcases lt_or_gt_of_ne hx0 with h | h
    · have hd : HasDerivAt (fun x : ℝ => -log (-2 * x)) (1 / |x|) x := by
        have h1 : HasDerivAt (fun x : ℝ => -2 * x) (-2) x := by simpa using (hasDerivAt_id x).const_mul (-2 : ℝ)
        refine (h1.log (by linarith : -2 * x ≠ 0)).fun_neg.congr_deriv ?_
        rw [abs_of_neg h]
        field_simp
      refine hd.congr_of_eventuallyEq ?_
      filter_upwards [gt_mem_nhds h] with x' hx'
      rw [if_neg (not_lt.2 hx'.le), if_pos hx']
    · have hd : HasDerivAt (fun x : ℝ => log (2 * x)) (1 / |x|) x := by
        have h1 : HasDerivAt (fun x : ℝ => 2 * x) 2 x := by simpa using (hasDerivAt_id x).const_mul (2 : ℝ)
        refine (h1.log (by positivity)).congr_deriv ?_
        rw [abs_of_pos h]
        field_simp
      refine hd.congr_of_eventuallyEq ?_
      filter_upwards [lt_mem_nhds h] with x' hx'
      rw [if_pos hx']

theorem integral_yz (h1 : a1 ≤ b1) (h2 : a2 ≤ b2) (h3 : a3 ≤ b3) (ho : Outside a1 b1 a2 b2 a3 b3) :
    ∫ q in Ioc a1 b1 ×ˢ Ioc a2 b2 ×ˢ Ioc a3 b3, 3 * q.2.1 * q.2.2 / rr q.1 q.2.1 q.2.2 ^ 5 =
      corners (fun x y z => -Py.prismFzy x y z) a1 b1 a2 b2 a3 b3 := by
  refine triple_integral h1 h2 h3 (countable_singleton (0 : ℝ)) (f := fun x y z => 3 * y * z / rr x y z ^ 5)
    (f1 := fun x y z => -y / rr x y z ^ 3) (f2 := fun x y z => 1 / rr x y z)
    (f3 := fun x y z => -Py.prismFzy x y z) ?_ ?_ ?_ ?_ ?_ ?_ ?_
  · exact Outside.integrableOn (ho.continuousOn_div (by fun_prop) 5)
  · intro x _ hx
    have hr := continuous_rr_slice x
    exact (Continuous.div (by fun_prop) (hr.pow 5) fun q => pow_ne_zero 5 (rr_pos hx).ne').continuousOn
  · intro x _ hx y _ z _
    exact hasDerivAt_yz1 hx
  · intro x _ hx
    have key : ∀ z, Continuous fun y => -y / rr x y z ^ 3 := fun z =>
      continuous_neg.div ((continuous_rr_y x z).pow 3) fun y => pow_ne_zero 3 (rr_pos hx).ne'
    exact ((key b3).sub (key a3)).continuousOn
  · intro x _ hx y _
    exact (hasDerivAt_yz2 hx).fun_sub (hasDerivAt_yz2 hx)
  · have key : ∀ y ∈ Icc a2 b2, ∀ z ∈ Icc a3 b3, ContinuousOn (fun x => -Py.prismFzy x y z) (Icc a1 b1) :=
      fun y hy z hz x hx => by
        refine (hasDerivAt_yz3 ?_).continuousAt.continuousWithinAt
        by_contra hc
        push Not at hc
        obtain ⟨rfl, rfl, rfl⟩ := hc
        exact ho ⟨hx, hy, hz⟩
    have m2 : a2 ∈ Icc a2 b2 := ⟨le_rfl, h2⟩
    have m2' : b2 ∈ Icc a2 b2 := ⟨h2, le_rfl⟩
    have m3 : a3 ∈ Icc a3 b3 := ⟨le_rfl, h3⟩
    have m3' : b3 ∈ Icc a3 b3 := ⟨h3, le_rfl⟩
    exact (((key b2 m2' b3 m3').sub (key b2 m2' a3 m3)).sub (key a2 m2 b3 m3')).add (key a2 m2 a3 m3)
  · intro x _ hx
    have key := fun y z => hasDerivAt_yz3 (y := y) (z := z) (.inl hx)
    exact (((key b2 b3).fun_sub (key b2 a3)).fun_sub (key a2 b3)).fun_add (key a2 a3)

/-! ### All entries -/

theorem fzx_eq_fzy (x y z : ℝ) : Py.prismFzx x y z = Py.prismFzy y z x := by
  unfold Py.prismFzx Py.prismFzy
  have : √(y * y + z * z + x * x) = √(x * x + y * y + z * z) := by congr 1; ring
  rw [this]

theorem integral_tensor (h1 : a1 ≤ b1) (h2 : a2 ≤ b2) (h3 : a3 ≤ b3) (ho : Outside a1 b1 a2 b2 a3 b3) :
    (∫ q in Ioc a1 b1 ×ˢ Ioc a2 b2 ×ˢ Ioc a3 b3, (3 * q.1 * q.1 / rr q.1 q.2.1 q.2.2 ^ 5 - 1 / rr q.1 q.2.1 q.2.2 ^ 3) =
      corners (fun x y z => -Py.prismFzz y z x) a1 b1 a2 b2 a3 b3) ∧
    (∫ q in Ioc a1 b1 ×ˢ Ioc a2 b2 ×ˢ Ioc a3 b3, (3 * q.2.1 * q.2.1 / rr q.1 q.2.1 q.2.2 ^ 5 - 1 / rr q.1 q.2.1 q.2.2 ^ 3) =
      corners (fun x y z => -Py.prismFzz z x y) a1 b1 a2 b2 a3 b3) ∧
    (∫ q in Ioc a1 b1 ×ˢ Ioc a2 b2 ×ˢ Ioc a3 b3, 3 * q.1 * q.2.1 / rr q.1 q.2.1 q.2.2 ^ 5 =
      corners (fun x y z => -Py.prismFzx y z x) a1 b1 a2 b2 a3 b3) ∧
    (∫ q in Ioc a1 b1 ×ˢ Ioc a2 b2 ×ˢ Ioc a3 b3, 3 * q.1 * q.2.2 / rr q.1 q.2.1 q.2.2 ^ 5 =
      corners (fun x y z => -Py.prismFzx x y z) a1 b1 a2 b2 a3 b3) := by
  have c1 := fun g => integral_cyc (a1 := a1) (b1 := b1) (a2 := a2) (b2 := b2) (a3 := a3) (b3 := b3) g
  have c2 := fun g => integral_cyc (a1 := a2) (b1 := b2) (a2 := a3) (b2 := b3) (a3 := a1) (b3 := b1) g
  refine ⟨?_, ?_, ?_, ?_⟩
  · have e := c1 fun q => 3 * q.2.2 * q.2.2 / rr q.1 q.2.1 q.2.2 ^ 5 - 1 / rr q.1 q.2.1 q.2.2 ^ 3
    rw [corners_cyc (fun x y z => -Py.prismFzz x y z), ← integral_zz h2 h3 h1 ho.cyc, ← e]
    simp only [rr1]
  · have e := c2 fun q => 3 * q.2.2 * q.2.2 / rr q.1 q.2.1 q.2.2 ^ 5 - 1 / rr q.1 q.2.1 q.2.2 ^ 3
    have e' := c1 fun q => 3 * q.1 * q.1 / rr q.2.1 q.2.2 q.1 ^ 5 - 1 / rr q.2.1 q.2.2 q.1 ^ 3
    rw [corners_cyc (fun x y z => -Py.prismFzz y z x), corners_cyc (fun x y z => -Py.prismFzz x y z),
      ← integral_zz h3 h1 h2 ho.cyc.cyc, ← e, ← e']
    simp only [rr2]
  · simp only [fzx_eq_fzy]
    have e := c2 fun q => 3 * q.2.1 * q.2.2 / rr q.1 q.2.1 q.2.2 ^ 5
    have e' := c1 fun q => 3 * q.2.2 * q.1 / rr q.2.1 q.2.2 q.1 ^ 5
    rw [corners_cyc (fun x y z => -Py.prismFzy y z x), corners_cyc (fun x y z => -Py.prismFzy x y z),
      ← integral_yz h3 h1 h2 ho.cyc.cyc, ← e, ← e']
    simp only [rr2]
  · simp only [fzx_eq_fzy]
    have e := c1 fun q => 3 * q.2.1 * q.2.2 / rr q.1 q.2.1 q.2.2 ^ 5
    rw [corners_cyc (fun x y z => -Py.prismFzy x y z), ← integral_yz h2 h3 h1 ho.cyc, ← e]
    simp only [rr1]
    congr 1
    funext q
    ring

end Verif.Prism
