import Verif.Lemmas.PrismEval
import Verif.Lemmas.TripleIntegral
import Mathlib.Analysis.SpecialFunctions.Log.NegMulLog

/-! # The prism kernels as antiderivatives, coordinate planes included (helper lemmas) -/

namespace Verif.Prism

open Real Set Filter Topology

variable {x y z : ℝ}

theorem KGrad.dx {f : ℝ → ℝ → ℝ → ℝ} {gx gy gz : ℝ} (h : KGrad f gx gy gz x y z) :
    HasDerivAt (fun x => f x y z) gx x := by
  have := h 1 0 0
  simp only [mul_one, mul_zero, add_zero, one_mul, zero_mul] at this
  rw [← sub_self x] at this
  simpa using this.comp_sub_const x x

theorem KGrad.dy {f : ℝ → ℝ → ℝ → ℝ} {gx gy gz : ℝ} (h : KGrad f gx gy gz x y z) :
    HasDerivAt (fun y => f x y z) gy y := by
  have := h 0 1 0
  simp only [mul_one, mul_zero, add_zero, zero_add, one_mul, zero_mul] at this
  rw [← sub_self y] at this
  simpa using this.comp_sub_const y y

theorem KGrad.dz {f : ℝ → ℝ → ℝ → ℝ} {gx gy gz : ℝ} (h : KGrad f gx gy gz x y z) :
    HasDerivAt (fun z => f x y z) gz z := by
  have := h 0 0 1
  simp only [mul_one, mul_zero, add_zero, zero_add, one_mul, zero_mul] at this
  rw [← sub_self z] at this
  simpa using this.comp_sub_const z z

/-! ### Values on coordinate planes -/

theorem rr_pos_of (h : x ≠ 0 ∨ y ≠ 0 ∨ z ≠ 0) : 0 < rr x y z := by
  rcases h with h | h | h
  · exact rr_pos h
  · rw [← rr1]; exact rr_pos h
  · rw [← rr2]; exact rr_pos h

theorem prismFz_eq' (hz : z ≠ 0) : Py.prismFz x y z = x * lg y z x + y * lg x z y - z * at' x y z := by
  have h2 : 0 < x + rr x y z := by rw [← rr3]; exact add_rr_pos hz
  have h3 : 0 < y + rr x y z := by rw [← rr1]; exact add_rr_pos hz
  unfold Py.prismFz lg at'
  rw [rr1 x y z, rr3 x y z]
  unfold rr at *
  by_cases hx : x = 0 <;> by_cases hy : y = 0 <;> simp_all

theorem prismF_eq' (hx : x ≠ 0) :
    Py.prismF x y z = -(x * y * lg z x y) - y * z * lg x y z - x * z * lg y x z
      + 0.5 * x * x * at' y z x + 0.5 * y * y * at' z x y + 0.5 * z * z * at' x y z := by
  have h1 : 0 < z + rr x y z := by rw [← rr2]; exact add_rr_pos hx
  have h3 : 0 < y + rr x y z := by rw [← rr_swap]; exact add_rr_pos hx
  by_cases hy : y = 0
  · subst hy
    unfold Py.prismF lg at'
    rw [rr_swap x 0 z]
    unfold rr at *
    by_cases hz : z = 0 <;> simp_all
  by_cases hz : z = 0
  · subst hz
    unfold Py.prismF lg at'
    rw [rr2 x y 0]
    unfold rr at *
    simp_all
  · rw [prismF_eq hx hy hz, lg_swap y x z]

/-- `∫ dz / r`. -/
theorem hasDerivAt_inv_r (hx : x ≠ 0) : HasDerivAt (fun z => lg z x y) (1 / rr x y z) z := by
  have := (kgrad_lg (x := z) (y := x) (z := y) hx).dx
  rwa [rr2] at this

/-- `∫ dy log (z + r)`, up to a term without `z`. -/
theorem hasDerivAt_log_r (hx : x ≠ 0) :
    HasDerivAt (fun y => Py.prismFz y z x) (lg z x y + y * y / (x * x + y * y)) y := by
  have e : (fun y => Py.prismFz y z x) = fun y => y * lg z x y + z * lg y x z - x * at' y z x :=
    funext fun y => prismFz_eq' hx
  rw [e]
  have h1 := (kgrad_lg (x := z) (y := x) (z := y) hx).dz
  have h2 := (kgrad_lg (x := y) (y := x) (z := z) hx).dx
  have h3 := (kgrad_at (x := y) (y := z) (z := x) hx).dx
  refine ((((hasDerivAt_id' y).fun_mul h1).fun_add (h2.const_mul z)).fun_sub (h3.const_mul x)).congr_deriv ?_
  have hr := (rr_pos (y := y) (z := z) hx).ne'
  have hxy := sq_add_ne hx y
  rw [rr1 x y z, rr2 x y z, rr_swap x y z, add_comm (y * y) (x * x)]
  generalize lg z x y = l1
  generalize rr x y z = r at *
  field_simp
  ring

/-- `∫ dx` of the last, up to terms without `y` or without `z`. -/
theorem hasDerivAt_prismF (hx : x ≠ 0) :
    HasDerivAt (fun x => -Py.prismF x y z)
      (Py.prismFz y z x + x * x * y / (x * x + y * y) + x * x * z / (x * x + z * z)) x := by
  by_cases hy : y = 0
  · subst hy
    have ev : (fun x => -Py.prismF x 0 z) =ᶠ[𝓝 x] fun x => x * (z * lg 0 x z) := by
      filter_upwards [isOpen_ne.mem_nhds hx] with x' hx'
      rw [prismF_eq' hx']
      simp [at']
      ring
    have h1 := (kgrad_lg (x := 0) (y := x) (z := z) hx).dy
    refine (((hasDerivAt_id' x).fun_mul (h1.const_mul z)).congr_of_eventuallyEq ev).congr_deriv ?_
    rw [prismFz_eq' hx]
    have hr : rr 0 x z ≠ 0 := (rr_pos_of (.inr (.inl hx))).ne'
    have hxz := sq_add_ne hx z
    simp only [at', zero_mul, zero_div, arctan_zero, mul_zero, sub_zero, zero_add, one_mul, add_zero]
    generalize lg 0 x z = l1
    generalize rr 0 x z = r at *
    field_simp
  by_cases hz : z = 0
  · subst hz
    have ev : (fun x => -Py.prismF x y 0) =ᶠ[𝓝 x] fun x => x * (y * lg 0 x y) := by
      filter_upwards [isOpen_ne.mem_nhds hx] with x' hx'
      rw [prismF_eq' hx']
      simp [at']
      ring
    have h1 := (kgrad_lg (x := 0) (y := x) (z := y) hx).dy
    refine (((hasDerivAt_id' x).fun_mul (h1.const_mul y)).congr_of_eventuallyEq ev).congr_deriv ?_
    rw [prismFz_eq' hx]
    have hr : rr 0 x y ≠ 0 := (rr_pos_of (.inr (.inl hx))).ne'
    have hxy := sq_add_ne hx y
    simp only [at', zero_mul, zero_div, arctan_zero, mul_zero, sub_zero, one_mul, add_zero]
    generalize lg 0 x y = l1
    generalize rr 0 x y = r at *
    field_simp
  · refine (kgrad_prismF x y z hx hy hz).dx.fun_neg.congr_deriv ?_
    ring

/-! ### The kernels everywhere, and their continuity -/

theorem rr_add_nonneg (x y z : ℝ) : 0 ≤ y + rr x y z := by
  have h : |y| ≤ rr x y z := by
    rw [rr, ← Real.sqrt_sq_eq_abs]
    exact Real.sqrt_le_sqrt (by nlinarith [mul_self_nonneg x, mul_self_nonneg z])
  linarith [neg_abs_le y]

theorem ite_add_step {P : Prop} [Decidable P] {o t : ℝ} (h : ¬P → t = 0) : (if P then o + t else o) = o + t := by
  by_cases hP : P
  · rw [if_pos hP]
  · rw [if_neg hP, h hP, add_zero]

theorem ite_sub_step {P : Prop} [Decidable P] {o t : ℝ} (h : ¬P → t = 0) : (if P then o - t else o) = o - t := by
  by_cases hP : P
  · rw [if_pos hP]
  · rw [if_neg hP, h hP, sub_zero]

theorem mul_log_eq_zero {a u : ℝ} (hu : 0 ≤ u) (h : ¬(a ≠ 0 ∧ u > 0)) : a * log u = 0 := by
  by_cases ha : a = 0
  · rw [ha, zero_mul]
  · have : u = 0 := le_antisymm (not_lt.1 fun hp => h ⟨ha, hp⟩) hu
    rw [this, log_zero, mul_zero]

open Classical in
theorem prismFz_all (x y z : ℝ) :
    Py.prismFz x y z = x * lg y z x + y * lg x y z - z * at' x y z := by
  have h2 : 0 ≤ x + rr x y z := by rw [← rr_swap]; exact rr_add_nonneg y x z
  have h3 := rr_add_nonneg x y z
  unfold Py.prismFz lg at'
  rw [rr1 x y z]
  unfold rr at *
  simp only
  rw [ite_add_step (mul_log_eq_zero h3), ite_add_step (mul_log_eq_zero h2), ite_sub_step, zero_add]
  intro h
  rw [not_not.1 h, zero_mul]

open Classical in
theorem prismF_all (x y z : ℝ) :
    Py.prismF x y z = -(x * (y * lg z x y)) - y * (z * lg x y z) - z * (x * lg y z x)
      + 0.5 * x * (x * at' y z x) + 0.5 * y * (y * at' z x y) + 0.5 * z * (z * at' x y z) := by
  have h1 : 0 ≤ z + rr x y z := by rw [← rr1]; exact rr_add_nonneg y z x
  have h2 : 0 ≤ x + rr x y z := by rw [← rr_swap]; exact rr_add_nonneg y x z
  have h3 := rr_add_nonneg x y z
  have key : ∀ {a b u : ℝ}, 0 ≤ u → ¬(a ≠ 0 ∧ b ≠ 0 ∧ u > 0) → a * b * log u = 0 := by
    intro a b u hu h
    refine mul_log_eq_zero hu fun ⟨h1, h2⟩ => h ⟨left_ne_zero_of_mul h1, right_ne_zero_of_mul h1, h2⟩
  have k2 : ∀ {a t : ℝ}, ¬(a ≠ 0) → 0.5 * a * a * t = 0 := by
    intro a t h
    rw [not_not.1 h]; ring
  unfold Py.prismF lg at'
  rw [rr1 x y z, rr2 x y z]
  unfold rr at *
  simp only
  rw [ite_sub_step (key h1), ite_sub_step (key h2), ite_sub_step (key h3), ite_add_step k2, ite_add_step k2,
    ite_add_step k2, mul_comm z x]
  ring

theorem continuous_rr : Continuous fun p : ℝ × ℝ × ℝ => rr p.1 p.2.1 p.2.2 := by
  unfold rr; fun_prop

/-- `x log (y + r)` is continuous on all of space. -/
theorem continuous_mul_lg : Continuous fun p : ℝ × ℝ × ℝ => p.1 * lg p.2.1 p.2.2 p.1 := by
  have hu : Continuous fun p : ℝ × ℝ × ℝ => p.2.1 + rr p.2.1 p.2.2 p.1 := by
    simp only [rr]; fun_prop
  have hv : Continuous fun p : ℝ × ℝ × ℝ => rr p.2.1 p.2.2 p.1 - p.2.1 := by
    simp only [rr]; fun_prop
  have hb : Continuous fun p : ℝ × ℝ × ℝ => √(rr p.2.1 p.2.2 p.1 - p.2.1) *
      |√(p.2.1 + rr p.2.1 p.2.2 p.1) * log √(p.2.1 + rr p.2.1 p.2.2 p.1)| :=
    (continuous_sqrt.comp hv).mul (continuous_abs.comp (continuous_mul_log.comp (continuous_sqrt.comp hu)))
  rw [continuous_iff_continuousAt]
  intro p
  by_cases h : p.2.1 + rr p.2.1 p.2.2 p.1 = 0
  · have h0 : p.1 * lg p.2.1 p.2.2 p.1 = 0 := by rw [lg, h, log_zero, mul_zero]
    rw [ContinuousAt, h0]
    refine squeeze_zero_norm (a := fun p : ℝ × ℝ × ℝ => 2 * (√(rr p.2.1 p.2.2 p.1 - p.2.1) *
      |√(p.2.1 + rr p.2.1 p.2.2 p.1) * log √(p.2.1 + rr p.2.1 p.2.2 p.1)|)) (fun q => ?_) ?_
    · obtain ⟨x, y, z⟩ := q
      simp only [lg, Real.norm_eq_abs]
      have hu0 : 0 ≤ y + rr y z x := by rw [rr1 x y z]; exact rr_add_nonneg x y z
      have hv0 : 0 ≤ rr y z x - y := by
        have := rr_add_nonneg x (-y) z
        have e : rr x (-y) z = rr y z x := by unfold rr; congr 1; ring
        rw [e] at this; linarith
      have hsq : x ^ 2 ≤ (rr y z x - y) * (y + rr y z x) := by
        have := rr_sq y z x
        nlinarith [sq_nonneg z]
      have hx : |x| ≤ √(rr y z x - y) * √(y + rr y z x) := by
        rw [← Real.sqrt_mul hv0]
        exact Real.abs_le_sqrt hsq
      have hl : log (y + rr y z x) = 2 * log √(y + rr y z x) := by
        rw [log_sqrt hu0]; ring
      rw [abs_mul, hl, abs_mul, abs_mul, abs_of_pos (two_pos : (0 : ℝ) < 2), abs_of_nonneg (sqrt_nonneg (y + rr y z x))]
      have hn := abs_nonneg (log √(y + rr y z x))
      nlinarith [mul_le_mul_of_nonneg_right hx hn]
    · have := (hb.const_mul 2).tendsto p
      simpa [h] using this
  · have hu' := hu.continuousAt (x := p)
    unfold lg
    exact continuous_fst.continuousAt.mul (hu'.log h)

/-- `z arctan (x y / (z r))` is continuous on all of space. -/
theorem continuous_mul_at : Continuous fun p : ℝ × ℝ × ℝ => p.2.2 * at' p.1 p.2.1 p.2.2 := by
  rw [continuous_iff_continuousAt]
  intro p
  by_cases h : p.2.2 = 0
  · rw [ContinuousAt, h, zero_mul]
    refine squeeze_zero_norm (a := fun p : ℝ × ℝ × ℝ => |p.2.2| * (π / 2)) (fun q => ?_) ?_
    · rw [norm_mul, Real.norm_eq_abs, Real.norm_eq_abs]
      refine mul_le_mul_of_nonneg_left ?_ (abs_nonneg _)
      rw [at', abs_le]
      exact ⟨(neg_pi_div_two_lt_arctan _).le, (arctan_lt_pi_div_two _).le⟩
    · have : Continuous fun p : ℝ × ℝ × ℝ => |p.2.2| * (π / 2) := by fun_prop
      have := this.tendsto p
      simpa [h] using this
  · have hr : rr p.1 p.2.1 p.2.2 ≠ 0 := (rr_pos_of (.inr (.inr h))).ne'
    unfold at'
    have hrc := continuous_rr.continuousAt (x := p)
    refine ContinuousAt.mul (by fun_prop) (continuous_arctan.continuousAt.comp ?_)
    exact ContinuousAt.div (by fun_prop) (ContinuousAt.mul (by fun_prop) hrc) (mul_ne_zero h hr)

/-- `prism_fz` is continuous on all of space. -/
theorem continuous_prismFz : Continuous fun p : ℝ × ℝ × ℝ => Py.prismFz p.1 p.2.1 p.2.2 := by
  simp only [prismFz_all]
  have h2 : Continuous fun p : ℝ × ℝ × ℝ => p.2.1 * lg p.1 p.2.1 p.2.2 := by
    have := continuous_mul_lg.comp (g := fun p : ℝ × ℝ × ℝ => p.1 * lg p.2.1 p.2.2 p.1)
      (f := fun p : ℝ × ℝ × ℝ => (p.2.1, p.1, p.2.2)) (by fun_prop)
    simpa only [Function.comp_def, lg_swap] using this
  exact (continuous_mul_lg.add h2).sub continuous_mul_at

/-- `prism_f` is continuous on all of space. -/
theorem continuous_prismF : Continuous fun p : ℝ × ℝ × ℝ => Py.prismF p.1 p.2.1 p.2.2 := by
  simp only [prismF_all]
  have a1 := continuous_mul_lg
  have a2 := continuous_mul_lg.comp (f := fun p : ℝ × ℝ × ℝ => (p.2.1, p.2.2, p.1)) (by fun_prop)
  have a3 := continuous_mul_lg.comp (f := fun p : ℝ × ℝ × ℝ => (p.2.2, p.1, p.2.1)) (by fun_prop)
  have b1 := continuous_mul_at
  have b2 := continuous_mul_at.comp (f := fun p : ℝ × ℝ × ℝ => (p.2.1, p.2.2, p.1)) (by fun_prop)
  have b3 := continuous_mul_at.comp (f := fun p : ℝ × ℝ × ℝ => (p.2.2, p.1, p.2.1)) (by fun_prop)
  simp only [Function.comp_def] at a2 a3 b2 b3
  fun_prop

end Verif.Prism
