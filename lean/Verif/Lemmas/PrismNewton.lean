import Verif.Lemmas.PrismAntideriv

/-! # Integrals of `1/r` and `q/r³` over a box, in closed form (helper lemmas) -/

namespace Verif.Prism

open Real Set MeasureTheory

variable {x y z : ℝ}

/-- The corner sum of `_eval_def_int`, for the box `(a1, b1] × (a2, b2] × (a3, b3]`. -/
def corners (f : ℝ → ℝ → ℝ → ℝ) (a1 b1 a2 b2 a3 b3 : ℝ) : ℝ :=
  f b1 b2 b3 - f b1 b2 a3 - f b1 a2 b3 + f b1 a2 a3 - f a1 b2 b3 + f a1 b2 a3 + f a1 a2 b3 - f a1 a2 a3

theorem hasDerivAt_rr_z (hx : x ≠ 0) : HasDerivAt (fun z => rr x y z) (z / rr x y z) z :=
  (kgrad_rr (rr_pos hx).ne').dz

/-- `∫ z dz / r³`. -/
theorem hasDerivAt_z1 (hx : x ≠ 0) : HasDerivAt (fun z => -1 / rr x y z) (z / rr x y z ^ 3) z := by
  have hr := (rr_pos (y := y) (z := z) hx).ne'
  refine ((hasDerivAt_const z (-1 : ℝ)).fun_div (hasDerivAt_rr_z hx) hr).congr_deriv ?_
  field_simp
  ring

/-- `∫ dz / r³`. -/
theorem hasDerivAt_z2 (hx : x ≠ 0) :
    HasDerivAt (fun z => z / ((x * x + y * y) * rr x y z)) (1 / rr x y z ^ 3) z := by
  have hr := (rr_pos (y := y) (z := z) hx).ne'
  have hxy := sq_add_ne hx y
  refine ((hasDerivAt_id' z).fun_div ((hasDerivAt_rr_z hx).const_mul (x * x + y * y)) (mul_ne_zero hxy hr)).congr_deriv ?_
  have hsq := rr_sq x y z
  generalize rr x y z = r at *
  field_simp
  linear_combination hsq

theorem hasDerivAt_y_lg (x y z : ℝ) : HasDerivAt (fun x => y * lg x y z) (y / rr x y z) x := by
  by_cases hy : y = 0
  · subst hy
    simpa using hasDerivAt_const x (0 : ℝ)
  · refine ((kgrad_lg (x := x) (z := z) hy).dx.const_mul y).congr_deriv ?_
    ring

theorem hasDerivAt_z_at (x y z : ℝ) : HasDerivAt (fun x => z * at' x y z) (y * z * z / (rr x y z * (x * x + z * z))) x := by
  by_cases hz : z = 0
  · subst hz
    simpa using hasDerivAt_const x (0 : ℝ)
  · refine ((kgrad_at (x := x) (y := y) hz).dx.const_mul z).congr_deriv ?_
    ring

/-- `∫ dx log (y + r)`, up to a term without `y`. -/
theorem hasDerivAt_prismFz_x (hx : x ≠ 0) :
    HasDerivAt (fun x => Py.prismFz x y z) (lg y x z + x * x / (x * x + z * z)) x := by
  simp only [prismFz_all]
  have h1 := (kgrad_lg (x := y) (y := x) (z := z) hx).dy
  have e : (fun x' => lg y x' z) = fun x' => lg y z x' := funext fun x' => (lg_swap y z x')
  rw [e] at h1
  refine ((((hasDerivAt_id' x).fun_mul h1).fun_add (hasDerivAt_y_lg x y z)).fun_sub (hasDerivAt_z_at x y z)).congr_deriv ?_
  have hr := (rr_pos (y := y) (z := z) hx).ne'
  have hxz := sq_add_ne hx z
  rw [rr_swap x y z, lg_swap y z x]
  generalize lg y z x = l
  generalize rr x y z = r at *
  field_simp
  ring

theorem prismFz_swap (x y z : ℝ) : Py.prismFz y x z = Py.prismFz x y z := by
  rw [prismFz_all, prismFz_all, at_swap, lg_swap x y z, lg_swap y x z]
  ring

/-- `∫ dx arctan (y z / (x r))`, up to terms without `z` or without `y`. -/
theorem hasDerivAt_prismFz_z (hx : x ≠ 0) :
    HasDerivAt (fun x => -Py.prismFz y z x) (at' y z x - y * x / (x * x + y * y) - z * x / (x * x + z * z)) x := by
  simp only [prismFz_all]
  have h1 := ((kgrad_lg (x := z) (y := x) (z := y) hx).dy).const_mul y
  have h2 := (kgrad_lg (x := y) (y := x) (z := z) hx).dy
  have e : (fun x' => lg y x' z) = fun x' => lg y z x' := funext fun x' => (lg_swap y z x')
  rw [e] at h2
  have h3 := (hasDerivAt_id' x).fun_mul (kgrad_at (x := y) (y := z) (z := x) hx).dz
  refine ((h1.fun_add (h2.const_mul z)).fun_sub h3).fun_neg.congr_deriv ?_
  have hr := (rr_pos (y := y) (z := z) hx).ne'
  have hxz := sq_add_ne hx z
  have hxy := sq_add_ne hx y
  rw [rr_swap x y z, rr1 x y z, rr2 x y z, add_comm (y * y) (x * x), add_comm (z * z) (x * x)]
  generalize at' y z x = l
  generalize rr x y z = r at *
  field_simp
  ring

/-! ### Integrability -/

theorem norm_le_rr (q : ℝ × ℝ × ℝ) : ‖q‖ ≤ rr q.1 q.2.1 q.2.2 := by
  obtain ⟨x, y, z⟩ := q
  have hx := mul_self_nonneg x
  have hy := mul_self_nonneg y
  have hz := mul_self_nonneg z
  simp only [Prod.norm_def, Real.norm_eq_abs, rr]
  refine max_le ?_ (max_le ?_ ?_) <;> rw [← Real.sqrt_sq_eq_abs] <;> exact Real.sqrt_le_sqrt (by nlinarith)

theorem measurable_rr : Measurable fun q : ℝ × ℝ × ℝ => rr q.1 q.2.1 q.2.2 := continuous_rr.measurable

theorem isBounded_box (a1 b1 a2 b2 a3 b3 : ℝ) : Bornology.IsBounded (Ioc a1 b1 ×ˢ Ioc a2 b2 ×ˢ Ioc a3 b3) :=
  (Metric.isBounded_Ioc a1 b1).prod ((Metric.isBounded_Ioc a2 b2).prod (Metric.isBounded_Ioc a3 b3))

theorem abs_le_rr (x y z : ℝ) : |x| ≤ rr x y z ∧ |y| ≤ rr x y z ∧ |z| ≤ rr x y z := by
  have hx := mul_self_nonneg x
  have hy := mul_self_nonneg y
  have hz := mul_self_nonneg z
  refine ⟨?_, ?_, ?_⟩ <;> rw [← Real.sqrt_sq_eq_abs] <;> exact Real.sqrt_le_sqrt (by nlinarith)

/-- `c / r³` with `|c| ≤ r` is integrable over a box. -/
theorem integrableOn_cube (a1 b1 a2 b2 a3 b3 : ℝ) {c : ℝ × ℝ × ℝ → ℝ} (hm : Measurable c)
    (hc : ∀ q, |c q| ≤ rr q.1 q.2.1 q.2.2) :
    IntegrableOn (fun q : ℝ × ℝ × ℝ => c q / rr q.1 q.2.1 q.2.2 ^ 3) (Ioc a1 b1 ×ˢ Ioc a2 b2 ×ˢ Ioc a3 b3) := by
  refine integrableOn_of_le_inv_sq (isBounded_box ..) (hm.div (measurable_rr.pow_const 3)) (C := 1) fun q => ?_
  rcases eq_or_ne q 0 with h | h
  · subst h
    simp [rr]
  have hq : 0 < ‖q‖ := norm_pos_iff.2 h
  have hr : 0 < rr q.1 q.2.1 q.2.2 := hq.trans_le (norm_le_rr q)
  rw [abs_div, abs_of_pos (pow_pos hr 3), one_mul, div_le_iff₀ (pow_pos hr 3)]
  refine (hc q).trans ?_
  have h2 : ‖q‖ ^ 2 ≤ rr q.1 q.2.1 q.2.2 ^ 2 := pow_le_pow_left₀ hq.le (norm_le_rr q) 2
  rw [inv_mul_eq_div, le_div_iff₀ (pow_pos hq 2)]
  calc rr q.1 q.2.1 q.2.2 * ‖q‖ ^ 2 ≤ rr q.1 q.2.1 q.2.2 * rr q.1 q.2.1 q.2.2 ^ 2 := mul_le_mul_of_nonneg_left h2 hr.le
    _ = rr q.1 q.2.1 q.2.2 ^ 3 := by ring

/-- `1 / r` is integrable over a box. -/
theorem integrableOn_inv (a1 b1 a2 b2 a3 b3 : ℝ) :
    IntegrableOn (fun q : ℝ × ℝ × ℝ => 1 / rr q.1 q.2.1 q.2.2) (Ioc a1 b1 ×ˢ Ioc a2 b2 ×ˢ Ioc a3 b3) := by
  obtain ⟨R, hR⟩ := (isBounded_box a1 b1 a2 b2 a3 b3).subset_ball (0 : ℝ × ℝ × ℝ)
  have hmeas : MeasurableSet (Ioc a1 b1 ×ˢ Ioc a2 b2 ×ˢ Ioc a3 b3) := by measurability
  refine IntegrableOn.congr_fun (f := (Ioc a1 b1 ×ˢ Ioc a2 b2 ×ˢ Ioc a3 b3).indicator
    fun q : ℝ × ℝ × ℝ => 1 / rr q.1 q.2.1 q.2.2) ?_ (fun q hq => indicator_of_mem hq _) hmeas
  refine integrableOn_of_le_inv_sq (isBounded_box ..) ((measurable_const.div measurable_rr).indicator hmeas) (C := |R|) fun q => ?_
  by_cases hm : q ∈ Ioc a1 b1 ×ˢ Ioc a2 b2 ×ˢ Ioc a3 b3
  · rw [indicator_of_mem hm]
    rcases eq_or_ne q 0 with h | h
    · subst h
      simp [rr]
    have hq : 0 < ‖q‖ := norm_pos_iff.2 h
    have hr : 0 < rr q.1 q.2.1 q.2.2 := hq.trans_le (norm_le_rr q)
    have hqR : ‖q‖ ≤ |R| := by
      have := hR hm
      rw [mem_ball_zero_iff] at this
      exact this.le.trans (le_abs_self R)
    rw [abs_div, abs_one, abs_of_pos hr, div_le_iff₀ hr]
    have h2 := norm_le_rr q
    rw [mul_assoc, inv_mul_eq_div, mul_div_assoc', le_div_iff₀ (pow_pos hq 2), one_mul, sq]
    exact mul_le_mul hqR h2 hq.le (abs_nonneg R)
  · rw [indicator_of_notMem hm, abs_zero]
    positivity

/-! ### The integrals -/

theorem continuous_rr_slice (x : ℝ) : Continuous fun q : ℝ × ℝ => rr x q.1 q.2 := by
  unfold rr; fun_prop

theorem continuous_rr_y (x z : ℝ) : Continuous fun y : ℝ => rr x y z := by
  unfold rr; fun_prop

variable {a1 b1 a2 b2 a3 b3 : ℝ}

/-- `∭ 1/r`. -/
theorem integral_inv_r (h1 : a1 ≤ b1) (h2 : a2 ≤ b2) (h3 : a3 ≤ b3) :
    ∫ q in Ioc a1 b1 ×ˢ Ioc a2 b2 ×ˢ Ioc a3 b3, 1 / rr q.1 q.2.1 q.2.2 =
      corners (fun x y z => -Py.prismF x y z) a1 b1 a2 b2 a3 b3 := by
  refine triple_integral h1 h2 h3 (countable_singleton (0 : ℝ)) (f := fun x y z => 1 / rr x y z)
    (f1 := fun x y z => lg z x y) (f2 := fun x y z => Py.prismFz y z x) (f3 := fun x y z => -Py.prismF x y z)
    (integrableOn_inv ..) ?_ ?_ ?_ ?_ ?_ ?_
  · intro x _ hx
    exact (continuous_const.div (continuous_rr_slice x) fun q => (rr_pos hx).ne').continuousOn
  · intro x _ hx y _ z _
    exact hasDerivAt_inv_r hx
  · intro x _ hx y _
    exact ((kgrad_lg (x := b3) (y := x) (z := y) hx).dz.continuousAt.sub
      (kgrad_lg (x := a3) (y := x) (z := y) hx).dz.continuousAt).continuousWithinAt
  · intro x _ hx y _
    exact ((hasDerivAt_log_r (z := b3) hx).fun_sub (hasDerivAt_log_r (z := a3) hx)).congr_deriv (by ring)
  · have key : ∀ y z, Continuous fun x => -Py.prismF x y z := fun y z =>
      (continuous_prismF.comp (f := fun x : ℝ => (x, y, z)) (by fun_prop)).neg
    exact ((((key b2 b3).sub (key b2 a3)).sub (key a2 b3)).add (key a2 a3)).continuousOn
  · intro x _ hx
    have key := fun y z => hasDerivAt_prismF (y := y) (z := z) hx
    exact ((((key b2 b3).fun_sub (key b2 a3)).fun_sub (key a2 b3)).fun_add (key a2 a3)).congr_deriv (by ring)

/-- `∭ z/r³`. -/
theorem integral_z (h1 : a1 ≤ b1) (h2 : a2 ≤ b2) (h3 : a3 ≤ b3) :
    ∫ q in Ioc a1 b1 ×ˢ Ioc a2 b2 ×ˢ Ioc a3 b3, q.2.2 / rr q.1 q.2.1 q.2.2 ^ 3 =
      corners (fun x y z => -Py.prismFz x y z) a1 b1 a2 b2 a3 b3 := by
  refine triple_integral h1 h2 h3 (countable_singleton (0 : ℝ)) (f := fun x y z => z / rr x y z ^ 3)
    (f1 := fun x y z => -1 / rr x y z) (f2 := fun x y z => -lg y x z) (f3 := fun x y z => -Py.prismFz x y z)
    (integrableOn_cube _ _ _ _ _ _ (c := fun q => q.2.2) (by fun_prop) fun q => (abs_le_rr q.1 q.2.1 q.2.2).2.2) ?_ ?_ ?_ ?_ ?_ ?_
  · intro x _ hx
    exact (continuous_snd.div ((continuous_rr_slice x).pow 3) fun q => pow_ne_zero 3 (rr_pos hx).ne').continuousOn
  · intro x _ hx y _ z _
    exact hasDerivAt_z1 hx
  · intro x _ hx
    have key : ∀ z, Continuous fun y => -1 / rr x y z := fun z =>
      continuous_const.div (continuous_rr_y x z) fun y => (rr_pos hx).ne'
    exact ((key b3).sub (key a3)).continuousOn
  · intro x _ hx y _
    have key : ∀ z, HasDerivAt (fun y => -lg y x z) (-1 / rr x y z) y := fun z => by
      have := (kgrad_lg (x := y) (y := x) (z := z) hx).dx.fun_neg
      rwa [rr_swap x y z, ← neg_div] at this
    exact (key b3).fun_sub (key a3)
  · have key : ∀ y z, Continuous fun x => -Py.prismFz x y z := fun y z =>
      (continuous_prismFz.comp (f := fun x : ℝ => (x, y, z)) (by fun_prop)).neg
    exact ((((key b2 b3).sub (key b2 a3)).sub (key a2 b3)).add (key a2 a3)).continuousOn
  · intro x _ hx
    have key := fun y z => (hasDerivAt_prismFz_x (y := y) (z := z) hx).fun_neg
    exact ((((key b2 b3).fun_sub (key b2 a3)).fun_sub (key a2 b3)).fun_add (key a2 a3)).congr_deriv (by ring)

/-- `∭ y/r³`. -/
theorem integral_y (h1 : a1 ≤ b1) (h2 : a2 ≤ b2) (h3 : a3 ≤ b3) :
    ∫ q in Ioc a1 b1 ×ˢ Ioc a2 b2 ×ˢ Ioc a3 b3, q.2.1 / rr q.1 q.2.1 q.2.2 ^ 3 =
      corners (fun x y z => -Py.prismFz z x y) a1 b1 a2 b2 a3 b3 := by
  refine triple_integral h1 h2 h3 (countable_singleton (0 : ℝ)) (f := fun x y z => y / rr x y z ^ 3)
    (f1 := fun x y z => y * (z / ((x * x + y * y) * rr x y z))) (f2 := fun x y z => -lg z x y)
    (f3 := fun x y z => -Py.prismFz z x y)
    (integrableOn_cube _ _ _ _ _ _ (c := fun q => q.2.1) (by fun_prop) fun q => (abs_le_rr q.1 q.2.1 q.2.2).2.1) ?_ ?_ ?_ ?_ ?_ ?_
  · intro x _ hx
    exact (continuous_fst.div ((continuous_rr_slice x).pow 3) fun q => pow_ne_zero 3 (rr_pos hx).ne').continuousOn
  · intro x _ hx y _ z _
    exact ((hasDerivAt_z2 hx).const_mul y).congr_deriv (by ring)
  · intro x _ hx
    have key : ∀ z, Continuous fun y => y * (z / ((x * x + y * y) * rr x y z)) := fun z =>
      continuous_id.mul (continuous_const.div (Continuous.mul (by fun_prop) (continuous_rr_y x z))
        fun y => mul_ne_zero (sq_add_ne hx y) (rr_pos hx).ne')
    exact ((key b3).sub (key a3)).continuousOn
  · intro x _ hx y _
    have key : ∀ z, HasDerivAt (fun y => -lg z x y) (y * (z / ((x * x + y * y) * rr x y z)) - y / (x * x + y * y)) y := fun z => by
      refine (kgrad_lg (x := z) (y := x) (z := y) hx).dz.fun_neg.congr_deriv ?_
      have hr := (rr_pos (y := y) (z := z) hx).ne'
      have hxy := sq_add_ne hx y
      rw [rr2 x y z]
      field_simp
      ring
    exact ((key b3).fun_sub (key a3)).congr_deriv (by ring)
  · have key : ∀ y z, Continuous fun x => -Py.prismFz z x y := fun y z =>
      (continuous_prismFz.comp (f := fun x : ℝ => (z, x, y)) (by fun_prop)).neg
    exact ((((key b2 b3).sub (key b2 a3)).sub (key a2 b3)).add (key a2 a3)).continuousOn
  · intro x _ hx
    have key : ∀ y z, HasDerivAt (fun x => -Py.prismFz z x y) (-(lg z x y + x * x / (x * x + y * y))) x := fun y z => by
      have := (hasDerivAt_prismFz_x (y := z) (z := y) hx).fun_neg
      simpa only [prismFz_swap z] using this
    exact ((((key b2 b3).fun_sub (key b2 a3)).fun_sub (key a2 b3)).fun_add (key a2 a3)).congr_deriv (by ring)

/-- `∭ x/r³`. -/
theorem integral_x (h1 : a1 ≤ b1) (h2 : a2 ≤ b2) (h3 : a3 ≤ b3) :
    ∫ q in Ioc a1 b1 ×ˢ Ioc a2 b2 ×ˢ Ioc a3 b3, q.1 / rr q.1 q.2.1 q.2.2 ^ 3 =
      corners (fun x y z => -Py.prismFz y z x) a1 b1 a2 b2 a3 b3 := by
  refine triple_integral h1 h2 h3 (countable_singleton (0 : ℝ)) (f := fun x y z => x / rr x y z ^ 3)
    (f1 := fun x y z => x * (z / ((x * x + y * y) * rr x y z))) (f2 := fun x y z => at' y z x)
    (f3 := fun x y z => -Py.prismFz y z x)
    (integrableOn_cube _ _ _ _ _ _ (c := fun q => q.1) (by fun_prop) fun q => (abs_le_rr q.1 q.2.1 q.2.2).1) ?_ ?_ ?_ ?_ ?_ ?_
  · intro x _ hx
    exact (continuous_const.div ((continuous_rr_slice x).pow 3) fun q => pow_ne_zero 3 (rr_pos hx).ne').continuousOn
  · intro x _ hx y _ z _
    exact ((hasDerivAt_z2 hx).const_mul x).congr_deriv (by ring)
  · intro x _ hx
    have key : ∀ z, Continuous fun y => x * (z / ((x * x + y * y) * rr x y z)) := fun z =>
      continuous_const.mul (continuous_const.div (Continuous.mul (by fun_prop) (continuous_rr_y x z))
        fun y => mul_ne_zero (sq_add_ne hx y) (rr_pos hx).ne')
    exact ((key b3).sub (key a3)).continuousOn
  · intro x _ hx y _
    have key : ∀ z, HasDerivAt (fun y => at' y z x) (x * (z / ((x * x + y * y) * rr x y z))) y := fun z => by
      refine (kgrad_at (x := y) (y := z) (z := x) hx).dx.congr_deriv ?_
      have hr := (rr_pos (y := y) (z := z) hx).ne'
      have hxy := sq_add_ne hx y
      rw [rr1 x y z, add_comm (y * y) (x * x)]
      field_simp
    exact (key b3).fun_sub (key a3)
  · have key : ∀ y z, Continuous fun x => -Py.prismFz y z x := fun y z =>
      (continuous_prismFz.comp (f := fun x : ℝ => (y, z, x)) (by fun_prop)).neg
    exact ((((key b2 b3).sub (key b2 a3)).sub (key a2 b3)).add (key a2 a3)).continuousOn
  · intro x _ hx
    have key := fun y z => hasDerivAt_prismFz_z (y := y) (z := z) hx
    exact ((((key b2 b3).fun_sub (key b2 a3)).fun_sub (key a2 b3)).fun_add (key a2 a3)).congr_deriv (by ring)

end Verif.Prism
