import Verif.Props.CircularLoop
import Mathlib.MeasureTheory.Integral.IntegralEqImproper
import Mathlib.Analysis.SpecialFunctions.ImproperIntegrals
import Mathlib.Analysis.Calculus.IteratedDeriv.Lemmas

/-!
# C143: Along the axis of a loop

Along its whole axis the magnetic field of a loop adds up to its current.  The field of two loops on a common axis is most uniform half-way between
them when they are one radius apart (a Helmholtz pair). -/

namespace Verif.Static

open Spatial Real Filter Topology MeasureTheory

/-- The magnetic field of a loop of radius `a` and unit current on its axis. -/
noncomputable def axial (a x : ℝ) : ℝ := a ^ 2 / (2 * √(a ^ 2 + x ^ 2) ^ 3)

theorem axial_sqrt_pos {a : ℝ} (ha : 0 < a) (x : ℝ) : 0 < √(a ^ 2 + x ^ 2) := sqrt_pos.2 (by positivity)

theorem axial_sqrt_deriv {a : ℝ} (ha : 0 < a) (x : ℝ) : HasDerivAt (fun x => √(a ^ 2 + x ^ 2)) (x / √(a ^ 2 + x ^ 2)) x := by
  have h : HasDerivAt (fun x : ℝ => a ^ 2 + x ^ 2) (2 * x) x := by simpa using ((hasDerivAt_id x).pow 2).const_add (a ^ 2)
  have := h.sqrt (by positivity)
  convert this using 1
  have := (axial_sqrt_pos ha x).ne'
  field_simp

theorem axial_deriv {a : ℝ} (ha : 0 < a) (x : ℝ) : HasDerivAt (axial a) (-3 * a ^ 2 * x / (2 * √(a ^ 2 + x ^ 2) ^ 5)) x := by
  have hp := (axial_sqrt_pos ha x).ne'
  have h := (((axial_sqrt_deriv ha x).fun_pow 3).const_mul 2).fun_inv (by positivity) |>.const_mul (a ^ 2)
  simp only [← div_eq_mul_inv] at h
  refine h.congr_deriv ?_
  generalize √(a ^ 2 + x ^ 2) = S at *
  field_simp
  norm_num
  ring

theorem axial_deriv2 {a : ℝ} (ha : 0 < a) (x : ℝ) :
    HasDerivAt (fun x => -3 * a ^ 2 * x / (2 * √(a ^ 2 + x ^ 2) ^ 5)) (3 * a ^ 2 * (4 * x ^ 2 - a ^ 2) / (2 * √(a ^ 2 + x ^ 2) ^ 7)) x := by
  have hp := (axial_sqrt_pos ha x).ne'
  have hs : √(a ^ 2 + x ^ 2) ^ 2 = a ^ 2 + x ^ 2 := sq_sqrt (by positivity)
  have h := (((hasDerivAt_id x).const_mul (-3 * a ^ 2))).fun_div (((axial_sqrt_deriv ha x).fun_pow 5).const_mul 2) (by simp; positivity)
  refine h.congr_deriv ?_
  simp only [id]
  generalize √(a ^ 2 + x ^ 2) = S at *
  have e : 4 * x ^ 2 - a ^ 2 = 5 * x ^ 2 - S ^ 2 := by rw [hs]; ring
  rw [e]
  field_simp
  ring

theorem axial_primitive {a : ℝ} (ha : 0 < a) (x : ℝ) : HasDerivAt (fun x => x / (2 * √(a ^ 2 + x ^ 2))) (axial a x) x := by
  have hp := (axial_sqrt_pos ha x).ne'
  have hs : √(a ^ 2 + x ^ 2) ^ 2 = a ^ 2 + x ^ 2 := sq_sqrt (by positivity)
  have h := (hasDerivAt_id x).fun_div ((axial_sqrt_deriv ha x).const_mul 2) (by positivity)
  refine h.congr_deriv ?_
  simp only [id, axial]
  generalize √(a ^ 2 + x ^ 2) = S at *
  have e : a ^ 2 = S ^ 2 - x ^ 2 := by rw [hs]; ring
  rw [e]
  field_simp

theorem axial_primitive_top {a : ℝ} (ha : 0 < a) : Tendsto (fun x => x / (2 * √(a ^ 2 + x ^ 2))) atTop (𝓝 (1 / 2)) := by
  have h1 : Tendsto (fun x : ℝ => a ^ 2 + x ^ 2) atTop atTop := tendsto_atTop_add_const_left _ _ (tendsto_pow_atTop two_ne_zero)
  have h2 : Tendsto (fun x : ℝ => √(1 - a ^ 2 / (a ^ 2 + x ^ 2)) / 2) atTop (𝓝 (√(1 - 0) / 2)) :=
    ((tendsto_const_nhds.sub (h1.const_div_atTop (a ^ 2))).sqrt).div_const 2
  rw [sub_zero, sqrt_one] at h2
  refine h2.congr' ?_
  filter_upwards [eventually_gt_atTop 0] with x hx
  have e : 1 - a ^ 2 / (a ^ 2 + x ^ 2) = x ^ 2 / (a ^ 2 + x ^ 2) := by
    have : a ^ 2 + x ^ 2 ≠ 0 := by positivity
    field_simp
    ring
  rw [e, sqrt_div (sq_nonneg x), sqrt_sq hx.le, div_div, mul_comm]

theorem axial_integral {a : ℝ} (ha : 0 < a) : Integrable (axial a) ∧ ∫ x, axial a x = 1 := by
  have hc : Continuous (axial a) := continuous_iff_continuousAt.2 fun x => (axial_deriv ha x).continuousAt
  have hi : Integrable (axial a) := by
    set m := min (a ^ 2) 1 with hm
    have hm0 : 0 < m := lt_min (by positivity) one_pos
    refine (integrable_inv_one_add_sq.const_mul (a / (2 * m))).mono' hc.aestronglyMeasurable (ae_of_all _ fun x => ?_)
    have hp := axial_sqrt_pos ha x
    have hs : √(a ^ 2 + x ^ 2) ^ 2 = a ^ 2 + x ^ 2 := sq_sqrt (by positivity)
    have h1 : a ≤ √(a ^ 2 + x ^ 2) := le_sqrt_of_sq_le (by nlinarith [sq_nonneg x])
    have h2 : m * (1 + x ^ 2) ≤ a ^ 2 + x ^ 2 := by
      nlinarith [min_le_left (a ^ 2) 1, min_le_right (a ^ 2) 1, sq_nonneg x]
    rw [axial, norm_of_nonneg (by positivity)]
    have h3 : 2 * (a * (m * (1 + x ^ 2))) ≤ 2 * √(a ^ 2 + x ^ 2) ^ 3 := by
      rw [pow_succ (√(a ^ 2 + x ^ 2)), hs]
      have : 0 ≤ m * (1 + x ^ 2) := by positivity
      nlinarith [mul_le_mul h1 h2 this hp.le]
    calc a ^ 2 / (2 * √(a ^ 2 + x ^ 2) ^ 3) ≤ a ^ 2 / (2 * (a * (m * (1 + x ^ 2)))) := by
          apply div_le_div_of_nonneg_left (by positivity) (by positivity) h3
      _ = a / (2 * m) * (1 + x ^ 2)⁻¹ := by field_simp
  refine ⟨hi, ?_⟩
  have hb : Tendsto (fun x => x / (2 * √(a ^ 2 + x ^ 2))) atBot (𝓝 (-(1 / 2))) := by
    have := ((axial_primitive_top ha).comp tendsto_neg_atBot_atTop).neg
    refine this.congr fun x => ?_
    simp only [Function.comp_def, neg_sq]
    ring
  rw [integral_of_hasDerivAt_of_tendsto (axial_primitive ha) hi hb (axial_primitive_top ha)]
  norm_num

namespace Loop

variable {s : Loop}

theorem axis_field (hb : s.OffBand) (ha : 0 < s.radius) (hmu : 0 < s.mu) (c : String) (hc : c.toLower = "cartesian") (z : ℝ) :
    s.magneticFieldIn c (s.location + z • s.axis) = .ok (some ((s.current * axial s.radius z) • s.axis)) := by
  have hn : s.axis.len = 1 := hb.frame.1
  have e : s.location + z • s.axis - s.location = z • s.axis := by module
  have hd : s.axis.dot (z • s.axis) = z := by
    have := V3.dot_self s.axis
    rw [hn] at this
    simp only [V3.dot, V3.smul_x, V3.smul_y, V3.smul_z, smul_eq_mul] at this ⊢
    linear_combination z * this
  have h := axis_flux hb ha (s.location + z • s.axis) (by
    rw [e]
    ext <;> simp only [V3.cross, V3.smul_x, V3.smul_y, V3.smul_z, smul_eq_mul, V3.zero_x, V3.zero_y, V3.zero_z] <;> ring)
  rw [e, hd] at h
  have h1 : ¬ ("cartesian" = "cylindrical") := by decide
  simp only [magneticFieldIn, magneticFluxDensityIn, hc, h1, Bind.bind, Except.bind, Pure.pure, Except.pure]
  have hp := axial_sqrt_pos ha z
  simp only [true_or, not_true_eq_false, if_false, h, Option.map_some]
  congr 2
  ext <;> simp only [V3.map, V3.smul_x, V3.smul_y, V3.smul_z, smul_eq_mul, axial] <;> field_simp

/-- **C143.** Ampère's law along the axis: the magnetic field is defined on the whole axis and adds up to the current. -/
theorem axis_ampere (hb : s.OffBand) (ha : 0 < s.radius) (hmu : 0 < s.mu) (c : String) (hc : c.toLower = "cartesian") :
    ∃ H : ℝ → V3 ℝ, (∀ z, s.magneticFieldIn c (s.location + z • s.axis) = .ok (some (H z))) ∧ Integrable (fun z => (H z).dot s.axis) ∧
      ∫ z, (H z).dot s.axis = s.current := by
  have e : ∀ z, ((s.current * axial s.radius z) • s.axis).dot s.axis = s.current * axial s.radius z := fun z => by
    have := V3.dot_self s.axis
    rw [show s.axis.len = 1 from hb.frame.1] at this
    simp only [V3.dot, V3.smul_x, V3.smul_y, V3.smul_z, smul_eq_mul] at this ⊢
    linear_combination (s.current * axial s.radius z) * this
  refine ⟨_, axis_field hb ha hmu c hc, ?_, ?_⟩
  · simp only [e]
    exact (axial_integral ha).1.const_mul _
  · simp only [e]
    rw [integral_const_mul, (axial_integral ha).2, mul_one]

/-- **C143.** Two equal loops on a common axis, `L` apart, carrying the same current in the same direction.  Around the point half-way between them all odd
derivatives of the field along the axis vanish, and the second derivative vanishes exactly when the distance is one radius; the field is then
`8 I/(5√5 a)`. -/
theorem helmholtz (s s' : Loop) (hb : s.OffBand) (ha : 0 < s.radius) (hmu : 0 < s.mu) (hI : s.current ≠ 0) (c : String) (hc : c.toLower = "cartesian") (L : ℝ) (hL : 0 < L)
    (hs : s' = { s with location := s.location + L • s.axis }) :
    ∃ T : ℝ → ℝ, (∀ z, ∃ h h', s.magneticFieldIn c (s.location + (L / 2 + z) • s.axis) = .ok (some h) ∧
        s'.magneticFieldIn c (s.location + (L / 2 + z) • s.axis) = .ok (some h') ∧ h + h' = T z • s.axis) ∧
      (∀ n, Odd n → iteratedDeriv n T 0 = 0) ∧ (iteratedDeriv 2 T 0 = 0 ↔ L = s.radius) ∧
      (L = s.radius → T 0 = 8 * s.current / (5 * √5 * s.radius)) := by
  have hb' : s'.OffBand := by subst hs; exact hb
  have ax : s'.axis = s.axis := by subst hs; rfl
  refine ⟨fun z => s.current * axial s.radius (L / 2 + z) + s.current * axial s.radius (z - L / 2), fun z =>
    ⟨_, (s.current * axial s.radius (z - L / 2)) • s.axis, axis_field hb ha hmu c hc _, ?_, ?_⟩,
    fun n hn => ?_, ?_, fun h => ?_⟩
  · have h := axis_field (s := s') hb' (by subst hs; exact ha) (by subst hs; exact hmu) c hc (z - L / 2)
    rw [ax] at h
    have e : s'.location + (z - L / 2) • s.axis = s.location + (L / 2 + z) • s.axis := by
      subst hs
      dsimp only
      module
    rw [e] at h
    rw [h]
    subst hs
    rfl
  · rw [add_smul]
  · have ev : ∀ x, axial s.radius (-x) = axial s.radius x := fun x => by rw [axial, axial, neg_sq]
    have h := iteratedDeriv_comp_neg n (fun z => s.current * axial s.radius (L / 2 + z) + s.current * axial s.radius (z - L / 2)) 0
    have e : (fun x => (fun z => s.current * axial s.radius (L / 2 + z) + s.current * axial s.radius (z - L / 2)) (-x)) =
        fun z => s.current * axial s.radius (L / 2 + z) + s.current * axial s.radius (z - L / 2) := by
      funext x
      dsimp only
      rw [← ev (L / 2 + -x), ← ev (-x - L / 2)]
      rw [show -(L / 2 + -x) = x - L / 2 by ring, show -(-x - L / 2) = L / 2 + x by ring]
      ring
    rw [e, hn.neg_one_pow, neg_zero, neg_one_smul] at h
    linarith
  · have d1 : ∀ z, HasDerivAt (fun z => s.current * axial s.radius (L / 2 + z) + s.current * axial s.radius (z - L / 2)) _ z := fun z =>
      (((axial_deriv ha (L / 2 + z)).comp_const_add (L / 2) z).const_mul s.current).fun_add
        (((axial_deriv ha (z - L / 2)).comp_sub_const z (L / 2)).const_mul s.current)
    have d2 : HasDerivAt (deriv fun z => s.current * axial s.radius (L / 2 + z) + s.current * axial s.radius (z - L / 2))
        (s.current * (3 * s.radius ^ 2 * (4 * (L / 2 + 0) ^ 2 - s.radius ^ 2) / (2 * √(s.radius ^ 2 + (L / 2 + 0) ^ 2) ^ 7)) +
          s.current * (3 * s.radius ^ 2 * (4 * (0 - L / 2) ^ 2 - s.radius ^ 2) / (2 * √(s.radius ^ 2 + (0 - L / 2) ^ 2) ^ 7))) 0 := by
      rw [funext fun z => (d1 z).deriv]
      exact (((axial_deriv2 ha (L / 2 + 0)).comp_const_add (L / 2) 0).const_mul s.current).fun_add
        (((axial_deriv2 ha (0 - L / 2)).comp_sub_const 0 (L / 2)).const_mul s.current)
    rw [iteratedDeriv_succ, iteratedDeriv_one, d2.deriv]
    rw [show (0 - L / 2) ^ 2 = (L / 2) ^ 2 by ring, add_zero]
    have hp := axial_sqrt_pos ha (L / 2)
    generalize √(s.radius ^ 2 + (L / 2) ^ 2) = S at *
    constructor
    · intro h
      have h' : s.current * (L ^ 2 - s.radius ^ 2) * (3 * s.radius ^ 2 / S ^ 7) = 0 := by
        rw [← h]
        field_simp
        ring
      have h2 : 3 * s.radius ^ 2 / S ^ 7 ≠ 0 := by positivity
      rcases mul_eq_zero.1 h' with h3 | h3
      · rcases mul_eq_zero.1 h3 with h4 | h4
        · exact absurd h4 hI
        · exact (sq_eq_sq₀ hL.le ha.le).1 (by linarith)
      · exact absurd h3 h2
    · intro h
      rw [h]
      field_simp
      ring
  · subst h
    have e5 : √(s.radius ^ 2 + (s.radius / 2) ^ 2) = √5 * s.radius / 2 := by
      rw [show s.radius ^ 2 + (s.radius / 2) ^ 2 = 5 * (s.radius / 2) ^ 2 by ring, sqrt_mul (by norm_num), sqrt_sq (by positivity)]
      ring
    have s5 : √(5:ℝ) ^ 2 = 5 := sq_sqrt (by norm_num)
    have p5 : √(5:ℝ) ≠ 0 := by positivity
    simp only [axial, add_zero]
    rw [show (0 - s.radius / 2) ^ 2 = (s.radius / 2) ^ 2 by ring, e5]
    generalize √(5:ℝ) = q at *
    field_simp
    rw [s5]
    norm_num

/-- The hypotheses are met. -/
example : unitLoop.OffBand ∧ 0 < unitLoop.radius ∧ 0 < unitLoop.mu ∧ unitLoop.current ≠ 0 :=
  ⟨unitLoop_offBand, by simp [unitLoop], by simp [unitLoop], by simp [unitLoop]⟩

end Loop

end Verif.Static
