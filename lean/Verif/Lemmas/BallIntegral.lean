import Mathlib.Analysis.SpecialFunctions.PolarCoord
import Mathlib.Analysis.SpecialFunctions.Integrals.Basic
import Mathlib.Analysis.Calculus.Deriv.Abs
import Mathlib.MeasureTheory.Integral.DivergenceTheorem
import Verif.Lemmas.Mirror
import Verif.Lemmas.MotionPrism

/-! # Integrals over a ball (helper lemmas) -/

namespace Verif.Ball

open Real MeasureTheory Set

/-- The integral over the plane of a function of the distance from the origin. -/
theorem radial_integral (φ : ℝ → ℝ) : ∫ w : ℝ × ℝ, φ (w.1 ^ 2 + w.2 ^ 2) = 2 * π * ∫ r in Ioi (0 : ℝ), r * φ (r ^ 2) := by
  rw [← integral_comp_polarCoord_symm]
  have e : ∀ p : ℝ × ℝ, p.1 • φ ((polarCoord.symm p).1 ^ 2 + (polarCoord.symm p).2 ^ 2) = (p.1 * φ (p.1 ^ 2)) * (fun _ => (1 : ℝ)) p.2 := by
    intro p
    simp only [polarCoord_symm_apply, smul_eq_mul, mul_one]
    congr 2
    linear_combination p.1 ^ 2 * sin_sq_add_cos_sq p.2
  simp only [e]
  rw [polarCoord_target, Measure.volume_eq_prod, setIntegral_prod_mul (fun r : ℝ => r * φ (r ^ 2)) (fun _ => (1 : ℝ))]
  simp
  have : (0 : ℝ) ≤ π + π := by positivity
  rw [max_eq_left this]
  ring

/-- `∫₀ᴿ r/√(r²+h²) dr` -/
theorem integral_disk (h : ℝ) {R : ℝ} (hR : 0 ≤ R) : ∫ r in Ioc 0 R, r * (1 / √(r ^ 2 + h ^ 2)) = √(R ^ 2 + h ^ 2) - |h| := by
  have hd : ∀ r ∈ Ioo 0 R, HasDerivAt (fun r => √(r ^ 2 + h ^ 2)) (r * (1 / √(r ^ 2 + h ^ 2))) r := by
    intro r hr
    have hp : r ^ 2 + h ^ 2 ≠ 0 := by have := hr.1; positivity
    refine ((((hasDerivAt_id r).pow 2).add_const (h ^ 2)).sqrt hp).congr_deriv ?_
    have := sqrt_ne_zero'.2 (lt_of_le_of_ne (by positivity) hp.symm)
    simp only [id]
    norm_num
    field_simp
  have hc : ContinuousOn (fun r => √(r ^ 2 + h ^ 2)) (Icc 0 R) := by fun_prop
  have hi : IntervalIntegrable (fun r => r * (1 / √(r ^ 2 + h ^ 2))) volume 0 R := by
    refine (intervalIntegral.intervalIntegrable_deriv_of_nonneg (g := fun r => √(r ^ 2 + h ^ 2)) ?_ ?_ ?_)
    · rwa [uIcc_of_le hR]
    · simpa [min_eq_left hR, max_eq_right hR] using hd
    · intro r hr
      rw [min_eq_left hR] at hr
      have := hr.1
      positivity
  rw [← intervalIntegral.integral_of_le hR, intervalIntegral.integral_eq_sub_of_hasDerivAt_of_le hR hc hd hi]
  simp [sqrt_sq_eq_abs]

/-- `∫₀ᴿ r h/√(r²+h²)³ dr` -/
theorem integral_disk_cube {h : ℝ} (hh : h ≠ 0) {R : ℝ} (hR : 0 ≤ R) :
    ∫ r in Ioc 0 R, r * (h / √(r ^ 2 + h ^ 2) ^ 3) = h / |h| - h / √(R ^ 2 + h ^ 2) := by
  have hpos : ∀ r : ℝ, 0 < r ^ 2 + h ^ 2 := fun r => by positivity
  have hd : ∀ r : ℝ, HasDerivAt (fun r => -(h / √(r ^ 2 + h ^ 2))) (r * (h / √(r ^ 2 + h ^ 2) ^ 3)) r := by
    intro r
    have hs := (sqrt_pos.2 (hpos r)).ne'
    refine (((hasDerivAt_const r h).fun_div ((((hasDerivAt_id r).pow 2).add_const (h ^ 2)).sqrt (hpos r).ne') hs).neg).congr_deriv ?_
    simp only [id]
    norm_num
    field_simp
  have hc : Continuous fun r : ℝ => r * (h / √(r ^ 2 + h ^ 2) ^ 3) := by
    refine continuous_id.mul (continuous_const.div (by fun_prop) fun r => ?_)
    exact pow_ne_zero _ (sqrt_pos.2 (hpos r)).ne'
  rw [← intervalIntegral.integral_of_le hR, intervalIntegral.integral_eq_sub_of_hasDerivAt (fun r _ => hd r) (hc.intervalIntegrable _ _)]
  simp [sqrt_sq_eq_abs]
  ring

variable {a d : ℝ}

theorem radicand_pos (_ha : 0 < a) (hd : 0 < d) {x : ℝ} (hx : x < a) : 0 < a ^ 2 + d ^ 2 - 2 * x * d := by
  nlinarith [sq_nonneg (a - d), mul_pos hd (sub_pos.2 hx)]

theorem radicand_ends (ha : 0 < a) (hd : 0 ≤ d) : √(a ^ 2 + d ^ 2 - 2 * a * d) = |a - d| ∧ √(a ^ 2 + d ^ 2 - 2 * -a * d) = a + d := by
  constructor
  · rw [show a ^ 2 + d ^ 2 - 2 * a * d = (a - d) ^ 2 by ring, sqrt_sq_eq_abs]
  · rw [show a ^ 2 + d ^ 2 - 2 * -a * d = (a + d) ^ 2 by ring, sqrt_sq (by positivity)]

theorem deriv_radicand (x : ℝ) : HasDerivAt (fun x => a ^ 2 + d ^ 2 - 2 * x * d) (-(2 * d)) x := by
  have h := (((hasDerivAt_id x).const_mul 2).mul_const d).const_sub (a ^ 2 + d ^ 2)
  simpa using h

theorem deriv_abs {x : ℝ} (hx : x - d ≠ 0) : HasDerivAt (fun x => |x - d|) ((x - d) / |x - d|) x := by
  rcases lt_or_gt_of_ne hx with h | h
  · refine ((hasDerivAt_abs_neg h).comp_sub_const x d).congr_deriv ?_
    rw [abs_of_neg h, div_neg, div_self hx]
  · refine ((hasDerivAt_abs_pos h).comp_sub_const x d).congr_deriv ?_
    rw [abs_of_pos h, div_self hx]

/-- The slices of the ball, added up. -/
theorem integral_slices (ha : 0 < a) (hd : 0 ≤ d) :
    ∫ x in Ioc (-a) a, (√(a ^ 2 + d ^ 2 - 2 * x * d) - |x - d|) = if d ≤ a then (3 * a ^ 2 - d ^ 2) / 3 else 2 * a ^ 3 / (3 * d) := by
  have hle : -a ≤ a := by linarith
  have hi : IntervalIntegrable (fun x : ℝ => √(a ^ 2 + d ^ 2 - 2 * x * d) - |x - d|) volume (-a) a :=
    Continuous.intervalIntegrable (by fun_prop) _ _
  have hsq : ∀ x : ℝ, x - d ≠ 0 → HasDerivAt (fun x => (x - d) * |x - d| / 2) |x - d| x := by
    intro x hx
    refine (((((hasDerivAt_id x).sub_const d).fun_mul (deriv_abs hx)).div_const 2)).congr_deriv ?_
    simp only [id]
    have h2 := sq_abs (x - d)
    have := abs_ne_zero.2 hx
    field_simp
    rw [← h2]
    ring
  rw [← intervalIntegral.integral_of_le hle]
  rcases hd.eq_or_lt with rfl | hd
  · rw [integral_eq_of_hasDerivAt_off_countable_of_le (fun x => a * x - (x - 0) * |x - 0| / 2) _ hle (s := {0}) (countable_singleton _)
      (by fun_prop) (fun x hx => ?_) hi]
    · simp only [sub_zero, abs_neg, abs_of_pos ha, if_pos ha.le]; ring
    · have hx0 : x - 0 ≠ 0 := by simpa using hx.2
      refine (((hasDerivAt_id x).const_mul a).fun_sub (hsq x hx0)).congr_deriv ?_
      simp [sqrt_sq ha.le]
  · rw [integral_eq_of_hasDerivAt_off_countable_of_le
      (fun x => -(√(a ^ 2 + d ^ 2 - 2 * x * d) ^ 3 / (3 * d)) - (x - d) * |x - d| / 2) _ hle (s := {d}) (countable_singleton _)
      (by fun_prop) (fun x hx => ?_) hi]
    · obtain ⟨e1, e2⟩ := radicand_ends ha hd.le
      simp only [e1, e2, show -a - d = -(a + d) by ring, abs_neg, abs_of_pos (add_pos ha hd)]
      split_ifs with h
      · rw [abs_of_nonneg (sub_nonneg.2 h)]; field_simp; ring
      · rw [abs_of_neg (sub_neg.2 (not_le.1 h))]; field_simp; ring
    · have hx0 : x - d ≠ 0 := sub_ne_zero.2 (by simpa using hx.2)
      have hp := radicand_pos ha hd hx.1.2
      have hs := (sqrt_pos.2 hp).ne'
      refine ((((((deriv_radicand x).sqrt hp.ne').fun_pow 3).div_const (3 * d)).fun_neg).fun_sub (hsq x hx0)).congr_deriv ?_
      generalize √(a ^ 2 + d ^ 2 - 2 * x * d) = s at *
      push_cast
      field_simp

/-- The same for the force. -/
theorem integral_slices_cube (ha : 0 < a) (hd : 0 ≤ d) :
    ∫ x in Ioc (-a) a, ((x - d) / |x - d| - (x - d) / √(a ^ 2 + d ^ 2 - 2 * x * d)) = if d ≤ a then -(2 * d / 3) else -(2 * a ^ 3 / (3 * d ^ 2)) := by
  have hle : -a ≤ a := by linarith
  have hi : IntervalIntegrable (fun x : ℝ => (x - d) / |x - d| - (x - d) / √(a ^ 2 + d ^ 2 - 2 * x * d)) volume (-a) a := by
    rw [intervalIntegrable_iff_integrableOn_Ioc_of_le hle]
    refine Measure.integrableOn_of_bounded (M := 2) (by simp) (Measurable.aestronglyMeasurable (by fun_prop)) ?_
    refine (ae_restrict_iff' measurableSet_Ioc).2 (Filter.Eventually.of_forall fun x hx => ?_)
    have h1 : |(x - d) / abs (x - d)| ≤ 1 := by rw [abs_div, abs_abs]; exact div_self_le_one _
    have h2 : |(x - d) / √(a ^ 2 + d ^ 2 - 2 * x * d)| ≤ 1 := by
      rw [abs_div, abs_of_nonneg (sqrt_nonneg _)]
      refine div_le_one_of_le₀ (abs_le_sqrt ?_) (sqrt_nonneg _)
      nlinarith [hx.1, hx.2]
    rw [norm_eq_abs]
    refine (abs_sub _ _).trans ?_
    linarith
  rw [← intervalIntegral.integral_of_le hle]
  rcases hd.eq_or_lt with rfl | hd
  · rw [integral_eq_of_hasDerivAt_off_countable_of_le (fun x => |x - 0| - x ^ 2 / (2 * a)) _ hle (s := {0}) (countable_singleton _)
      (by fun_prop) (fun x hx => ?_) hi]
    · simp [abs_of_pos ha, ha.le]
    · have hx0 : x - 0 ≠ 0 := by simpa using hx.2
      refine ((deriv_abs hx0).fun_sub (((hasDerivAt_id x).fun_pow 2).div_const (2 * a))).congr_deriv ?_
      simp [sqrt_sq ha.le]
      field_simp
  · rw [integral_eq_of_hasDerivAt_off_countable_of_le
      (fun x => |x - d| + (1 / (4 * d ^ 2)) * (2 * (a ^ 2 - d ^ 2) * √(a ^ 2 + d ^ 2 - 2 * x * d) - 2 / 3 * √(a ^ 2 + d ^ 2 - 2 * x * d) ^ 3)) _ hle
      (s := {d}) (countable_singleton _) (by fun_prop) (fun x hx => ?_) hi]
    · obtain ⟨e1, e2⟩ := radicand_ends ha hd.le
      simp only [e1, e2, show -a - d = -(a + d) by ring, abs_neg, abs_of_pos (add_pos ha hd)]
      split_ifs with h
      · rw [abs_of_nonneg (sub_nonneg.2 h)]; field_simp; ring
      · rw [abs_of_neg (sub_neg.2 (not_le.1 h))]; field_simp; ring
    · have hx0 : x - d ≠ 0 := sub_ne_zero.2 (by simpa using hx.2)
      have hp := radicand_pos ha hd hx.1.2
      have hs := (sqrt_pos.2 hp).ne'
      have hR := (deriv_radicand (a := a) (d := d) x).sqrt hp.ne'
      have h2 := sq_sqrt hp.le
      refine ((deriv_abs hx0).fun_add (((hR.const_mul (2 * (a ^ 2 - d ^ 2))).fun_sub ((hR.fun_pow 3).const_mul (2 / 3))).const_mul
        (1 / (4 * d ^ 2)))).congr_deriv ?_
      rw [sub_eq_add_neg]
      congr 1
      generalize √(a ^ 2 + d ^ 2 - 2 * x * d) = s at *
      push_cast
      field_simp
      norm_num
      linear_combination 2 * h2

end Verif.Ball
