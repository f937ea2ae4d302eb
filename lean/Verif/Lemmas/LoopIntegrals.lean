import Verif.Lemmas.LoopCalc
import Verif.Spec.CircularWire
import Mathlib.MeasureTheory.Integral.IntervalIntegral.Periodic

/-! # The integrals over a circular wire (helper lemmas) -/

namespace Verif

open Real MeasureTheory intervalIntegral

/-- Substituting `t = π + 2θ` in an integral of a function of `cos t` over the full circle. -/
theorem integral_cos_circle (F : ℝ → ℝ) (hF : Continuous fun t => F (cos t)) :
    ∫ t in (0 : ℝ)..(2 * π), F (cos t) = 4 * ∫ t in (0 : ℝ)..(π / 2), F (2 * sin t ^ 2 - 1) := by
  have h1 := intervalIntegral.integral_comp_add_mul (a := -(π / 2)) (b := π / 2) (fun t => F (cos t)) (c := 2) (by norm_num) π
  have e : ∀ t : ℝ, cos (π + 2 * t) = 2 * sin t ^ 2 - 1 := by
    intro t
    rw [add_comm, cos_add_pi, cos_two_mul, ← sin_sq_add_cos_sq t]; ring
  have e0 : π + 2 * -(π / 2) = 0 := by ring
  have e1 : π + 2 * (π / 2) = 2 * π := by ring
  simp only [e, e0, e1, smul_eq_mul] at h1
  have hc : Continuous fun t : ℝ => F (2 * sin t ^ 2 - 1) := by
    have : (fun t : ℝ => F (2 * sin t ^ 2 - 1)) = fun t => (fun t => F (cos t)) (π + 2 * t) := by
      funext t; simp only [e]
    rw [this]; exact hF.comp (by fun_prop)
  have h2 : ∫ t in (-(π / 2))..(π / 2), F (2 * sin t ^ 2 - 1) = 2 * ∫ t in (0 : ℝ)..(π / 2), F (2 * sin t ^ 2 - 1) := by
    rw [← integral_add_adjacent_intervals (hc.intervalIntegrable _ 0) (hc.intervalIntegrable 0 _)]
    have := intervalIntegral.integral_comp_neg (a := 0) (b := π / 2) (fun t => F (2 * sin t ^ 2 - 1))
    simp only [sin_neg, neg_sq, neg_zero] at this
    rw [← this]; ring
  rw [h2] at h1
  linarith

/-- Odd integrands over the full circle. -/
theorem integral_sin_circle (F : ℝ → ℝ) : ∫ t in (0 : ℝ)..(2 * π), sin t * F (cos t) = 0 := by
  have := intervalIntegral.integral_comp_sub_left (a := 0) (b := 2 * π) (fun t => sin t * F (cos t)) (2 * π)
  simp only [sin_two_pi_sub, cos_two_pi_sub, sub_self, sub_zero, neg_mul, intervalIntegral.integral_neg] at this
  linarith

/-- Shifting the angle. -/
theorem integral_shift_circle (g : ℝ → ℝ) (hg : Function.Periodic g (2 * π)) (p : ℝ) :
    ∫ t in (0 : ℝ)..(2 * π), g (t - p) = ∫ t in (0 : ℝ)..(2 * π), g t := by
  rw [intervalIntegral.integral_comp_sub_right g p]
  have := hg.intervalIntegral_add_eq (0 - p) 0
  rw [zero_add] at this
  rw [← this]
  congr 1; ring

section
variable {a rho z : ℝ}

/-- Squared distance to the point of the wire at relative angle `t`. -/
noncomputable def wireDistSq (a rho z c : ℝ) : ℝ := a ^ 2 + rho ^ 2 + z ^ 2 - 2 * a * rho * c

theorem wireDistSq_pos (ha : 0 ≤ a) (hr : 0 ≤ rho) (hne : (a - rho) ^ 2 + z ^ 2 ≠ 0) (t : ℝ) :
    0 < wireDistSq a rho z (cos t) := by
  have hal : 0 < (a - rho) ^ 2 + z ^ 2 := lt_of_le_of_ne (by positivity) (Ne.symm hne)
  have := cos_le_one t
  have h2 : a * rho * cos t ≤ a * rho := by
    have := mul_nonneg ha hr
    nlinarith
  unfold wireDistSq
  nlinarith

theorem wireDistSq_sub (hb : (a + rho) ^ 2 + z ^ 2 ≠ 0) (t : ℝ) :
    wireDistSq a rho z (2 * sin t ^ 2 - 1) = ((a + rho) ^ 2 + z ^ 2) *
      (1 - (1 - ((a - rho) ^ 2 + z ^ 2) / ((a + rho) ^ 2 + z ^ 2)) * sin t ^ 2) := by
  unfold wireDistSq
  field_simp
  ring

theorem continuous_wire (ha : 0 ≤ a) (hr : 0 ≤ rho) (hne : (a - rho) ^ 2 + z ^ 2 ≠ 0) :
    (Continuous fun t => 1 / √(wireDistSq a rho z (cos t))) ∧
      Continuous fun t => 1 / √(wireDistSq a rho z (cos t)) ^ 3 := by
  have hc : Continuous fun t => √(wireDistSq a rho z (cos t)) := by unfold wireDistSq; fun_prop
  have hp := fun t => sqrt_pos.2 (wireDistSq_pos ha hr hne t)
  exact ⟨continuous_const.div hc fun t => (hp t).ne', continuous_const.div (hc.pow 3) fun t => (pow_pos (hp t) 3).ne'⟩

theorem loop_integrals (ha : 0 < a) (hr : 0 < rho) (hne : (a - rho) ^ 2 + z ^ 2 ≠ 0) :
    a / 4 * ∫ t in (0 : ℝ)..(2 * π), cos t / √(wireDistSq a rho z (cos t)) = loopA a rho z ∧
    a * z / 4 * ∫ t in (0 : ℝ)..(2 * π), cos t / √(wireDistSq a rho z (cos t)) ^ 3 = loopBr a rho z ∧
    a / 4 * (a * (∫ t in (0 : ℝ)..(2 * π), 1 / √(wireDistSq a rho z (cos t)) ^ 3) -
      rho * ∫ t in (0 : ℝ)..(2 * π), cos t / √(wireDistSq a rho z (cos t)) ^ 3) = loopBz a rho z := by
  have hal : 0 < (a - rho) ^ 2 + z ^ 2 := lt_of_le_of_ne (by positivity) (Ne.symm hne)
  have hbe : 0 < (a + rho) ^ 2 + z ^ 2 := by positivity
  obtain ⟨c1, c3⟩ := continuous_wire (z := z) ha.le hr.le hne
  have i1 := integral_cos_circle (fun c => c / √(wireDistSq a rho z c))
    ((continuous_cos.mul c1).congr fun t => by simp [div_eq_mul_inv])
  have i2 := integral_cos_circle (fun c => c / √(wireDistSq a rho z c) ^ 3)
    ((continuous_cos.mul c3).congr fun t => by simp [div_eq_mul_inv])
  have i3 := integral_cos_circle (fun c => 1 / √(wireDistSq a rho z c) ^ 3) c3
  rw [i1, i2, i3]
  simp only [wireDistSq_sub hbe.ne']
  set m := 1 - ((a - rho) ^ 2 + z ^ 2) / ((a + rho) ^ 2 + z ^ 2) with hm
  have hm0 : 0 < m := by rw [hm, sub_pos, div_lt_one hbe]; nlinarith
  have hm1 : m < 1 := by
    have : 0 < ((a - rho) ^ 2 + z ^ 2) / ((a + rho) ^ 2 + z ^ 2) := by positivity
    linarith
  set b := √((a + rho) ^ 2 + z ^ 2) with hb
  have hbp : 0 < b := sqrt_pos.2 hbe
  have hb2 : b ^ 2 = (a + rho) ^ 2 + z ^ 2 := sq_sqrt hbe.le
  have hsq : ∀ t, √(((a + rho) ^ 2 + z ^ 2) * (1 - m * sin t ^ 2)) = b * √(1 - m * sin t ^ 2) := by
    intro t; rw [sqrt_mul hbe.le]
  have hDc := fun t => ellipD_pos hm1 t
  have k1 : Continuous fun t : ℝ => 2 * (sin t ^ 2 / √(1 - m * sin t ^ 2)) :=
    ((continuous_inv_sqrtD hm1).mul (f := fun t => 1 / √(1 - m * sin t ^ 2)) (g := fun t : ℝ => 2 * sin t ^ 2) (by fun_prop)).congr
      fun t => by simp only [Pi.mul_apply]; ring
  have k2 : Continuous fun t : ℝ => 2 * (sin t ^ 2 / ((1 - m * sin t ^ 2) * √(1 - m * sin t ^ 2))) :=
    ((continuous_inv_D32 hm1).mul (f := fun t => 1 / ((1 - m * sin t ^ 2) * √(1 - m * sin t ^ 2))) (g := fun t : ℝ => 2 * sin t ^ 2) (by fun_prop)).congr
      fun t => by simp only [Pi.mul_apply]; ring
  have j1 : ∫ t in (0 : ℝ)..(π / 2), (2 * sin t ^ 2 - 1) / √(((a + rho) ^ 2 + z ^ 2) * (1 - m * sin t ^ 2)) =
      (2 * ((ellipK m - ellipE m) / m) - ellipK m) / b := by
    rw [← integral_sin_sq_div hm1 hm0.ne', ellipK, ← intervalIntegral.integral_const_mul, ← integral_sub
      (k1.intervalIntegrable _ _) ((continuous_inv_sqrtD hm1).intervalIntegrable _ _),
      ← intervalIntegral.integral_div]
    refine integral_congr fun t _ => ?_
    have := sqrt_pos.2 (hDc t)
    simp only [hsq]
    field_simp
  have hD3 : ∀ t, √(((a + rho) ^ 2 + z ^ 2) * (1 - m * sin t ^ 2)) ^ 3 =
      b ^ 3 * ((1 - m * sin t ^ 2) * √(1 - m * sin t ^ 2)) := by
    intro t
    have := sq_sqrt (hDc t).le
    rw [hsq, mul_pow, pow_succ √(1 - m * sin t ^ 2) 2, this]
  have j3 : ∫ t in (0 : ℝ)..(π / 2), 1 / √(((a + rho) ^ 2 + z ^ 2) * (1 - m * sin t ^ 2)) ^ 3 =
      ellipE m / (1 - m) / b ^ 3 := by
    rw [← integral_inv_D32 hm1, ← intervalIntegral.integral_div]
    refine integral_congr fun t _ => ?_
    have := sqrt_pos.2 (hDc t)
    have := hDc t
    simp only [hD3]
    generalize √(1 - m * sin t ^ 2) = r at *
    generalize 1 - m * sin t ^ 2 = d at *
    field_simp
  have j2 : ∫ t in (0 : ℝ)..(π / 2), (2 * sin t ^ 2 - 1) / √(((a + rho) ^ 2 + z ^ 2) * (1 - m * sin t ^ 2)) ^ 3 =
      (2 * ((ellipE m / (1 - m) - ellipK m) / m) - ellipE m / (1 - m)) / b ^ 3 := by
    rw [← integral_sin_sq_D32 hm1 hm0.ne', ← integral_inv_D32 hm1, ← intervalIntegral.integral_const_mul, ← integral_sub
      (k2.intervalIntegrable _ _) ((continuous_inv_D32 hm1).intervalIntegrable _ _),
      ← intervalIntegral.integral_div]
    refine integral_congr fun t _ => ?_
    have := sqrt_pos.2 (hDc t)
    have := hDc t
    simp only [hD3]
    generalize √(1 - m * sin t ^ 2) = r at *
    generalize 1 - m * sin t ^ 2 = d at *
    field_simp
  rw [j1, j2, j3]
  simp only [loopA, loopBr, loopBz, ← hm, ← hb]
  have hmv : m = 4 * a * rho / b ^ 2 := by rw [hm, hb2]; field_simp; ring
  have hmc : 1 - m = ((a - rho) ^ 2 + z ^ 2) / b ^ 2 := by rw [hm, hb2]; ring
  generalize ellipK m = K at *
  generalize ellipE m = E at *
  rw [hmc, hmv]
  generalize hall : (a - rho) ^ 2 + z ^ 2 = al at *
  refine ⟨?_, ?_, ?_⟩
  · field_simp
    rw [hb2]
    ring
  · field_simp
    rw [hb2, ← hall]
    ring
  · field_simp
    rw [hb2, ← hall]
    ring

end

end Verif
