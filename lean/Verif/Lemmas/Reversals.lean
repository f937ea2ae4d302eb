import Verif.Lemmas.Transient
import Verif.Lemmas.BesselIe
import Mathlib.Analysis.Calculus.MeanValue
import Mathlib.Analysis.Calculus.Deriv.MeanValue
import Mathlib.Topology.Order.IntermediateValue

/-! # Functions that change sign exactly once (helper lemmas for C121) -/

namespace Verif.Tdem

open Real Set Filter Topology

/-- A function that starts at zero, falls, then rises and gets positive, has exactly one zero. -/
theorem one_zero {f f' : ℝ → ℝ} (hf : ∀ u, HasDerivAt f (f' u) u) (f0 : f 0 = 0) {m : ℝ} (hm : 0 < m)
    (dec : ∀ u, 0 < u → u < m → f' u < 0) (inc : ∀ u, m < u → 0 < f' u) (ev : ∃ b, m < b ∧ 0 < f b) :
    ∃ u₀, m < u₀ ∧ f u₀ = 0 ∧ (∀ u, 0 < u → u < u₀ → f u < 0) ∧ ∀ u, u₀ < u → 0 < f u := by
  have hc : Continuous f := continuous_iff_continuousAt.2 fun u => (hf u).continuousAt
  have hd : StrictAntiOn f (Icc 0 m) := by
    refine strictAntiOn_of_deriv_neg (convex_Icc 0 m) hc.continuousOn fun u hu => ?_
    rw [interior_Icc] at hu
    rw [(hf u).deriv]
    exact dec u hu.1 hu.2
  have hi : StrictMonoOn f (Ici m) := by
    refine strictMonoOn_of_deriv_pos (convex_Ici m) hc.continuousOn fun u hu => ?_
    rw [interior_Ici] at hu
    rw [(hf u).deriv]
    exact inc u hu
  obtain ⟨b, hb, fb⟩ := ev
  have fm : f m < 0 := by
    have := hd (left_mem_Icc.2 hm.le) (right_mem_Icc.2 hm.le) hm
    rwa [f0] at this
  obtain ⟨u₀, h0, hz⟩ := intermediate_value_Ioo hb.le hc.continuousOn ⟨fm, fb⟩
  refine ⟨u₀, h0.1, hz, fun u hu hlt => ?_, fun u hu => ?_⟩
  · by_cases hum : u ≤ m
    · have := hd (left_mem_Icc.2 hm.le) ⟨hu.le, hum⟩ hu
      rwa [f0] at this
    · have := hi (mem_Ici.2 (not_le.1 hum).le) (mem_Ici.2 h0.1.le) hlt
      rwa [hz] at this
  · have := hi (mem_Ici.2 h0.1.le) (mem_Ici.2 (h0.1.trans hu).le) hu
    rwa [hz] at this

theorem hasDerivAt_gauss (u : ℝ) : HasDerivAt (fun u : ℝ => exp (-u ^ 2)) (-2 * u * exp (-u ^ 2)) u := by
  have h : HasDerivAt (fun u : ℝ => -u ^ 2) (-(2 * u)) u := by simpa using (hasDerivAt_pow 2 u).fun_neg
  exact h.exp.congr_deriv (by ring)

/-- The derivative of `a erf u - P(u) exp(-u²) / √π`. -/
theorem hasDerivAt_shape (a : ℝ) {P : ℝ → ℝ} {P' u : ℝ} (hP : HasDerivAt P P' u) :
    HasDerivAt (fun u => a * erf u - P u / √π * exp (-u ^ 2)) ((2 * a - P' + 2 * u * P u) / √π * exp (-u ^ 2)) u := by
  have h := ((hasDerivAt_erf u).const_mul a).fun_sub ((hP.div_const √π).fun_mul (hasDerivAt_gauss u))
  refine h.congr_deriv ?_
  ring

/-- It tends to `a` if `P` is a polynomial `p₁ u + p₃ u³ + p₅ u⁵`. -/
theorem tendsto_shape (a p₁ p₃ p₅ : ℝ) :
    Tendsto (fun u => a * erf u - (p₁ * u + p₃ * u ^ 3 + p₅ * u ^ 5) / √π * exp (-u ^ 2)) atTop (𝓝 a) := by
  have h := (tendsto_erf_atTop.const_mul a).sub ((((tendsto_pow_mul_gauss 1).const_mul (p₁ / √π)).add
    ((tendsto_pow_mul_gauss 3).const_mul (p₃ / √π))).add ((tendsto_pow_mul_gauss 5).const_mul (p₅ / √π)))
  simp only [mul_zero, add_zero, mul_one, sub_zero] at h
  refine h.congr fun u => ?_
  ring

theorem hasDerivAt_odd (p₁ p₃ p₅ u : ℝ) :
    HasDerivAt (fun u : ℝ => p₁ * u + p₃ * u ^ 3 + p₅ * u ^ 5) (p₁ + 3 * p₃ * u ^ 2 + 5 * p₅ * u ^ 4) u := by
  have h := (((hasDerivAt_id u).const_mul p₁).fun_add ((hasDerivAt_pow 3 u).const_mul p₃)).fun_add ((hasDerivAt_pow 5 u).const_mul p₅)
  refine h.congr_deriv ?_
  simp only [mul_one, Nat.cast_ofNat, Nat.add_one_sub_one]
  ring

theorem eventually_pos {f : ℝ → ℝ} {a m : ℝ} (h : Tendsto f atTop (𝓝 a)) (ha : 0 < a) : ∃ b, m < b ∧ 0 < f b := by
  obtain ⟨b, hb⟩ := ((eventually_gt_atTop m).and (h.eventually (lt_mem_nhds ha))).exists
  exact ⟨b, hb⟩

theorem gauss_pos (u : ℝ) : 0 < 1 / √π * exp (-u ^ 2) := by
  have : 0 < √π := sqrt_pos.2 pi_pos
  positivity

/-- The factor of the electric field beside an electric dipole. -/
theorem one_zero_beside : ∃ u₀ : ℝ, 1 < u₀ ∧ (erf u₀ - (2 * u₀ + 4 * u₀ ^ 3) / √π * exp (-u₀ ^ 2) = 0) ∧
    (∀ u, 0 < u → u < u₀ → erf u - (2 * u + 4 * u ^ 3) / √π * exp (-u ^ 2) < 0) ∧
    ∀ u, u₀ < u → 0 < erf u - (2 * u + 4 * u ^ 3) / √π * exp (-u ^ 2) := by
  have h := one_zero (m := 1) (fun u => hasDerivAt_shape 1 (hasDerivAt_odd 2 4 0 u)) (by simp) one_pos
    (fun u hu h1 => ?_) (fun u h1 => ?_) (eventually_pos (tendsto_shape 1 2 4 0) one_pos)
  · simpa using h
  · have := gauss_pos u
    have e : (2 * 1 - (2 + 3 * 4 * u ^ 2 + 5 * 0 * u ^ 4) + 2 * u * (2 * u + 4 * u ^ 3 + 0 * u ^ 5)) / √π * exp (-u ^ 2) =
        8 * u ^ 2 * (u ^ 2 - 1) * (1 / √π * exp (-u ^ 2)) := by ring
    rw [e]
    have h2 : u ^ 2 - 1 < 0 := by nlinarith
    have : 8 * u ^ 2 * (u ^ 2 - 1) < 0 := mul_neg_of_pos_of_neg (by positivity) h2
    exact mul_neg_of_neg_of_pos this ‹_›
  · have := gauss_pos u
    have e : (2 * 1 - (2 + 3 * 4 * u ^ 2 + 5 * 0 * u ^ 4) + 2 * u * (2 * u + 4 * u ^ 3 + 0 * u ^ 5)) / √π * exp (-u ^ 2) =
        8 * u ^ 2 * (u ^ 2 - 1) * (1 / √π * exp (-u ^ 2)) := by ring
    rw [e]
    have h2 : 0 < u ^ 2 - 1 := by nlinarith
    have h3 : 0 < u := by linarith
    positivity

/-- The factor of the time derivative of the vertical field of a vertical dipole. -/
theorem one_zero_rate : ∃ u₀ : ℝ, 1 < u₀ ∧ (9 / 2 * erf u₀ - (9 * u₀ + 6 * u₀ ^ 3 + 4 * u₀ ^ 5) / √π * exp (-u₀ ^ 2) = 0) ∧
    (∀ u, 0 < u → u < u₀ → 9 / 2 * erf u - (9 * u + 6 * u ^ 3 + 4 * u ^ 5) / √π * exp (-u ^ 2) < 0) ∧
    ∀ u, u₀ < u → 0 < 9 / 2 * erf u - (9 * u + 6 * u ^ 3 + 4 * u ^ 5) / √π * exp (-u ^ 2) := by
  have e : ∀ u : ℝ, (2 * (9 / 2) - (9 + 3 * 6 * u ^ 2 + 5 * 4 * u ^ 4) + 2 * u * (9 * u + 6 * u ^ 3 + 4 * u ^ 5)) / √π * exp (-u ^ 2) =
      8 * u ^ 4 * (u ^ 2 - 1) * (1 / √π * exp (-u ^ 2)) := fun u => by ring
  refine one_zero (m := 1) (fun u => hasDerivAt_shape (9 / 2) (hasDerivAt_odd 9 6 4 u)) (by simp) one_pos
    (fun u hu h1 => ?_) (fun u h1 => ?_) (eventually_pos (tendsto_shape (9 / 2) 9 6 4) (by norm_num))
  · rw [e]
    have h2 : u ^ 2 - 1 < 0 := by nlinarith
    exact mul_neg_of_neg_of_pos (mul_neg_of_pos_of_neg (by positivity) h2) (gauss_pos u)
  · rw [e]
    have h2 : 0 < u ^ 2 - 1 := by nlinarith
    have h3 : 0 < u := by linarith
    have := gauss_pos u
    positivity

/-- The factor of the vertical field of a vertical dipole. -/
theorem one_zero_vertical : ∃ u₀ : ℝ, 1 < u₀ ∧ ((u₀ ^ 2 - 9 / 2) * erf u₀ + (9 * u₀ + 4 * u₀ ^ 3) / √π * exp (-u₀ ^ 2) = 0) ∧
    (∀ u, 0 < u → u < u₀ → (u ^ 2 - 9 / 2) * erf u + (9 * u + 4 * u ^ 3) / √π * exp (-u ^ 2) < 0) ∧
    ∀ u, u₀ < u → 0 < (u ^ 2 - 9 / 2) * erf u + (9 * u + 4 * u ^ 3) / √π * exp (-u ^ 2) := by
  have e : ∀ u : ℝ, (2 * 1 - (2 + 3 * 4 * u ^ 2 + 5 * 0 * u ^ 4) + 2 * u * (2 * u + 4 * u ^ 3 + 0 * u ^ 5)) / √π * exp (-u ^ 2) =
      8 * u ^ 2 * (u ^ 2 - 1) * (1 / √π * exp (-u ^ 2)) := fun u => by ring
  obtain ⟨m, hm, -, neg, pos⟩ := one_zero_beside
  have hm0 : 0 < m := by linarith
  have hd : ∀ u : ℝ, HasDerivAt (fun u => (u ^ 2 - 9 / 2) * erf u + (9 * u + 4 * u ^ 3) / √π * exp (-u ^ 2))
      (2 * u * (erf u - (2 * u + 4 * u ^ 3) / √π * exp (-u ^ 2))) u := by
    intro u
    have h1 : HasDerivAt (fun u : ℝ => u ^ 2 - 9 / 2) (2 * u) u := by simpa using (hasDerivAt_pow 2 u).sub_const (9 / 2)
    have h2 : HasDerivAt (fun u : ℝ => 9 * u + 4 * u ^ 3) (9 + 12 * u ^ 2) u := by
      refine (hasDerivAt_odd 9 4 0 u).congr_deriv (by ring) |>.congr_of_eventuallyEq (Eventually.of_forall fun v => by ring)
    refine ((h1.fun_mul (hasDerivAt_erf u)).fun_add ((h2.div_const √π).fun_mul (hasDerivAt_gauss u))).congr_deriv ?_
    ring
  have key := one_zero hd (by simp) hm0 (fun u hu h1 => ?_) (fun u h1 => ?_) ?_
  · obtain ⟨u₀, h0, rest⟩ := key
    exact ⟨u₀, hm.trans h0, rest⟩
  · exact mul_neg_of_pos_of_neg (by positivity) (neg u hu h1)
  · exact mul_pos (by linarith) (pos u h1)
  · refine ⟨m + 3, by linarith, ?_⟩
    have h3 := erf_pos (u := m + 3) (by linarith)
    have h4 : 0 < √π := sqrt_pos.2 pi_pos
    have h5 : 0 < (m + 3) ^ 2 - 9 / 2 := by nlinarith
    have h6 : 0 < m + 3 := by linarith
    positivity

/-- `I₁ > I₂` for positive arguments. -/
theorem besselI_two_lt {x : ℝ} (hx : 0 < x) : besselI 2 x < besselI 1 x := by
  have hd : ∀ t ∈ uIcc (0 : ℝ) π, HasDerivAt (fun t => exp (x * cos t) * (sin t * (1 - cos t)))
      (exp (x * cos t) * cos (1 * t) - exp (x * cos t) * cos (2 * t) - x * (exp (x * cos t) * (sin t ^ 2 * (1 - cos t)))) t := by
    intro t _
    have h1 : HasDerivAt (fun t => x * cos t) (x * -sin t) t := (hasDerivAt_cos t).const_mul x
    have h2 : HasDerivAt (fun t => 1 - cos t) (sin t) t := by simpa using (hasDerivAt_cos t).const_sub 1
    refine (h1.exp.fun_mul ((hasDerivAt_sin t).fun_mul h2)).congr_deriv ?_
    rw [one_mul, cos_two_mul]
    have := sin_sq_add_cos_sq t
    linear_combination exp (x * cos t) * this
  have hftc := intervalIntegral.integral_eq_sub_of_hasDerivAt hd (Continuous.intervalIntegrable (by fun_prop) _ _)
  rw [intervalIntegral.integral_sub (Continuous.intervalIntegrable (by fun_prop) _ _) (Continuous.intervalIntegrable (by fun_prop) _ _),
    intervalIntegral.integral_sub (Continuous.intervalIntegrable (by fun_prop) _ _) (Continuous.intervalIntegrable (by fun_prop) _ _),
    intervalIntegral.integral_const_mul] at hftc
  simp only [sin_pi, sin_zero, zero_mul, mul_zero, sub_zero] at hftc
  have hpos : 0 < ∫ t in (0 : ℝ)..π, exp (x * cos t) * (sin t ^ 2 * (1 - cos t)) := by
    refine intervalIntegral.intervalIntegral_pos_of_pos_on (Continuous.intervalIntegrable (by fun_prop) _ _) (fun t ht => ?_) pi_pos
    have h1 := sin_pos_of_mem_Ioo ht
    have h2 : cos t < 1 := by
      have := cos_lt_cos_of_nonneg_of_le_pi le_rfl ht.2.le ht.1
      rwa [cos_zero] at this
    have h3 : 0 < 1 - cos t := by linarith
    positivity
  have h := mul_pos hx hpos
  simp only [besselI, Nat.cast_ofNat, Nat.cast_one]
  have : 0 < 1 / π := by positivity
  exact mul_lt_mul_of_pos_left (by linarith) this

end Verif.Tdem
