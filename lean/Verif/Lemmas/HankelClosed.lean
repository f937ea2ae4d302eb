import Verif.Lemmas.HankelLimit

/-! # Closed forms of the Hankel transforms of the reflection coefficient (helper lemmas) -/

namespace Verif

open Real Filter MeasureTheory Set
open scoped Topology

variable {κ : ℂ} {r : ℝ}

theorem hasDerivAt_cexp_neg (w : ℂ) (v : ℝ) : HasDerivAt (fun v : ℝ => Complex.exp (-w * v)) (-w * Complex.exp (-w * v)) v := by
  have h0 : HasDerivAt (fun v : ℝ => (v : ℂ)) 1 v := Complex.ofRealCLM.hasDerivAt
  exact ((h0.const_mul (-w)).cexp).congr_deriv (by ring)

theorem hasDerivAt_cpoly (a b c d e f : ℂ) (v : ℝ) :
    HasDerivAt (fun v : ℝ => a + b * (v : ℂ) + c * (v : ℂ) ^ 2 + d * (v : ℂ) ^ 3 + e * (v : ℂ) ^ 4 + f * (v : ℂ) ^ 5)
      (b + 2 * c * v + 3 * d * (v : ℂ) ^ 2 + 4 * e * (v : ℂ) ^ 3 + 5 * f * (v : ℂ) ^ 4) v := by
  have h0 : HasDerivAt (fun v : ℝ => (v : ℂ)) 1 v := Complex.ofRealCLM.hasDerivAt
  refine ((((((hasDerivAt_const v a).fun_add (h0.const_mul b)).fun_add ((h0.fun_pow 2).const_mul c)).fun_add
    ((h0.fun_pow 3).const_mul d)).fun_add ((h0.fun_pow 4).const_mul e)).fun_add ((h0.fun_pow 5).const_mul f)).congr_deriv ?_
  simp
  ring

/-- `∫₀¹ (1-v²)² e^{-wv} dv`. -/
theorem moment_zero {w : ℂ} (hw : w ≠ 0) :
    ∫ v in (0:ℝ)..1, (1 - (v : ℂ) ^ 2) ^ 2 * Complex.exp (-w * v)
      = 1 / w - 4 / w ^ 3 + 24 / w ^ 5 - (8 / w ^ 3 + 24 / w ^ 4 + 24 / w ^ 5) * Complex.exp (-w) := by
  have hd : ∀ v : ℝ, HasDerivAt (fun v : ℝ => -((1 / w - 4 / w ^ 3 + 24 / w ^ 5) + (-4 / w ^ 2 + 24 / w ^ 4) * (v : ℂ)
      + (-2 / w + 12 / w ^ 3) * (v : ℂ) ^ 2 + (4 / w ^ 2) * (v : ℂ) ^ 3 + (1 / w) * (v : ℂ) ^ 4 + 0 * (v : ℂ) ^ 5) * Complex.exp (-w * v))
      ((1 - (v : ℂ) ^ 2) ^ 2 * Complex.exp (-w * v)) v := fun v => by
    refine ((hasDerivAt_cpoly _ _ _ _ _ _ v).fun_neg.fun_mul (hasDerivAt_cexp_neg w v)).congr_deriv ?_
    generalize Complex.exp (-w * v) = E
    field_simp
    ring
  rw [intervalIntegral.integral_eq_sub_of_hasDerivAt (fun v _ => hd v) (Continuous.intervalIntegrable (by fun_prop) _ _)]
  simp only [Complex.ofReal_one, Complex.ofReal_zero, mul_zero, Complex.exp_zero, mul_one]
  generalize Complex.exp (-w) = E
  field_simp
  ring

/-- `∫₀¹ (1-v²)² (2/w - v) e^{-wv} dv`. -/
theorem moment_one {w : ℂ} (hw : w ≠ 0) :
    ∫ v in (0:ℝ)..1, (1 - (v : ℂ) ^ 2) ^ 2 * (2 / w - v) * Complex.exp (-w * v)
      = 1 / w ^ 2 + 4 / w ^ 4 - 72 / w ^ 6 + (8 / w ^ 3 + 32 / w ^ 4 + 72 / w ^ 5 + 72 / w ^ 6) * Complex.exp (-w) := by
  have hd : ∀ v : ℝ, HasDerivAt (fun v : ℝ => -((2 / w ^ 2 - 8 / w ^ 4 + 48 / w ^ 6 - 1 / w ^ 2 + 12 / w ^ 4 - 120 / w ^ 6)
      + (-8 / w ^ 3 + 48 / w ^ 5 - 1 / w + 12 / w ^ 3 - 120 / w ^ 5) * (v : ℂ)
      + (-4 / w ^ 2 + 24 / w ^ 4 + 6 / w ^ 2 - 60 / w ^ 4) * (v : ℂ) ^ 2 + (8 / w ^ 3 + 2 / w - 20 / w ^ 3) * (v : ℂ) ^ 3
      + (2 / w ^ 2 - 5 / w ^ 2) * (v : ℂ) ^ 4 + (-1 / w) * (v : ℂ) ^ 5) * Complex.exp (-w * v))
      ((1 - (v : ℂ) ^ 2) ^ 2 * (2 / w - v) * Complex.exp (-w * v)) v := fun v => by
    refine ((hasDerivAt_cpoly _ _ _ _ _ _ v).fun_neg.fun_mul (hasDerivAt_cexp_neg w v)).congr_deriv ?_
    generalize Complex.exp (-w * v) = E
    field_simp
    ring
  rw [intervalIntegral.integral_eq_sub_of_hasDerivAt (fun v _ => hd v) (Continuous.intervalIntegrable (by fun_prop) _ _)]
  simp only [Complex.ofReal_one, Complex.ofReal_zero, mul_zero, Complex.exp_zero, mul_one]
  generalize Complex.exp (-w) = E
  field_simp
  ring

/-- `lim ∫ x² R(x) e^{-zx} J_0(rx) dx`. -/
noncomputable def hankelA (κ : ℂ) (r : ℝ) : ℂ :=
  1 / r ^ 3 - 2 / (κ ^ 2 * r ^ 5) * (9 - (9 + 9 * (κ * r) + 4 * (κ * r) ^ 2 + (κ * r) ^ 3) * Complex.exp (-(κ * r)))

/-- `lim ∫ x R(x) e^{-zx} J_1(rx) dx`. -/
noncomputable def hankelB (κ : ℂ) (r : ℝ) : ℂ :=
  1 / r ^ 2 + 2 / (κ ^ 2 * r ^ 4) * (3 - (κ * r) ^ 2 - (3 + 3 * (κ * r) + (κ * r) ^ 2) * Complex.exp (-(κ * r)))

theorem hankel_A (hκ : 0 < κ.re) (hr : 0 < r) :
    (∀ z : ℝ, 0 < z → IntegrableOn (fun x : ℝ => (x : ℂ) ^ 2 * hsRefl κ x * exp (-z * x) * (besselJ0 (x * r) : ℂ)) (Ioi 0)) ∧
    Tendsto (fun z : ℝ => ∫ x in Ioi (0:ℝ), (x : ℂ) ^ 2 * hsRefl κ x * exp (-z * x) * (besselJ0 (x * r) : ℂ)) (𝓝[>] 0)
      (𝓝 (hankelA κ r)) := by
  have hk := kappa_ne hκ
  have hr' : (r : ℂ) ≠ 0 := by exact_mod_cast hr.ne'
  have hL : Tendsto (fun z => ∫ x in Ioi (0:ℝ), exp (-z * x) * besselJ0 (x * r)) (𝓝[>] 0) (𝓝 (1 / r)) := by
    have := tendsto_lipL hr
    unfold lipL at this
    simpa only [pow_zero, one_mul] using this
  have h := hankel_limit hκ (g := fun x => besselJ0 (x * r)) (C := 1) (continuous_J0_mul r).continuousOn (fun _ _ => abs_besselJ0_le _) hL
    (K := fun v => Complex.exp (-r * (v * κ)) * (2 / (3 * (v * κ)) - r / 3)) (fun v hv => by
      have : 0 < ((v : ℂ) * κ).re := by rw [Complex.re_ofReal_mul]; exact mul_pos hv hκ
      exact cker_J0 hr this)
  refine ⟨h.1, ?_⟩
  convert h.2 using 2
  have e : ∫ v in (0:ℝ)..1, (v * (1 - v ^ 2) ^ 2 : ℂ) * (Complex.exp (-r * (v * κ)) * (2 / (3 * (v * κ)) - r / 3))
      = r / 3 * ∫ v in (0:ℝ)..1, (1 - (v : ℂ) ^ 2) ^ 2 * (2 / (κ * r) - v) * Complex.exp (-(κ * r) * v) := by
    rw [← intervalIntegral.integral_const_mul, intervalIntegral.integral_of_le zero_le_one, intervalIntegral.integral_of_le zero_le_one]
    refine setIntegral_congr_fun measurableSet_Ioc fun v hv => ?_
    have hv' : (v : ℂ) ≠ 0 := by exact_mod_cast hv.1.ne'
    show (v * (1 - v ^ 2) ^ 2 : ℂ) * (Complex.exp (-r * (v * κ)) * (2 / (3 * (v * κ)) - r / 3)) = _
    rw [show -(r : ℂ) * (v * κ) = -(κ * r) * v by ring]
    generalize Complex.exp (-(κ * r) * v) = E
    field_simp
  rw [e, moment_one (mul_ne_zero hk hr'), hankelA]
  generalize Complex.exp (-(κ * r)) = E
  push_cast
  field_simp
  ring

theorem hankel_B (hκ : 0 < κ.re) (hr : 0 < r) :
    (∀ z : ℝ, 0 < z → IntegrableOn (fun x : ℝ => (x : ℂ) * hsRefl κ x * exp (-z * x) * (besselJ1 (x * r) : ℂ)) (Ioi 0)) ∧
    Tendsto (fun z : ℝ => ∫ x in Ioi (0:ℝ), (x : ℂ) * hsRefl κ x * exp (-z * x) * (besselJ1 (x * r) : ℂ)) (𝓝[>] 0)
      (𝓝 (hankelB κ r)) := by
  have hk := kappa_ne hκ
  have hr' : (r : ℂ) ≠ 0 := by exact_mod_cast hr.ne'
  have h := hankel_limit hκ (g := fun x => J1div r x) (C := |r|) (continuousOn_J1div r) (fun _ hx => abs_J1div_le r hx) (tendsto_lipN hr)
    (K := fun v => Complex.exp (-r * (v * κ)) * (r / (3 * (v * κ)))) (fun v hv => by
      have : 0 < ((v : ℂ) * κ).re := by rw [Complex.re_ofReal_mul]; exact mul_pos hv hκ
      exact cker_J1div hr this)
  have e0 : ∀ z : ℝ, ∀ x ∈ Ioi (0:ℝ), (x : ℂ) ^ 2 * hsRefl κ x * exp (-z * x) * (J1div r x : ℂ)
      = (x : ℂ) * hsRefl κ x * exp (-z * x) * (besselJ1 (x * r) : ℂ) := fun z x hx => by
    have hx' : (x : ℂ) ≠ 0 := by exact_mod_cast (ne_of_gt hx)
    rw [J1div]; push_cast; field_simp
  refine ⟨fun z hz => (h.1 z hz).congr_fun (e0 z) measurableSet_Ioi, ?_⟩
  have h2 := h.2.congr fun z => setIntegral_congr_fun measurableSet_Ioi (e0 z)
  convert h2 using 2
  have e : ∫ v in (0:ℝ)..1, (v * (1 - v ^ 2) ^ 2 : ℂ) * (Complex.exp (-r * (v * κ)) * (r / (3 * (v * κ))))
      = r / (3 * κ) * ∫ v in (0:ℝ)..1, (1 - (v : ℂ) ^ 2) ^ 2 * Complex.exp (-(κ * r) * v) := by
    rw [← intervalIntegral.integral_const_mul, intervalIntegral.integral_of_le zero_le_one, intervalIntegral.integral_of_le zero_le_one]
    refine setIntegral_congr_fun measurableSet_Ioc fun v hv => ?_
    have hv' : (v : ℂ) ≠ 0 := by exact_mod_cast hv.1.ne'
    show (v * (1 - v ^ 2) ^ 2 : ℂ) * (Complex.exp (-r * (v * κ)) * (r / (3 * (v * κ)))) = _
    rw [show -(r : ℂ) * (v * κ) = -(κ * r) * v by ring]
    generalize Complex.exp (-(κ * r) * v) = E
    field_simp
  rw [e, moment_zero (mul_ne_zero hk hr'), hankelB]
  generalize Complex.exp (-(κ * r)) = E
  push_cast
  field_simp
  ring

end Verif
