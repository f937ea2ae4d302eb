import Verif.Lemmas.WeberHalf
import Verif.Lemmas.BesselProduct
import Verif.Lemmas.HankelClosed

/-! # The Hankel transform of the reflection coefficient against `J_1` (helper lemmas) -/

namespace Verif

open Real Filter MeasureTheory Set BesselIK
open scoped Topology

variable {r : ℝ}

/-- `τ³ g''` for `g = (φ_1 - φ_2)/τ` -/
noncomputable def phiDD (τ : ℝ) : ℝ := 1 / (2 * τ ^ 2) * (phi 2 τ * (3 * τ - 2) + phi 1 τ * (12 * τ ^ 2 - 9 * τ + 2))

theorem phi_rec {τ : ℝ} (hτ : 0 < τ) : phi 0 τ - phi 2 τ = 4 * τ * phi 1 τ := by
  have h := ie_rec 0 (1 / (2 * τ))
  simp only [zero_add, Nat.cast_zero, mul_one] at h
  simp only [phi]
  generalize ie 0 (1 / (2 * τ)) = a at *
  generalize ie 1 (1 / (2 * τ)) = b at *
  generalize ie 2 (1 / (2 * τ)) = c at *
  field_simp at h
  linarith

/-- The Gaussian transform in the scaled variable. -/
theorem weberHalf_scaled (hr : 0 < r) {τ : ℝ} (hτ : 0 < τ) :
    ∫ x in Ioi (0:ℝ), x ^ 3 * exp (-(r ^ 2 / 4 * τ) * x ^ 2) * besselJ1 (x * r) = 4 * √π / r ^ 4 * (phiDD τ / (τ * √τ)) := by
  have ht : 0 < r ^ 2 / 4 * τ := by positivity
  have h3 := weberHalf_three ht r
  have h2 := weberHalf_two ht r
  rw [weberHalf_zero ht, weberHalf_one ht] at h2
  rw [weberHalf_one ht] at h3
  have hw : r ^ 2 / (8 * (r ^ 2 / 4 * τ)) = 1 / (2 * τ) := by field_simp; norm_num
  have hs : √(π / (r ^ 2 / 4 * τ)) = 2 * √π / (r * √τ) := by
    rw [sqrt_div pi_pos.le, sqrt_mul (by positivity), show r ^ 2 / 4 = (r / 2) ^ 2 by ring, sqrt_sq (by positivity)]
    field_simp
  have hq := sqrt_pos.2 hτ
  have hqq := sq_sqrt hτ.le
  rw [hw, hs] at h2 h3
  have hrec := phi_rec hτ
  change _ = 2 * √π / (r * √τ) / 2 * phi 0 τ - r * (2 * √π / (r * √τ) / 2 * (r / (4 * (r ^ 2 / 4 * τ))) * (phi 0 τ - phi 1 τ)) at h2
  change _ = 2 * √π / (r * √τ) / 2 * (r / (4 * (r ^ 2 / 4 * τ))) * (phi 0 τ - phi 1 τ) + _ at h3
  rw [phiDD]
  generalize (∫ x in Ioi (0:ℝ), x ^ 3 * exp (-(r ^ 2 / 4 * τ) * x ^ 2) * besselJ1 (x * r)) = U at *
  generalize (∫ x in Ioi (0:ℝ), x ^ 2 * exp (-(r ^ 2 / 4 * τ) * x ^ 2) * besselJ0 (x * r)) = Y at *
  generalize √π = p at *
  have e0 : phi 0 τ = phi 2 τ + 4 * τ * phi 1 τ := by linarith
  rw [e0] at h2 h3
  generalize phi 1 τ = a at *
  generalize phi 2 τ = b at *
  have hY : Y = (2 * p / (r * √τ) / 2 * (b + 4 * τ * a) - r * (2 * p / (r * √τ) / 2 * (r / (4 * (r ^ 2 / 4 * τ))) * (b + 4 * τ * a - a))) / (2 * (r ^ 2 / 4 * τ)) := by
    rw [eq_div_iff (by positivity), ← h2]; ring
  have hU : U = (2 * p / (r * √τ) / 2 * (r / (4 * (r ^ 2 / 4 * τ))) * (b + 4 * τ * a - a) + r * Y) / (2 * (r ^ 2 / 4 * τ)) := by
    rw [eq_div_iff (by positivity), ← h3]; ring
  rw [hU, hY]
  generalize √τ = q at *
  field_simp
  ring

theorem ker_J1_scaled (hr : 0 < r) {c : ℝ} (hc : 0 < c) :
    (∫ x in Ioi (0:ℝ), ker c x * besselJ1 (x * r) = r / 6 * ∫ τ in Ioi (0:ℝ), phiDD τ * exp (-((c * r / 2) ^ 2) * τ))
    ∧ IntegrableOn (fun τ => phiDD τ * exp (-((c * r / 2) ^ 2) * τ)) (Ioi 0) := by
  obtain ⟨h1, h2⟩ := ker_transform_integrable (g := fun x => besselJ1 (x * r)) (continuous_J1_mul r).continuousOn (fun _ _ => abs_besselJ1_le _) hc
  have hb : 0 < r ^ 2 / 4 := by positivity
  set G : ℝ → ℝ := fun t => t * √t * exp (-(c ^ 2 * t)) * ∫ x in Ioi (0:ℝ), x ^ 3 * exp (-t * x ^ 2) * besselJ1 (x * r) with hG
  have e : ∀ τ ∈ Ioi (0:ℝ), G (r ^ 2 / 4 * τ) = √π / (2 * r) * (phiDD τ * exp (-((c * r / 2) ^ 2) * τ)) := fun τ hτ => by
    have hτ0 : (0:ℝ) < τ := hτ
    simp only [hG]
    rw [weberHalf_scaled hr hτ0, sqrt_mul hb.le, show √(r ^ 2 / 4) = r / 2 by rw [show r ^ 2 / 4 = (r / 2) ^ 2 by ring, sqrt_sq (by positivity)],
      show -(c ^ 2 * (r ^ 2 / 4 * τ)) = -((c * r / 2) ^ 2) * τ by ring]
    have hq := sqrt_pos.2 hτ0
    generalize phiDD τ = P
    generalize exp (-((c * r / 2) ^ 2) * τ) = E
    field_simp
  have hpi : (0:ℝ) < √π := sqrt_pos.2 pi_pos
  constructor
  · rw [h1]
    have := integral_comp_mul_left_Ioi G 0 hb
    rw [mul_zero, setIntegral_congr_fun measurableSet_Ioi e, integral_const_mul, smul_eq_mul] at this
    have h3 : ∫ t in Ioi (0:ℝ), G t = r ^ 2 / 4 * (√π / (2 * r) * ∫ τ in Ioi (0:ℝ), phiDD τ * exp (-((c * r / 2) ^ 2) * τ)) := by
      rw [this]; field_simp
    rw [h3]
    generalize (∫ τ in Ioi (0:ℝ), phiDD τ * exp (-((c * r / 2) ^ 2) * τ)) = I
    field_simp
    ring
  · have h3 := (integrableOn_Ioi_comp_mul_left_iff G 0 hb).2 (by rw [mul_zero]; exact h2)
    have h4 := (h3.congr_fun e measurableSet_Ioi).const_mul (2 * r / √π)
    refine h4.congr (Eventually.of_forall fun τ => ?_)
    simp only
    generalize phiDD τ * exp (-((c * r / 2) ^ 2) * τ) = I
    field_simp

theorem phiDD_moment {s : ℝ} (hs : 0 < s) (hi : IntegrableOn (fun τ => phiDD τ * exp (-s * τ)) (Ioi 0)) :
    ∫ τ in Ioi (0:ℝ), phiDD τ * exp (-s * τ)
      = 6 * (LM (phi 1) 1 s - LM (phi 2) 1 s) - 6 * s * (LM (phi 1) 2 s - LM (phi 2) 2 s) + s ^ 2 * (LM (phi 1) 3 s - LM (phi 2) 3 s) := by
  have i1 := profile_one.integrable 1 hs
  have i2 := profile_one.integrable 2 hs
  have i3 := profile_one.integrable 3 hs
  have j1 := profile_two.integrable 1 hs
  have j2 := profile_two.integrable 2 hs
  have j3 := profile_two.integrable 3 hs
  have k1 : IntegrableOn (fun τ => 6 * (τ ^ 1 * (phi 1 τ / τ) * exp (-s * τ) - τ ^ 1 * (phi 2 τ / τ) * exp (-s * τ))) (Ioi 0) :=
    (i1.fun_sub j1).const_mul 6
  have k2 : IntegrableOn (fun τ => 6 * s * (τ ^ 2 * (phi 1 τ / τ) * exp (-s * τ) - τ ^ 2 * (phi 2 τ / τ) * exp (-s * τ))) (Ioi 0) :=
    (i2.fun_sub j2).const_mul (6 * s)
  have k3 : IntegrableOn (fun τ => s ^ 2 * (τ ^ 3 * (phi 1 τ / τ) * exp (-s * τ) - τ ^ 3 * (phi 2 τ / τ) * exp (-s * τ))) (Ioi 0) :=
    (i3.fun_sub j3).const_mul (s ^ 2)
  have iM : IntegrableOn (fun τ => 6 * (τ ^ 1 * (phi 1 τ / τ) * exp (-s * τ) - τ ^ 1 * (phi 2 τ / τ) * exp (-s * τ))
      - 6 * s * (τ ^ 2 * (phi 1 τ / τ) * exp (-s * τ) - τ ^ 2 * (phi 2 τ / τ) * exp (-s * τ))
      + s ^ 2 * (τ ^ 3 * (phi 1 τ / τ) * exp (-s * τ) - τ ^ 3 * (phi 2 τ / τ) * exp (-s * τ))) (Ioi 0) :=
    (k1.fun_sub k2).fun_add k3
  have key := integral_Ioi_of_limits
    (f := fun τ => -(phi 2 τ * (τ ^ 0 * exp (-s * τ)) - phi 1 τ * (τ ^ 0 * exp (-s * τ)) + (4 + 1) * (phi 1 τ * (τ ^ 1 * exp (-s * τ)))
      - 2 * (phi 2 τ * (τ ^ 1 * exp (-s * τ)))) + s * (phi 1 τ * (τ ^ 2 * exp (-s * τ)) - phi 2 τ * (τ ^ 2 * exp (-s * τ))))
    (f' := fun τ => phiDD τ * exp (-s * τ) - (6 * (τ ^ 1 * (phi 1 τ / τ) * exp (-s * τ) - τ ^ 1 * (phi 2 τ / τ) * exp (-s * τ))
      - 6 * s * (τ ^ 2 * (phi 1 τ / τ) * exp (-s * τ) - τ ^ 2 * (phi 2 τ / τ) * exp (-s * τ))
      + s ^ 2 * (τ ^ 3 * (phi 1 τ / τ) * exp (-s * τ) - τ ^ 3 * (phi 2 τ / τ) * exp (-s * τ)))) (l := 0) (m := 0) ?_ (fun τ hτ => ?_) (hi.fun_sub iM) ?_
  · rw [integral_sub hi iM, integral_add (k1.fun_sub k2) k3,
      integral_sub k1 k2, integral_const_mul, integral_const_mul, integral_const_mul,
      integral_sub i1 j1, integral_sub i2 j2, integral_sub i3 j3] at key
    simp only [LM]
    linarith
  · have a0 := fun k => tendsto_phi_pow_zero (tendsto_phi_zero 1) k s
    have b0 := fun k => tendsto_phi_pow_zero (tendsto_phi_zero 2) k s
    have := (((((b0 0).sub (a0 0)).add ((a0 1).const_mul (4 + 1))).sub ((b0 1).const_mul 2)).neg).add (((a0 2).sub (b0 2)).const_mul s)
    simp only [mul_zero, sub_zero, add_zero, neg_zero] at this
    exact this
  · have hE := hasDerivAt_exp_lin s τ
    have hp : ∀ k : ℕ, HasDerivAt (fun τ : ℝ => τ ^ k) (k * τ ^ (k - 1)) τ := fun k => hasDerivAt_pow k τ
    have a := fun k => (hasDerivAt_phi_one hτ).fun_mul ((hp k).fun_mul hE)
    have b := fun k => (hasDerivAt_phi_two hτ).fun_mul ((hp k).fun_mul hE)
    refine ((((((b 0).fun_sub (a 0)).fun_add ((a 1).const_mul (4 + 1))).fun_sub ((b 1).const_mul 2)).fun_neg).fun_add
      (((a 2).fun_sub (b 2)).const_mul s)).congr_deriv ?_
    push_cast
    rw [phiDD]
    generalize phi 1 τ = a
    generalize phi 2 τ = b
    generalize exp (-s * τ) = E
    field_simp
    ring
  · have a0 := fun k => tendsto_bdd_exp (tendsto_phi_atTop 1) k hs
    have b0 := fun k => tendsto_bdd_exp (tendsto_phi_atTop 2) k hs
    have := (((((b0 0).sub (a0 0)).add ((a0 1).const_mul (4 + 1))).sub ((b0 1).const_mul 2)).neg).add (((a0 2).sub (b0 2)).const_mul s)
    simp only [mul_zero, sub_zero, add_zero, neg_zero] at this
    exact this

/-! ## The Bessel side -/

/-- The derivatives of a complex function that is a Laplace transform for real arguments. -/
theorem product_derivs {φ : ℝ → ℝ} (h : Profile φ) {Y Y1 Y2 : ℂ → ℂ} (hY : ∀ z : ℂ, 0 < z.re → HasDerivAt Y (Y1 z / z) z)
    (hY1 : ∀ z : ℂ, 0 < z.re → HasDerivAt Y1 (Y2 z / z) z) (h0 : ∀ z : ℝ, 0 < z → Y z = ((1 / 2 * LM φ 0 (z ^ 2) : ℝ) : ℂ)) :
    (∀ z : ℝ, 0 < z → Y1 z = ((-(z ^ 2 * LM φ 1 (z ^ 2)) : ℝ) : ℂ)) ∧
    ∀ z : ℝ, 0 < z → Y2 z = ((-2 * (z ^ 2 * LM φ 1 (z ^ 2)) + 2 * (z ^ 4 * LM φ 2 (z ^ 2)) : ℝ) : ℂ) := by
  have step : ∀ {Y Y1 : ℂ → ℂ} {p p1 : ℝ → ℝ}, (∀ z : ℂ, 0 < z.re → HasDerivAt Y (Y1 z / z) z) →
      (∀ z : ℝ, 0 < z → HasDerivAt p (p1 z / z) z) → (∀ z : ℝ, 0 < z → Y z = ((p z : ℝ) : ℂ)) →
      ∀ z : ℝ, 0 < z → Y1 z = ((p1 z : ℝ) : ℂ) := by
    intro Y Y1 p p1 hY hp he z hz
    have hz' : 0 < (z:ℂ).re := by simpa using hz
    have a := (hY z hz').comp_ofReal
    have b := (hp z hz).ofReal_comp
    have c : (fun y : ℝ => Y y) =ᶠ[𝓝 z] fun y => ((p y : ℝ) : ℂ) := by
      filter_upwards [lt_mem_nhds hz] with y hy using he y hy
    have := a.unique (b.congr_of_eventuallyEq c)
    push_cast at this
    have hz0 : (z:ℂ) ≠ 0 := by exact_mod_cast hz.ne'
    field_simp at this
    exact this
  have h1 := step hY (fun z hz => h.p0 hz) h0
  exact ⟨h1, step hY1 (fun z hz => h.p1 hz) h1⟩

/-- `I_1K_1 - I_2K_2` and what `z d/dz` makes of it -/
noncomputable def T0 (z : ℂ) : ℂ := cbesselI 1 z * cbesselK 1 z - cbesselI 2 z * cbesselK 2 z
noncomputable def T1 (z : ℂ) : ℂ := Y11 z - Y21 z
noncomputable def T2 (z : ℂ) : ℂ := Y12 z - Y22 z
noncomputable def T3 (z : ℂ) : ℂ :=
  4 * (z ^ 2 + 1) * Y11 z + 4 * z ^ 2 * (cbesselI 1 z * cbesselK 1 z) - (4 * (z ^ 2 + 4) * Y21 z + 4 * z ^ 2 * (cbesselI 2 z * cbesselK 2 z))

theorem derivs_T {z : ℂ} (hz : 0 < z.re) : HasDerivAt T0 (T1 z / z) z ∧ HasDerivAt T1 (T2 z / z) z ∧ HasDerivAt T2 (T3 z / z) z := by
  obtain ⟨a, b, c⟩ := derivs_one hz
  obtain ⟨a', b', c'⟩ := derivs_two hz
  refine ⟨(a.fun_sub a').congr_deriv ?_, (b.fun_sub b').congr_deriv ?_, (c.fun_sub c').congr_deriv ?_⟩
  · rw [T1, sub_div]
  · rw [T2, sub_div]
  · rw [T3]; push_cast; ring

theorem differentiableAt_T3 {z : ℂ} (hz : 0 < z.re) : DifferentiableAt ℂ T3 z := by
  have a := (derivs_one hz).1.differentiableAt
  have b := (derivs_one hz).2.1.differentiableAt
  have c := (derivs_two hz).1.differentiableAt
  have d := (derivs_two hz).2.1.differentiableAt
  unfold T3
  fun_prop

theorem moments_T {z : ℝ} (hz : 0 < z) : T3 z + 6 * T2 z + 8 * T1 z
    = ((-4 * z ^ 2 * (6 * (LM (phi 1) 1 (z ^ 2) - LM (phi 2) 1 (z ^ 2)) - 6 * z ^ 2 * (LM (phi 1) 2 (z ^ 2) - LM (phi 2) 2 (z ^ 2))
      + (z ^ 2) ^ 2 * (LM (phi 1) 3 (z ^ 2) - LM (phi 2) 3 (z ^ 2))) : ℝ) : ℂ) := by
  obtain ⟨a1, a2⟩ := product_derivs profile_one (Y := fun z => cbesselI 1 z * cbesselK 1 z) (fun z hz => (derivs_one hz).1)
    (fun z hz => (derivs_one hz).2.1) (fun z hz => product_one hz)
  obtain ⟨b1, b2⟩ := product_derivs profile_two (Y := fun z => cbesselI 2 z * cbesselK 2 z) (fun z hz => (derivs_two hz).1)
    (fun z hz => (derivs_two hz).2.1) (fun z hz => product_two hz)
  rw [T3, T2, T1, a1 z hz, a2 z hz, b1 z hz, b2 z hz, product_one hz, product_two hz]
  have h1 := moment_identity_one (s := z ^ 2) (by positivity)
  have h2 := moment_identity_two (s := z ^ 2) (by positivity)
  norm_cast
  norm_num
  linear_combination (-4 * z ^ 2) * h2 + (4 * z ^ 2) * h1

/-- `∫ x³ (x²+κ²)^(-5/2) J_1(rx) dx`. -/
theorem cker_J1 (hr : 0 < r) {κ : ℂ} (hκ : 0 < κ.re) :
    ∫ x in Ioi (0:ℝ), cker κ x * (besselJ1 (x * r) : ℂ)
      = -(1 / (6 * r * κ ^ 2)) * (T3 (κ * r / 2) + 6 * T2 (κ * r / 2) + 8 * T1 (κ * r / 2)) := by
  have hr' : (r : ℂ) ≠ 0 := by exact_mod_cast hr.ne'
  have hre : ∀ k : ℂ, 0 < k.re → 0 < (k * r / 2).re := fun k hk => by
    have : (k * r / 2).re = k.re * r / 2 := by
      rw [show k * r / 2 = k * ((r / 2 : ℝ) : ℂ) by push_cast; ring, Complex.re_mul_ofReal]; ring
    rw [this]; positivity
  refine transform_continuation (g := fun x => besselJ1 (x * r)) (C := 1)
    (H := fun k => -(1 / (6 * r * k ^ 2)) * (T3 (k * r / 2) + 6 * T2 (k * r / 2) + 8 * T1 (k * r / 2)))
    (continuous_J1_mul r).continuousOn (fun _ _ => abs_besselJ1_le _) (fun k hk => ?_) (fun c hc => ?_) hκ
  · have hk0 := ne_of_re hk
    have hz := hre k hk
    have l : DifferentiableAt ℂ (fun k : ℂ => k * r / 2) k := by fun_prop
    have d1 : DifferentiableAt ℂ (fun k : ℂ => T1 (k * r / 2)) k := DifferentiableAt.comp (f := fun k : ℂ => k * r / 2) k (derivs_T hz).2.1.differentiableAt l
    have d2 : DifferentiableAt ℂ (fun k : ℂ => T2 (k * r / 2)) k := DifferentiableAt.comp (f := fun k : ℂ => k * r / 2) k (derivs_T hz).2.2.differentiableAt l
    have d3 : DifferentiableAt ℂ (fun k : ℂ => T3 (k * r / 2)) k := DifferentiableAt.comp (f := fun k : ℂ => k * r / 2) k (differentiableAt_T3 hz) l
    have h3 : (6 * r * k ^ 2 : ℂ) ≠ 0 := by simp [hr', hk0]
    fun_prop (disch := assumption)
  · have hz : 0 < c * r / 2 := by positivity
    obtain ⟨h1, h2⟩ := ker_J1_scaled hr hc
    rw [h1, phiDD_moment (by positivity) h2]
    have := moments_T hz
    push_cast at this
    rw [this]
    push_cast
    have hc0 : (c : ℂ) ≠ 0 := by exact_mod_cast hc.ne'
    generalize (LM (phi 1) 1 ((c * r / 2) ^ 2) : ℂ) = m1
    generalize (LM (phi 1) 2 ((c * r / 2) ^ 2) : ℂ) = m2
    generalize (LM (phi 1) 3 ((c * r / 2) ^ 2) : ℂ) = m3
    generalize (LM (phi 2) 1 ((c * r / 2) ^ 2) : ℂ) = n1
    generalize (LM (phi 2) 2 ((c * r / 2) ^ 2) : ℂ) = n2
    generalize (LM (phi 2) 3 ((c * r / 2) ^ 2) : ℂ) = n3
    field_simp
    ring

theorem lim_T0 : Tendsto T0 (𝓝[{z : ℂ | 0 < z.re}] 0) (𝓝 (1 / 4)) := by
  have := tendsto_IK1.sub tendsto_IK2
  rw [show (1:ℂ) / 2 - 1 / 4 = 1 / 4 by norm_num] at this
  exact this

theorem lim_T1 : Tendsto T1 (𝓝[{z : ℂ | 0 < z.re}] 0) (𝓝 0) := by
  have := lim_Y11.sub lim_Y21
  rw [sub_zero] at this
  exact this

theorem lim_T2 : Tendsto T2 (𝓝[{z : ℂ | 0 < z.re}] 0) (𝓝 0) := by
  have := lim_Y12.sub lim_Y22
  rw [sub_zero] at this
  exact this

/-- The integral over the parameter of the remainder. -/
theorem ray_integral {w : ℂ} (hw : 0 < w.re)
    (hi : IntervalIntegrable (fun v : ℝ => (v * (1 - v ^ 2) ^ 2 : ℂ) * ((T3 (v * w) + 6 * T2 (v * w) + 8 * T1 (v * w)) / v ^ 2)) volume 0 1) :
    ∫ v in (0:ℝ)..1, (v * (1 - v ^ 2) ^ 2 : ℂ) * ((T3 (v * w) + 6 * T2 (v * w) + 8 * T1 (v * w)) / v ^ 2) = 8 * T0 w - 2 := by
  set F : ℝ → ℂ := fun v => (T2 (v * w) + 6 * T1 (v * w) + 8 * T0 (v * w)) - 2 * (v : ℂ) ^ 2 * (T2 (v * w) + 4 * T1 (v * w))
    + (v : ℂ) ^ 4 * (T2 (v * w) + 2 * T1 (v * w)) with hF
  have hw0 := ne_of_re hw
  have hre : ∀ v : ℝ, 0 < v → 0 < ((v : ℂ) * w).re := fun v hv => by rw [Complex.re_ofReal_mul]; positivity
  have hd : ∀ v : ℝ, 0 < v → HasDerivAt F ((v * (1 - v ^ 2) ^ 2 : ℂ) * ((T3 (v * w) + 6 * T2 (v * w) + 8 * T1 (v * w)) / v ^ 2)) v := fun v hv => by
    have h0 : HasDerivAt (fun v : ℝ => (v : ℂ)) 1 v := Complex.ofRealCLM.hasDerivAt
    have hl : HasDerivAt (fun v : ℝ => (v : ℂ) * w) w v := (h0.mul_const w).congr_deriv (one_mul w)
    obtain ⟨a, b, c⟩ := derivs_T (hre v hv)
    have a' := HasDerivAt.comp (h₂ := T0) (h := fun v : ℝ => (v : ℂ) * w) v a hl
    have b' := HasDerivAt.comp (h₂ := T1) (h := fun v : ℝ => (v : ℂ) * w) v b hl
    have c' := HasDerivAt.comp (h₂ := T2) (h := fun v : ℝ => (v : ℂ) * w) v c hl
    refine ((((c'.fun_add (b'.const_mul 6)).fun_add (a'.const_mul 8)).fun_sub (((h0.fun_pow 2).const_mul 2).fun_mul (c'.fun_add (b'.const_mul 4)))).fun_add
      ((h0.fun_pow 4).fun_mul (c'.fun_add (b'.const_mul 2)))).congr_deriv ?_
    have hv0 : (v : ℂ) ≠ 0 := by exact_mod_cast hv.ne'
    simp only [Function.comp_apply]
    push_cast
    field_simp
    ring
  have hlim : Tendsto (fun v : ℝ => (v : ℂ) * w) (𝓝[>] 0) (𝓝[{z : ℂ | 0 < z.re}] 0) := by
    refine tendsto_nhdsWithin_iff.2 ⟨?_, ?_⟩
    · have : Tendsto (fun v : ℝ => (v : ℂ) * w) (𝓝 0) (𝓝 (((0:ℝ):ℂ) * w)) := Continuous.tendsto (by fun_prop) 0
      rw [Complex.ofReal_zero, zero_mul] at this
      exact this.mono_left nhdsWithin_le_nhds
    · filter_upwards [self_mem_nhdsWithin] with v hv using hre v hv
  have hv : Tendsto (fun v : ℝ => (v : ℂ)) (𝓝[>] 0) (𝓝 0) := by
    have := Complex.continuous_ofReal.tendsto 0
    rw [Complex.ofReal_zero] at this
    exact this.mono_left nhdsWithin_le_nhds
  have t0 := lim_T0.comp hlim
  have t1 := lim_T1.comp hlim
  have t2 := lim_T2.comp hlim
  have l0 : Tendsto F (𝓝[>] 0) (𝓝 2) := by
    have := (((t2.add (t1.const_mul 6)).add (t0.const_mul 8)).sub (((hv.pow 2).const_mul 2).mul (t2.add (t1.const_mul 4)))).add
      ((hv.pow 4).mul (t2.add (t1.const_mul 2)))
    rw [show (0:ℂ) + 6 * 0 + 8 * (1 / 4) - 2 * 0 ^ 2 * (0 + 4 * 0) + 0 ^ 4 * (0 + 2 * 0) = 2 by norm_num] at this
    exact this
  have l1 : Tendsto F (𝓝[<] 1) (𝓝 (F 1)) := (hd 1 one_pos).continuousAt.tendsto.mono_left nhdsWithin_le_nhds
  rw [intervalIntegral.integral_eq_sub_of_hasDerivAt_of_tendsto zero_lt_one (fun v hv => hd v hv.1) hi l0 l1, hF]
  simp only [Complex.ofReal_one, one_mul]
  ring

/-- `lim ∫ x² R(x) e^{-zx} J_1(rx) dx`. -/
noncomputable def hankelC (κ : ℂ) (r : ℝ) : ℂ := -(κ ^ 2 / r) * (cbesselI 1 (κ * r / 2) * cbesselK 1 (κ * r / 2) - cbesselI 2 (κ * r / 2) * cbesselK 2 (κ * r / 2))

theorem hankel_C {κ : ℂ} (hκ : 0 < κ.re) (hr : 0 < r) :
    (∀ z : ℝ, 0 < z → IntegrableOn (fun x : ℝ => (x : ℂ) ^ 2 * hsRefl κ x * exp (-z * x) * (besselJ1 (x * r) : ℂ)) (Ioi 0)) ∧
    Tendsto (fun z : ℝ => ∫ x in Ioi (0:ℝ), (x : ℂ) ^ 2 * hsRefl κ x * exp (-z * x) * (besselJ1 (x * r) : ℂ)) (𝓝[>] 0)
      (𝓝 (hankelC κ r)) := by
  have hk := kappa_ne hκ
  have hr' : (r : ℂ) ≠ 0 := by exact_mod_cast hr.ne'
  have hw : 0 < (κ * r / 2).re := by
    have : (κ * r / 2).re = κ.re * r / 2 := by
      rw [show κ * r / 2 = κ * ((r / 2 : ℝ) : ℂ) by push_cast; ring, Complex.re_mul_ofReal]; ring
    rw [this]; positivity
  have hL : Tendsto (fun z => ∫ x in Ioi (0:ℝ), exp (-z * x) * besselJ1 (x * r)) (𝓝[>] 0) (𝓝 (1 / r)) := by
    have := tendsto_lipM hr
    unfold lipM at this
    simpa only [pow_zero, one_mul] using this
  have hK : ∀ v : ℝ, 0 < v → ∫ x in Ioi (0:ℝ), cker (v * κ) x * (besselJ1 (x * r) : ℂ)
      = -(1 / (6 * r * κ ^ 2)) * ((T3 (v * (κ * r / 2)) + 6 * T2 (v * (κ * r / 2)) + 8 * T1 (v * (κ * r / 2))) / (v : ℂ) ^ 2) := fun v hv => by
    have : 0 < ((v : ℂ) * κ).re := by rw [Complex.re_ofReal_mul]; exact mul_pos hv hκ
    rw [cker_J1 hr this, show (v : ℂ) * κ * r / 2 = v * (κ * r / 2) by ring]
    have hv0 : (v : ℂ) ≠ 0 := by exact_mod_cast hv.ne'
    field_simp
  have h := hankel_limit hκ (g := fun x => besselJ1 (x * r)) (C := 1) (continuous_J1_mul r).continuousOn (fun _ _ => abs_besselJ1_le _) hL hK
  refine ⟨h.1, ?_⟩
  convert h.2 using 2
  have hii := remK_integrable hκ (g := fun x => besselJ1 (x * r)) (C := 1) (continuous_J1_mul r).continuousOn (fun _ _ => abs_besselJ1_le _) hK
  have hii2 := hii.const_mul (-(6 * r * κ ^ 2))
  have e : ∀ v : ℝ, -(6 * r * κ ^ 2) * ((v * (1 - v ^ 2) ^ 2 : ℂ) * (-(1 / (6 * r * κ ^ 2)) * ((T3 (v * (κ * r / 2)) + 6 * T2 (v * (κ * r / 2)) + 8 * T1 (v * (κ * r / 2))) / (v : ℂ) ^ 2)))
      = (v * (1 - v ^ 2) ^ 2 : ℂ) * ((T3 (v * (κ * r / 2)) + 6 * T2 (v * (κ * r / 2)) + 8 * T1 (v * (κ * r / 2))) / (v : ℂ) ^ 2) := fun v => by
    generalize (T3 (v * (κ * r / 2)) + 6 * T2 (v * (κ * r / 2)) + 8 * T1 (v * (κ * r / 2))) / (v : ℂ) ^ 2 = Q
    field_simp
  simp only [e] at hii2
  have hray := ray_integral hw hii2
  have e2 : ∫ v in (0:ℝ)..1, (v * (1 - v ^ 2) ^ 2 : ℂ) * (-(1 / (6 * r * κ ^ 2)) * ((T3 (v * (κ * r / 2)) + 6 * T2 (v * (κ * r / 2)) + 8 * T1 (v * (κ * r / 2))) / (v : ℂ) ^ 2))
      = -(1 / (6 * r * κ ^ 2)) * (8 * T0 (κ * r / 2) - 2) := by
    rw [← hray, ← intervalIntegral.integral_const_mul]
    refine intervalIntegral.integral_congr fun v _ => ?_
    ring
  rw [e2, hankelC, ← T0]
  push_cast
  field_simp
  ring

end Verif
