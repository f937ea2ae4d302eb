import Verif.Model.TdemSimple
import Verif.Lemmas.Bessel
import Verif.Props.Coordinates
import Mathlib.Analysis.Calculus.Deriv.Inv

/-! # Transient loop and vertical dipole over a halfspace (C58, C59, C60, C75) -/

namespace Verif.Tdem

open Real Spatial

variable {t sigma mu radius current turns moment x y : ℝ}

theorem theta_pos (ht : 0 < t) (hs : 0 < sigma) (hm : 0 < mu) : 0 < theta t sigma mu := sqrt_pos.2 (by positivity)

theorem theta_sq (ht : 0 < t) (hs : 0 < sigma) (hm : 0 < mu) : theta t sigma mu ^ 2 = mu * sigma / (4 * t) :=
  sq_sqrt (by positivity)

theorem hasDerivAt_theta (ht : 0 < t) (hs : 0 < sigma) (hm : 0 < mu) :
    HasDerivAt (fun t => theta t sigma mu) (-(theta t sigma mu / (2 * t))) t := by
  have h1 : HasDerivAt (fun t : ℝ => 4 * t) 4 t := by simpa using (hasDerivAt_id t).const_mul (4 : ℝ)
  have h2 := (hasDerivAt_const t (mu * sigma)).fun_div h1 (by positivity)
  have h3 := h2.sqrt (ne_of_gt (by positivity : 0 < mu * sigma / (4 * t)))
  refine h3.congr_deriv ?_
  change _ / (2 * theta t sigma mu) = _
  have hp := theta_pos ht hs hm
  have hq := theta_sq ht hs hm
  generalize theta t sigma mu = th at *
  have : mu * sigma = 4 * t * th ^ 2 := by rw [hq]; field_simp
  rw [this]
  field_simp
  ring

/-- The dimensionless factor of the loop's field. -/
theorem hasDerivAt_loopShape {u : ℝ} (hu : u ≠ 0) :
    HasDerivAt (fun u => 3 / (√π * u) * exp (-(u ^ 2)) + (1 - 3 / (2 * u ^ 2)) * erf u)
      (3 / u ^ 3 * erf u - (6 / u ^ 2 + 4) / √π * exp (-u ^ 2)) u := by
  have hpi : √π ≠ 0 := (sqrt_pos.2 pi_pos).ne'
  have hp : HasDerivAt (fun u : ℝ => u ^ 2) (2 * u) u := by simpa using (hasDerivAt_id u).fun_pow 2
  have hl : HasDerivAt (fun u : ℝ => √π * u) √π u := by simpa using (hasDerivAt_id u).const_mul √π
  have h1 := ((hasDerivAt_const u (3 : ℝ)).fun_div hl (by positivity)).fun_mul hp.fun_neg.exp
  have h2 := (((hasDerivAt_const u (3 : ℝ)).fun_div (hp.const_mul 2) (by positivity)).const_sub 1).fun_mul (hasDerivAt_erf u)
  refine (h1.fun_add h2).congr_deriv ?_
  generalize erf u = E
  generalize exp (-u ^ 2) = X
  field_simp
  ring

/-- **C58.** The time derivative of the flux density at the centre of the loop. -/
theorem loopFlux_hasDerivAt (ht : 0 < t) (hs : 0 < sigma) (hm : 0 < mu) (ha : 0 < radius) :
    HasDerivAt (fun t => loopFlux t sigma mu radius current turns) (loopFluxTimeDeriv t sigma mu radius current turns) t := by
  have hp := theta_pos ht hs hm
  have hq := theta_sq ht hs hm
  have h1 := (hasDerivAt_theta ht hs hm).mul_const radius
  have h2 := (hasDerivAt_loopShape (u := theta t sigma mu * radius) (by positivity)).comp t h1
  have h3 := (((h2.div_const (2 * radius)).const_mul (turns * current)).const_mul mu)
  refine h3.congr_deriv ?_
  simp only [loopFluxTimeDeriv]
  have hpi : √π ≠ 0 := (sqrt_pos.2 pi_pos).ne'
  generalize erf (theta t sigma mu * radius) = E
  generalize exp (-(theta t sigma mu * radius) ^ 2) = X
  generalize theta t sigma mu = th at *
  have e : mu = 4 * t * th ^ 2 / sigma := by rw [hq]; field_simp
  rw [e]
  field_simp
  ring

/-- **C58.** The time derivative of the field at the centre of the loop. -/
theorem loopField_hasDerivAt (ht : 0 < t) (hs : 0 < sigma) (hm : 0 < mu) (ha : 0 < radius) :
    HasDerivAt (fun t => loopField t sigma mu radius current turns) (loopFieldTimeDeriv t sigma mu radius current turns) t := by
  have h := (loopFlux_hasDerivAt (current := current) (turns := turns) ht hs hm ha).div_const mu
  refine h.congr_of_eventuallyEq (Filter.Eventually.of_forall fun t' => ?_)
  simp only [loopFlux]
  field_simp

/-- **C58.** Linear in current and turns. -/
theorem loop_linear : loopField t sigma mu radius current turns = turns * current * loopField t sigma mu radius 1 1 ∧
    loopFlux t sigma mu radius current turns = turns * current * loopFlux t sigma mu radius 1 1 ∧
    loopFluxTimeDeriv t sigma mu radius current turns = turns * current * loopFluxTimeDeriv t sigma mu radius 1 1 ∧
    loopFieldTimeDeriv t sigma mu radius current turns = turns * current * loopFieldTimeDeriv t sigma mu radius 1 1 := by
  refine ⟨?_, ?_, ?_, ?_⟩ <;> simp only [loopField, loopFlux, loopFluxTimeDeriv, loopFieldTimeDeriv] <;> ring

/-- The hypotheses are met. -/
example : HasDerivAt (fun t => loopFlux t 1 1 1 1 1) (loopFluxTimeDeriv 1 1 1 1 1 1) 1 :=
  loopFlux_hasDerivAt one_pos one_pos one_pos one_pos

/-! ## The vertical dipole -/

theorem hasDerivAt_dipoleShape {u : ℝ} (hu : u ≠ 0) :
    HasDerivAt (fun u => (9 / (2 * u ^ 2) - 1) * erf u - (9 / u + 4 * u) / √π * exp (-u ^ 2))
      (-(2 / u) * (9 / (2 * u ^ 2) * erf u - (4 * u ^ 3 + 6 * u + 9 / u) / √π * exp (-u ^ 2))) u := by
  have hpi : √π ≠ 0 := (sqrt_pos.2 pi_pos).ne'
  have hp : HasDerivAt (fun u : ℝ => u ^ 2) (2 * u) u := by simpa using (hasDerivAt_id u).fun_pow 2
  have hl : HasDerivAt (fun u : ℝ => 4 * u) 4 u := by simpa using (hasDerivAt_id u).const_mul (4 : ℝ)
  have h1 := (((hasDerivAt_const u (9 : ℝ)).fun_div (hp.const_mul 2) (by positivity)).sub_const 1).fun_mul (hasDerivAt_erf u)
  have h2 := ((((hasDerivAt_const u (9 : ℝ)).fun_div (hasDerivAt_id' u) hu).fun_add hl).div_const √π).fun_mul hp.fun_neg.exp
  refine (h1.fun_sub h2).congr_deriv ?_
  generalize erf u = E
  generalize exp (-u ^ 2) = X
  field_simp
  ring

theorem hasDerivAt_besselShape {w : ℝ} (hw : 0 < w) :
    HasDerivAt (fun w => w * (besselIe 1 w - besselIe 2 w))
      ((1 + 2 * w) * besselIe 0 w - (2 + 2 * w + 2 / w) * besselIe 1 w) w := by
  have h1 := hasDerivAt_besselI_succ 0 w
  have h2 := hasDerivAt_besselI_succ 1 w
  have r1 := besselI_recurrence 0 w
  have r2 := besselI_recurrence 1 w
  norm_num at h1 h2 r1 r2
  have he : HasDerivAt (fun w : ℝ => exp (-w)) (-exp (-w)) w := by simpa using (hasDerivAt_id w).neg.exp
  have hm := (hasDerivAt_id' w).fun_mul (he.fun_mul (h1.fun_sub h2))
  have hev : (fun w => w * (besselIe 1 w - besselIe 2 w)) =ᶠ[nhds w] fun w => w * (exp (-w) * (besselI 1 w - besselI 2 w)) := by
    filter_upwards [lt_mem_nhds hw] with v hv
    rw [besselIe, besselIe, abs_of_pos hv]; ring
  refine (hm.congr_of_eventuallyEq hev).congr_deriv ?_
  simp only [besselIe, abs_of_pos hw]
  have e2 : besselI 2 w = besselI 0 w - 2 * besselI 1 w / w := by field_simp; linarith
  have e3 : besselI 3 w = besselI 1 w - 4 * besselI 2 w / w := by field_simp; linarith
  rw [e3, e2]
  field_simp
  ring

/-- **C59.** The time derivative of the dipole's field, component by component, off the source. -/
theorem dipoleField_hasDerivAt (ht : 0 < t) (hs : 0 < sigma) (hm : 0 < mu) (hr : x ≠ 0 ∨ y ≠ 0) :
    HasDerivAt (fun t => (dipoleField t x y sigma mu moment).x) (dipoleFieldTimeDeriv t x y sigma mu moment).x t ∧
    HasDerivAt (fun t => (dipoleField t x y sigma mu moment).y) (dipoleFieldTimeDeriv t x y sigma mu moment).y t ∧
    HasDerivAt (fun t => (dipoleField t x y sigma mu moment).z) (dipoleFieldTimeDeriv t x y sigma mu moment).z t := by
  have hrp : 0 < √(x ^ 2 + y ^ 2) := by
    refine sqrt_pos.2 ?_
    rcases hr with h | h <;> positivity
  generalize hrr : √(x ^ 2 + y ^ 2) = r at *
  have hp := theta_pos ht hs hm
  have h1 := (hasDerivAt_theta ht hs hm).mul_const r
  have hpi : √π ≠ 0 := (sqrt_pos.2 pi_pos).ne'
  have hz := (hasDerivAt_dipoleShape (u := theta t sigma mu * r) (by positivity)).comp t h1
  have hw : HasDerivAt (fun t => (theta t sigma mu * r) ^ 2 / 2) (-((theta t sigma mu * r) ^ 2 / 2) / t) t := by
    refine ((h1.fun_pow 2).div_const 2).congr_deriv ?_
    field_simp
    ring
  have hb := (hasDerivAt_besselShape (w := (theta t sigma mu * r) ^ 2 / 2) (by positivity)).comp t hw
  have hrad : HasDerivAt (fun t => 2 * (theta t sigma mu * r) ^ 2 / r ^ 3 *
      (besselIe 1 ((theta t sigma mu * r) ^ 2 / 2) - besselIe 2 ((theta t sigma mu * r) ^ 2 / 2)))
      (-2 * (theta t sigma mu * r) ^ 2 / (r ^ 3 * t) *
        ((1 + (theta t sigma mu * r) ^ 2) * besselIe 0 ((theta t sigma mu * r) ^ 2 / 2) -
          (2 + (theta t sigma mu * r) ^ 2 + 4 / (theta t sigma mu * r) ^ 2) * besselIe 1 ((theta t sigma mu * r) ^ 2 / 2))) t := by
    refine ((hb.const_mul (4 / r ^ 3)).congr_deriv ?_).congr_of_eventuallyEq (Filter.Eventually.of_forall fun t' => ?_)
    · generalize besselIe 0 ((theta t sigma mu * r) ^ 2 / 2) = I0
      generalize besselIe 1 ((theta t sigma mu * r) ^ 2 / 2) = I1
      field_simp
      ring
    · simp only [Function.comp]
      ring
  simp only [dipoleField, dipoleFieldTimeDeriv, hrr, V3.smul_x, V3.smul_y, V3.smul_z, smul_eq_mul]
  refine ⟨(hrad.const_mul _).const_mul _, (hrad.const_mul _).const_mul _, HasDerivAt.const_mul _ ?_⟩
  refine (hz.const_mul (1 / r ^ 3)).congr_deriv ?_
  generalize erf (theta t sigma mu * r) = E
  generalize exp (-(theta t sigma mu * r) ^ 2) = X
  field_simp

end Verif.Tdem
