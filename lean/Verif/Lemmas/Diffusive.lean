import Verif.Lemmas.Radial
import Verif.Spec.Erf

/-! # Diffusive dipole profiles (helper lemmas) -/

namespace Verif

/-- `K erf(θr) / r` -/
noncomputable def tdP (K θ r : ℝ) : ℝ := K * erf (θ * r) / r
noncomputable def tdG (K θ r : ℝ) : ℝ :=
  K * (erf (θ * r) - 2 / Real.sqrt Real.pi * (θ * r) * Real.exp (-(θ * r) ^ 2)) / r ^ 3
noncomputable def tdA (K θ r : ℝ) : ℝ :=
  K * (3 * erf (θ * r) - (4 * (θ * r) ^ 2 + 6) * ((θ * r) / Real.sqrt Real.pi * Real.exp (-(θ * r) ^ 2))) / r ^ 5
noncomputable def tdB (K θ r : ℝ) : ℝ :=
  -(K * (erf (θ * r) - (4 * (θ * r) ^ 2 + 2) * ((θ * r) / Real.sqrt Real.pi * Real.exp (-(θ * r) ^ 2)))) / r ^ 3
noncomputable def tdD (K θ r : ℝ) : ℝ := 8 * K * θ ^ 5 / Real.sqrt Real.pi * Real.exp (-(θ * r) ^ 2)

section

variable (K θ : ℝ) {r : ℝ}

theorem hasDerivAt_erf_mul (r : ℝ) : HasDerivAt (fun r => erf (θ * r))
    (2 / Real.sqrt Real.pi * Real.exp (-(θ * r) ^ 2) * θ) r := by
  have h : HasDerivAt (fun r : ℝ => θ * r) θ r := by simpa using (hasDerivAt_id r).const_mul θ
  exact (hasDerivAt_erf (θ * r)).comp r h

theorem hasDerivAt_gauss (r : ℝ) : HasDerivAt (fun r => Real.exp (-(θ * r) ^ 2))
    (Real.exp (-(θ * r) ^ 2) * -(2 * θ ^ 2 * r)) r := by
  have h : HasDerivAt (fun r : ℝ => θ * r) θ r := by simpa using (hasDerivAt_id r).const_mul θ
  refine ((h.fun_pow 2).fun_neg.exp).congr_deriv ?_
  simp; ring

theorem hasDerivAt_lin (r : ℝ) : HasDerivAt (fun r : ℝ => θ * r) θ r := by
  simpa using (hasDerivAt_id r).const_mul θ

theorem hasDerivAt_tdP (hr : r ≠ 0) : HasDerivAt (tdP K θ) (-(r * tdG K θ r)) r := by
  have h := ((hasDerivAt_erf_mul θ r).const_mul K).fun_div (hasDerivAt_id' r) hr
  refine h.congr_deriv ?_
  simp only [tdG]
  field_simp
  ring

theorem hasDerivAt_tdG (hr : r ≠ 0) : HasDerivAt (tdG K θ) (-(r * tdA K θ r)) r := by
  have hp : Real.sqrt Real.pi ≠ 0 := (Real.sqrt_pos.2 Real.pi_pos).ne'
  have h := (((hasDerivAt_erf_mul θ r).fun_sub (((hasDerivAt_lin θ r).const_mul (2 / Real.sqrt Real.pi)).fun_mul
    (hasDerivAt_gauss θ r))).const_mul K).fun_div ((hasDerivAt_id' r).fun_pow 3) (pow_ne_zero 3 hr)
  refine h.congr_deriv ?_
  simp only [tdA]
  field_simp
  ring

theorem hasDerivAt_poly (a : ℝ) (r : ℝ) : HasDerivAt (fun r : ℝ => 4 * (θ * r) ^ 2 + a) (8 * θ ^ 2 * r) r := by
  refine ((((hasDerivAt_lin θ r).fun_pow 2).const_mul 4).add_const a).congr_deriv ?_
  push_cast; ring

theorem hasDerivAt_tdA (hr : r ≠ 0) :
    HasDerivAt (tdA K θ) (-(5 * tdA K θ r - tdD K θ r) / r) r := by
  have hp : Real.sqrt Real.pi ≠ 0 := (Real.sqrt_pos.2 Real.pi_pos).ne'
  have h := ((((hasDerivAt_erf_mul θ r).const_mul 3).fun_sub ((hasDerivAt_poly θ 6 r).fun_mul
    (((hasDerivAt_lin θ r).div_const (Real.sqrt Real.pi)).fun_mul
    (hasDerivAt_gauss θ r)))).const_mul K).fun_div ((hasDerivAt_id' r).fun_pow 5) (pow_ne_zero 5 hr)
  refine h.congr_deriv ?_
  simp only [tdA, tdD]
  field_simp
  ring

theorem hasDerivAt_tdB (hr : r ≠ 0) :
    HasDerivAt (tdB K θ) (r * (tdA K θ r - tdD K θ r)) r := by
  have hp : Real.sqrt Real.pi ≠ 0 := (Real.sqrt_pos.2 Real.pi_pos).ne'
  have h := ((((hasDerivAt_erf_mul θ r).fun_sub ((hasDerivAt_poly θ 2 r).fun_mul
    (((hasDerivAt_lin θ r).div_const (Real.sqrt Real.pi)).fun_mul
    (hasDerivAt_gauss θ r)))).const_mul K).fun_neg).fun_div ((hasDerivAt_id' r).fun_pow 3) (pow_ne_zero 3 hr)
  refine h.congr_deriv ?_
  simp only [tdA, tdD]
  field_simp
  ring

theorem tdB_eq (hr : r ≠ 0) : tdB K θ r = 2 * tdG K θ r - r ^ 2 * tdA K θ r := by
  have hp : Real.sqrt Real.pi ≠ 0 := (Real.sqrt_pos.2 Real.pi_pos).ne'
  simp only [tdA, tdB, tdG]
  field_simp
  ring

end

section

variable {o loc p : V3 ℝ} (K θ : ℝ) (h : (p - loc).len ≠ 0)
include h

theorem td_curlP : HasCurl (dipF o loc (fun _ => 0) (tdP K θ)) (dipX o loc (tdG K θ) p) p := by
  obtain ⟨J, hJ, e⟩ := dipF_curl (o := o) h (hasDerivAt_const _ (0:ℝ)) (hasDerivAt_tdP K θ h)
  refine ⟨J, hJ, e.trans ?_⟩
  ext <;> simp [dipX] <;> field_simp <;> simp

theorem td_curlG : HasCurl (dipX o loc (tdG K θ)) (dipF o loc (tdA K θ) (tdB K θ) p) p := by
  obtain ⟨J, hJ, e⟩ := dipX_curl (o := o) h (hasDerivAt_tdG K θ h)
  refine ⟨J, hJ, e.trans ?_⟩
  ext <;> simp [dipF, tdB_eq K θ h] <;> field_simp <;> ring

theorem td_divG : HasDiv (dipX o loc (tdG K θ)) 0 p := dipX_div h (hasDerivAt_tdG K θ h)

theorem td_curlAB : HasCurl (dipF o loc (tdA K θ) (tdB K θ)) (dipX o loc (tdD K θ) p) p := by
  obtain ⟨J, hJ, e⟩ := dipF_curl (o := o) h (hasDerivAt_tdA K θ h) (hasDerivAt_tdB K θ h)
  refine ⟨J, hJ, e.trans ?_⟩
  ext <;> simp [dipX] <;> field_simp <;> ring_nf <;> simp

theorem td_divAB : HasDiv (dipF o loc (tdA K θ) (tdB K θ)) 0 p := by
  obtain ⟨J, hJ, e⟩ := dipF_div (o := o) h (hasDerivAt_tdA K θ h) (hasDerivAt_tdB K θ h)
  refine ⟨J, hJ, e.trans ?_⟩
  simp
  right
  field_simp
  ring

end

end Verif
