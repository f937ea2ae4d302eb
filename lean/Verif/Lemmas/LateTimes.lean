import Verif.Lemmas.Transient
import Mathlib.Analysis.Calculus.LHopital

/-! # First terms of the transient shape functions at small arguments (helper lemmas) -/

namespace Verif

open Real Filter
open scoped Topology

/-- The leading power of a function that vanishes at zero follows from that of its derivative. -/
theorem tendsto_div_pow {f f' : ℝ → ℝ} {c : ℝ} (n : ℕ) (h0 : f 0 = 0) (hf : ∀ u, HasDerivAt f (f' u) u)
    (h : Tendsto (fun u => f' u / u ^ n) (𝓝[>] 0) (𝓝 c)) :
    Tendsto (fun u => f u / u ^ (n + 1)) (𝓝[>] 0) (𝓝 (c / (n + 1))) := by
  refine HasDerivAt.lhopital_zero_nhdsGT (f' := f') (g' := fun u => (n + 1) * u ^ n) (Eventually.of_forall hf)
    (Eventually.of_forall fun u => ?_) ?_ ?_ ?_ ?_
  · simpa using hasDerivAt_pow (n + 1) u
  · filter_upwards [self_mem_nhdsWithin] with u hu
    have : (0 : ℝ) < u := hu
    positivity
  · have := (hf 0).continuousAt.tendsto
    rw [h0] at this
    exact this.mono_left nhdsWithin_le_nhds
  · have hc : Continuous fun u : ℝ => u ^ (n + 1) := by fun_prop
    have := hc.tendsto 0
    rw [zero_pow (by omega)] at this
    exact this.mono_left nhdsWithin_le_nhds
  · refine (h.div_const ((n : ℝ) + 1)).congr fun u => ?_
    rw [div_div, mul_comm]

theorem tendsto_gauss_zero : Tendsto (fun u : ℝ => exp (-u ^ 2)) (𝓝[>] 0) (𝓝 1) := by
  have hc : Continuous fun u : ℝ => exp (-u ^ 2) := by fun_prop
  have := hc.tendsto 0
  norm_num at this
  exact this.mono_left nhdsWithin_le_nhds

theorem tendsto_pow_zero (k : ℕ) : Tendsto (fun u : ℝ => u ^ (k + 1)) (𝓝[>] 0) (𝓝 0) := by
  have hc : Continuous fun u : ℝ => u ^ (k + 1) := by fun_prop
  have := hc.tendsto 0
  rw [zero_pow (by omega)] at this
  exact this.mono_left nhdsWithin_le_nhds

theorem erfRest_first : Tendsto (fun u => erfRest u / u ^ 3) (𝓝[>] 0) (𝓝 (4 / (3 * √π))) := by
  have h := tendsto_div_pow (f := erfRest) (c := 4 / √π) 2 erfRest_zero hasDerivAt_erfRest (by
    have := tendsto_gauss_zero.const_mul (4 / √π)
    rw [mul_one] at this
    refine this.congr' ?_
    filter_upwards [self_mem_nhdsWithin] with u hu
    have : (0 : ℝ) < u := hu
    field_simp)
  convert h using 2
  push_cast
  rw [div_div]
  congr 1
  ring

/-- `u^2` times the shape of the loop's field. -/
theorem loopShape_first :
    Tendsto (fun u => (u ^ 2 * erf u - 3 / 2 * erfRest u) / u ^ 5) (𝓝[>] 0) (𝓝 (8 / (15 * √π))) := by
  have hpi : √π ≠ 0 := (sqrt_pos.2 pi_pos).ne'
  have h := tendsto_div_pow (f := fun u => u ^ 2 * erf u - 3 / 2 * erfRest u) (f' := fun u => 2 * u * erfRest u)
    (c := 2 * (4 / (3 * √π))) 4 (by simp [erfRest_zero]) (fun u => by
      have hp : HasDerivAt (fun u : ℝ => u ^ 2) (2 * u) u := by simpa using (hasDerivAt_id u).fun_pow 2
      refine ((hp.fun_mul (hasDerivAt_erf u)).fun_sub ((hasDerivAt_erfRest u).const_mul (3 / 2))).congr_deriv ?_
      simp only [erfRest]
      field_simp
      ring) (by
      refine (erfRest_first.const_mul 2).congr' ?_
      filter_upwards [self_mem_nhdsWithin] with u hu
      have : (0 : ℝ) < u := hu
      field_simp)
  convert h using 2
  push_cast
  field_simp
  norm_num

/-- The bracket of the loop's time derivative. -/
theorem loopRate_first :
    Tendsto (fun u => (3 * erf u - 2 * u / √π * (3 + 2 * u ^ 2) * exp (-u ^ 2)) / u ^ 5) (𝓝[>] 0) (𝓝 (8 / (5 * √π))) := by
  have hpi : √π ≠ 0 := (sqrt_pos.2 pi_pos).ne'
  have h := tendsto_div_pow (f := fun u => 3 * erf u - 2 * u / √π * (3 + 2 * u ^ 2) * exp (-u ^ 2))
    (f' := fun u => 8 * u ^ 4 / √π * exp (-u ^ 2)) (c := 8 / √π) 4 (by simp) (fun u => by
      have hp : HasDerivAt (fun u : ℝ => 3 + 2 * u ^ 2) (2 * (2 * u)) u := by
        simpa using (((hasDerivAt_id u).fun_pow 2).const_mul 2).const_add 3
      have hl : HasDerivAt (fun u : ℝ => 2 * u / √π) (2 / √π) u := by
        simpa using ((hasDerivAt_id u).const_mul (2 : ℝ)).div_const √π
      refine (((hasDerivAt_erf u).const_mul 3).fun_sub ((hl.fun_mul hp).fun_mul (hasDerivAt_exp_neg_sq u))).congr_deriv ?_
      field_simp
      ring) (by
      have := tendsto_gauss_zero.const_mul (8 / √π)
      rw [mul_one] at this
      refine this.congr' ?_
      filter_upwards [self_mem_nhdsWithin] with u hu
      have : (0 : ℝ) < u := hu
      field_simp)
  convert h using 2
  push_cast
  rw [div_div]
  congr 1
  ring

/-- `u^2` times the shape of the vertical dipole's vertical field. -/
theorem dipoleShape_first :
    Tendsto (fun u => (9 / 2 * erfRest u - u ^ 2 * erf u - 4 * u ^ 3 / √π * exp (-u ^ 2)) / u ^ 5) (𝓝[>] 0) (𝓝 (16 / (15 * √π))) := by
  have hpi : √π ≠ 0 := (sqrt_pos.2 pi_pos).ne'
  have h := tendsto_div_pow (f := fun u => 9 / 2 * erfRest u - u ^ 2 * erf u - 4 * u ^ 3 / √π * exp (-u ^ 2))
    (f' := fun u => 8 * u ^ 4 / √π * exp (-u ^ 2) - 2 * u * erfRest u) (c := 8 / √π - 2 * (4 / (3 * √π))) 4
    (by simp [erfRest_zero]) (fun u => by
      have hp : HasDerivAt (fun u : ℝ => u ^ 2) (2 * u) u := by simpa using (hasDerivAt_id u).fun_pow 2
      have hl : HasDerivAt (fun u : ℝ => 4 * u ^ 3 / √π) (4 * (3 * u ^ 2) / √π) u := by
        simpa using (((hasDerivAt_id u).fun_pow 3).const_mul (4 : ℝ)).div_const √π
      refine ((((hasDerivAt_erfRest u).const_mul (9 / 2)).fun_sub (hp.fun_mul (hasDerivAt_erf u))).fun_sub
        (hl.fun_mul (hasDerivAt_exp_neg_sq u))).congr_deriv ?_
      simp only [erfRest]
      field_simp
      ring) (by
      have := tendsto_gauss_zero.const_mul (8 / √π)
      rw [mul_one] at this
      refine (this.sub (erfRest_first.const_mul 2)).congr' ?_
      filter_upwards [self_mem_nhdsWithin] with u hu
      have : (0 : ℝ) < u := hu
      field_simp)
  convert h using 2
  push_cast
  field_simp
  norm_num

/-- `u^2` times the bracket of the vertical dipole's time derivative. -/
theorem dipoleRate_first :
    Tendsto (fun u => (9 / 2 * erfRest u - (4 * u ^ 5 + 6 * u ^ 3) / √π * exp (-u ^ 2)) / u ^ 5) (𝓝[>] 0) (𝓝 (-8 / (5 * √π))) := by
  have hpi : √π ≠ 0 := (sqrt_pos.2 pi_pos).ne'
  have h := tendsto_div_pow (f := fun u => 9 / 2 * erfRest u - (4 * u ^ 5 + 6 * u ^ 3) / √π * exp (-u ^ 2))
    (f' := fun u => (8 * u ^ 6 - 8 * u ^ 4) / √π * exp (-u ^ 2)) (c := (8 * 0 - 8) / √π * 1) 4
    (by simp [erfRest_zero]) (fun u => by
      have hl : HasDerivAt (fun u : ℝ => (4 * u ^ 5 + 6 * u ^ 3) / √π) ((4 * (5 * u ^ 4) + 6 * (3 * u ^ 2)) / √π) u := by
        simpa using ((((hasDerivAt_id u).fun_pow 5).const_mul (4 : ℝ)).fun_add (((hasDerivAt_id u).fun_pow 3).const_mul (6 : ℝ))).div_const √π
      refine (((hasDerivAt_erfRest u).const_mul (9 / 2)).fun_sub (hl.fun_mul (hasDerivAt_exp_neg_sq u))).congr_deriv ?_
      field_simp
      ring) (by
      refine (((((tendsto_pow_zero 1).const_mul 8).sub_const 8).div_const √π).mul tendsto_gauss_zero).congr' ?_
      filter_upwards [self_mem_nhdsWithin] with u hu
      have : (0 : ℝ) < u := hu
      field_simp)
  convert h using 2
  push_cast
  field_simp
  norm_num

/-- The term along the dipole of a whole-space electric dipole. -/
theorem orientTerm_first :
    Tendsto (fun u => (erf u - (4 * u ^ 2 + 2) * (u / √π * exp (-u ^ 2))) / u ^ 3) (𝓝[>] 0) (𝓝 (-8 / (3 * √π))) := by
  have hpi : √π ≠ 0 := (sqrt_pos.2 pi_pos).ne'
  have h := erfRest_first.sub (tendsto_gauss_zero.const_mul (4 / √π))
  rw [mul_one] at h
  have e : -8 / (3 * √π) = 4 / (3 * √π) - 4 / √π := by field_simp; norm_num
  rw [e]
  refine h.congr' ?_
  filter_upwards [self_mem_nhdsWithin] with u hu
  have : (0 : ℝ) < u := hu
  simp only [erfRest]
  field_simp
  ring

/-- The radial term of a whole-space electric dipole is of higher order. -/
theorem symTerm_first :
    Tendsto (fun u => (3 * erf u - (4 * u ^ 2 + 6) * (u / √π * exp (-u ^ 2))) / u ^ 3) (𝓝[>] 0) (𝓝 0) := by
  have h := loopRate_first.mul (tendsto_pow_zero 1)
  rw [mul_zero] at h
  refine h.congr' ?_
  filter_upwards [self_mem_nhdsWithin] with u hu
  have : (0 : ℝ) < u := hu
  field_simp
  ring

theorem besselI_zero_zero : besselI 0 0 = 1 := by
  simp [besselI, pi_ne_zero]

theorem besselI_succ_zero (n : ℕ) : besselI (n + 1) 0 = 0 := by
  have h := besselI_recurrence n 0
  rw [zero_mul] at h
  rcases mul_eq_zero.1 h.symm with h | h
  · exfalso
    have : (0 : ℝ) < 2 * ((n : ℝ) + 1) := by positivity
    linarith
  · exact h

theorem tendsto_besselI_zero (n : ℕ) : Tendsto (besselI n) (𝓝[>] 0) (𝓝 (besselI n 0)) :=
  (hasDerivAt_besselI_int n 0).continuousAt.tendsto.mono_left nhdsWithin_le_nhds

theorem besselI_one_first : Tendsto (fun w => besselI 1 w / w) (𝓝[>] 0) (𝓝 (1 / 2)) := by
  have h := ((tendsto_besselI_zero 0).sub (tendsto_besselI_zero 2)).div_const 2
  rw [besselI_zero_zero, besselI_succ_zero, sub_zero] at h
  refine h.congr' ?_
  filter_upwards [self_mem_nhdsWithin] with w hw
  have hw : (0 : ℝ) < w := hw
  have := besselI_recurrence 0 w
  norm_num at this
  rw [div_eq_div_iff (by norm_num) hw.ne']
  linarith

theorem besselI_two_first : Tendsto (fun w => besselI 2 w / w) (𝓝[>] 0) (𝓝 0) := by
  have h := ((tendsto_besselI_zero 1).sub (tendsto_besselI_zero 3)).div_const 4
  rw [besselI_succ_zero, besselI_succ_zero, sub_zero, zero_div] at h
  refine h.congr' ?_
  filter_upwards [self_mem_nhdsWithin] with w hw
  have hw : (0 : ℝ) < w := hw
  have := besselI_recurrence 1 w
  norm_num at this
  rw [div_eq_div_iff (by norm_num) hw.ne']
  linarith

theorem tendsto_decay_zero : Tendsto (fun w : ℝ => exp (-w)) (𝓝[>] 0) (𝓝 1) := by
  have hc : Continuous fun w : ℝ => exp (-w) := by fun_prop
  have := hc.tendsto 0
  norm_num at this
  exact this.mono_left nhdsWithin_le_nhds

/-- The shape of the vertical dipole's radial field. -/
theorem radialShape_first : Tendsto (fun w => (besselIe 1 w - besselIe 2 w) / w) (𝓝[>] 0) (𝓝 (1 / 2)) := by
  have h := tendsto_decay_zero.mul (besselI_one_first.sub besselI_two_first)
  rw [sub_zero, one_mul] at h
  refine h.congr' ?_
  filter_upwards [self_mem_nhdsWithin] with w hw
  have hw : (0 : ℝ) < w := hw
  rw [besselIe, besselIe, abs_of_pos hw]
  ring

/-- The bracket of the time derivative of the vertical dipole's radial field. -/
theorem radialRate_first :
    Tendsto (fun w => ((1 + 2 * w) * besselIe 0 w - (2 + 2 * w + 2 / w) * besselIe 1 w) / w) (𝓝[>] 0) (𝓝 1) := by
  have hw0 : Tendsto (fun w : ℝ => w) (𝓝[>] 0) (𝓝 0) := tendsto_id.mono_left nhdsWithin_le_nhds
  have h := tendsto_decay_zero.mul ((((tendsto_besselI_zero 0).const_mul 2).sub
    ((((hw0.const_mul 2).const_add 2)).mul besselI_one_first)).add besselI_two_first)
  rw [besselI_zero_zero] at h
  norm_num at h
  refine h.congr' ?_
  filter_upwards [self_mem_nhdsWithin] with w hw
  have hw : (0 : ℝ) < w := hw
  have r := besselI_recurrence 0 w
  norm_num at r
  have e2 : besselI 2 w = besselI 0 w - 2 * besselI 1 w / w := by field_simp; linarith
  simp only [besselIe, abs_of_pos hw]
  rw [e2]
  field_simp
  ring

end Verif
