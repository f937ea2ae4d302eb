import Verif.Model.TdemReference
import Verif.Props.TdemSimple
import Mathlib.Analysis.Calculus.Deriv.MeanValue

/-! # The reference functions for a vertical dipole on a halfspace (C80) -/

namespace Verif.Tdem.Reference

open Real Verif.Tdem Spatial

variable {t sigma mu m x y rho : ℝ}

/-- **C80.** The reference functions against the dipole's field on the surface: the vertical component is the same,
the radial one has the opposite sign. -/
theorem field_eq (ht : 0 < t) (hs : 0 < sigma) (hm : 0 < mu) (hr : x ≠ 0 ∨ y ≠ 0) :
    (dipoleField t x y sigma mu m).z = hz m (theta t sigma mu) √(x ^ 2 + y ^ 2) ∧
    (dipoleField t x y sigma mu m).x = -hp m (theta t sigma mu) √(x ^ 2 + y ^ 2) * (x / √(x ^ 2 + y ^ 2)) ∧
    (dipoleField t x y sigma mu m).y = -hp m (theta t sigma mu) √(x ^ 2 + y ^ 2) * (y / √(x ^ 2 + y ^ 2)) := by
  have hrp : 0 < √(x ^ 2 + y ^ 2) := by
    refine sqrt_pos.2 ?_
    rcases hr with h | h <;> positivity
  have hc := sqrt_mul_cos_arctan2 y x
  have hsn := sqrt_mul_sin_arctan2 y x
  have hp' := theta_pos ht hs hm
  have hpi : √π ≠ 0 := (sqrt_pos.2 pi_pos).ne'
  have hpp := pi_pos
  have ex : x / √(x ^ 2 + y ^ 2) = cos (arctan2 y x) := by rw [div_eq_iff hrp.ne']; linarith
  have ey : y / √(x ^ 2 + y ^ 2) = sin (arctan2 y x) := by rw [div_eq_iff hrp.ne']; linarith
  rw [ex, ey]
  simp only [dipoleField, hz, hp, V3.smul_x, V3.smul_y, V3.smul_z, smul_eq_mul]
  generalize √(x ^ 2 + y ^ 2) = r at *
  generalize theta t sigma mu = th at *
  generalize erf (th * r) = E
  generalize exp (-(th * r) ^ 2) = X
  generalize besselIe 1 ((th * r) ^ 2 / 2) = I1
  generalize besselIe 2 ((th * r) ^ 2 / 2) = I2
  refine ⟨?_, ?_, ?_⟩ <;> field_simp <;> ring

/-- **C80.** The reference derivatives against those of the dipole's field: both components have the opposite sign. -/
theorem deriv_eq (ht : 0 < t) (hs : 0 < sigma) (hm : 0 < mu) (hr : x ≠ 0 ∨ y ≠ 0) :
    (dipoleFieldTimeDeriv t x y sigma mu m).z = -dhz m (theta t sigma mu) √(x ^ 2 + y ^ 2) sigma mu ∧
    (dipoleFieldTimeDeriv t x y sigma mu m).x = -dhp m (theta t sigma mu) √(x ^ 2 + y ^ 2) t * (x / √(x ^ 2 + y ^ 2)) ∧
    (dipoleFieldTimeDeriv t x y sigma mu m).y = -dhp m (theta t sigma mu) √(x ^ 2 + y ^ 2) t * (y / √(x ^ 2 + y ^ 2)) := by
  have hrp : 0 < √(x ^ 2 + y ^ 2) := by
    refine sqrt_pos.2 ?_
    rcases hr with h | h <;> positivity
  have hc := sqrt_mul_cos_arctan2 y x
  have hsn := sqrt_mul_sin_arctan2 y x
  have hp' := theta_pos ht hs hm
  have hq := theta_sq ht hs hm
  have hpi : √π ≠ 0 := (sqrt_pos.2 pi_pos).ne'
  have hpp := pi_pos
  have ex : x / √(x ^ 2 + y ^ 2) = cos (arctan2 y x) := by rw [div_eq_iff hrp.ne']; linarith
  have ey : y / √(x ^ 2 + y ^ 2) = sin (arctan2 y x) := by rw [div_eq_iff hrp.ne']; linarith
  rw [ex, ey]
  simp only [dipoleFieldTimeDeriv, dhz, dhp, besselIe, V3.smul_x, V3.smul_y, V3.smul_z, smul_eq_mul]
  generalize √(x ^ 2 + y ^ 2) = r at *
  generalize theta t sigma mu = th at *
  have ea : -|(th * r) ^ 2 / 2| = -(th * r) ^ 2 / 2 := by rw [abs_of_nonneg (by positivity)]; ring
  rw [ea]
  generalize erf (th * r) = E
  generalize exp (-(th * r) ^ 2) = X
  generalize exp (-(th * r) ^ 2 / 2) = Z
  generalize besselI 0 ((th * r) ^ 2 / 2) = I0
  generalize besselI 1 ((th * r) ^ 2 / 2) = I1
  have e : mu = 4 * t * th ^ 2 / sigma := by rw [hq]; field_simp
  refine ⟨?_, ?_, ?_⟩
  · rw [e]; field_simp; ring
  · field_simp; ring
  · field_simp; ring

theorem sqrt_on_axis (h : 0 < rho) : √(rho ^ 2 + 0 ^ 2) = rho := by
  rw [zero_pow two_ne_zero, add_zero, sqrt_sq h.le]

/-- **C80.** The radial reference derivative is the time derivative of the radial reference field. -/
theorem hp_hasDerivAt (ht : 0 < t) (hs : 0 < sigma) (hm : 0 < mu) (hr : 0 < rho) :
    HasDerivAt (fun t => hp m (theta t sigma mu) rho) (dhp m (theta t sigma mu) rho t) t := by
  have h := (dipoleField_hasDerivAt (moment := m) (x := rho) (y := 0) ht hs hm (.inl hr.ne')).1.neg
  have e2 := (deriv_eq (m := m) (x := rho) (y := 0) ht hs hm (.inl hr.ne')).2.1
  rw [e2, sqrt_on_axis hr, div_self hr.ne', mul_one, neg_neg] at h
  refine h.congr_of_eventuallyEq ?_
  filter_upwards [lt_mem_nhds ht] with t' ht'
  have e1 := (field_eq (m := m) (x := rho) (y := 0) ht' hs hm (.inl hr.ne')).2.1
  rw [sqrt_on_axis hr, div_self hr.ne', mul_one] at e1
  simp only [Pi.neg_apply, e1, neg_neg]

/-- **C80.** The vertical reference derivative is *minus* the time derivative of the vertical reference field. -/
theorem hz_hasDerivAt (ht : 0 < t) (hs : 0 < sigma) (hm : 0 < mu) (hr : 0 < rho) :
    HasDerivAt (fun t => hz m (theta t sigma mu) rho) (-dhz m (theta t sigma mu) rho sigma mu) t := by
  have h := (dipoleField_hasDerivAt (moment := m) (x := rho) (y := 0) ht hs hm (.inl hr.ne')).2.2
  have e2 := (deriv_eq (m := m) (x := rho) (y := 0) ht hs hm (.inl hr.ne')).1
  rw [e2, sqrt_on_axis hr] at h
  refine h.congr_of_eventuallyEq ?_
  filter_upwards [lt_mem_nhds ht] with t' ht'
  have e1 := (field_eq (m := m) (x := rho) (y := 0) ht' hs hm (.inl hr.ne')).1
  rw [sqrt_on_axis hr] at e1
  exact e1.symm

/-- The bracket of the vertical derivative is negative up to `θρ = 1`. -/
theorem bracket_neg {u : ℝ} (h0 : 0 < u) (h1 : u ≤ 1) :
    9 * erf u - 2 * u / √π * (9 + 6 * u ^ 2 + 4 * u ^ 4) * exp (-u ^ 2) < 0 := by
  have hpi : 0 < √π := sqrt_pos.2 pi_pos
  have hd : ∀ u : ℝ, HasDerivAt (fun u => 9 * erf u - 2 * u / √π * (9 + 6 * u ^ 2 + 4 * u ^ 4) * exp (-u ^ 2))
      (16 * u ^ 4 * (u ^ 2 - 1) / √π * exp (-u ^ 2)) u := by
    intro u
    have a1 := (hasDerivAt_erf u).const_mul 9
    have a2 : HasDerivAt (fun u : ℝ => 2 * u / √π) (2 / √π) u := by
      simpa using ((hasDerivAt_id u).const_mul (2 : ℝ)).div_const √π
    have a3 : HasDerivAt (fun u : ℝ => 9 + 6 * u ^ 2 + 4 * u ^ 4) (12 * u + 16 * u ^ 3) u := by
      refine ((((hasDerivAt_id' u).fun_pow 2).const_mul 6).const_add 9 |>.fun_add
        (((hasDerivAt_id' u).fun_pow 4).const_mul 4)).congr_deriv ?_
      norm_num; ring
    have a4 : HasDerivAt (fun u : ℝ => exp (-u ^ 2)) (-2 * u * exp (-u ^ 2)) u := by
      refine ((hasDerivAt_id' u).fun_pow 2).fun_neg.exp.congr_deriv ?_
      norm_num; ring
    refine (a1.fun_sub ((a2.fun_mul a3).fun_mul a4)).congr_deriv ?_
    field_simp
    ring
  have hanti : StrictAntiOn (fun u => 9 * erf u - 2 * u / √π * (9 + 6 * u ^ 2 + 4 * u ^ 4) * exp (-u ^ 2)) (Set.Icc 0 1) := by
    refine strictAntiOn_of_deriv_neg (convex_Icc 0 1) (fun v _ => (hd v).continuousAt.continuousWithinAt) fun v hv => ?_
    rw [interior_Icc] at hv
    rw [(hd v).deriv]
    have : v ^ 2 - 1 < 0 := by nlinarith [hv.1, hv.2]
    have h4 : 0 < 16 * v ^ 4 * (1 - v ^ 2) / √π * exp (-v ^ 2) := by
      have := hv.1
      have : 0 < 1 - v ^ 2 := by linarith
      positivity
    have e : 16 * v ^ 4 * (v ^ 2 - 1) / √π * exp (-v ^ 2) = -(16 * v ^ 4 * (1 - v ^ 2) / √π * exp (-v ^ 2)) := by ring
    rw [e]; linarith
  have := hanti ⟨le_rfl, zero_le_one⟩ ⟨h0.le, h1⟩ h0
  simpa [erf] using this

/-- **C80 fails for the vertical component.** From the time `μσρ²/4` on, `dhz` is not the time derivative of `hz`:
it is positive where the field decreases. -/
theorem hz_not_hasDerivAt (ht : 0 < t) (hs : 0 < sigma) (hm : 0 < mu) (hr : 0 < rho) (hmo : 0 < m)
    (hl : mu * sigma * rho ^ 2 / 4 ≤ t) :
    0 < dhz m (theta t sigma mu) rho sigma mu ∧
    ¬HasDerivAt (fun t => hz m (theta t sigma mu) rho) (dhz m (theta t sigma mu) rho sigma mu) t := by
  have hp' := theta_pos ht hs hm
  have hq := theta_sq ht hs hm
  have h1 : theta t sigma mu * rho ≤ 1 := by
    have : (theta t sigma mu * rho) ^ 2 ≤ 1 := by
      rw [mul_pow, hq, div_mul_eq_mul_div, div_le_one (by positivity)]; linarith
    nlinarith [mul_pos hp' hr]
  have hb := bracket_neg (mul_pos hp' hr) h1
  have hpos : 0 < dhz m (theta t sigma mu) rho sigma mu := by
    have e : -m / (2 * π * mu * sigma * rho ^ 5) = -(m / (2 * π * mu * sigma * rho ^ 5)) := by ring
    simp only [dhz, e]
    have hf : 0 < m / (2 * π * mu * sigma * rho ^ 5) := by have := pi_pos; positivity
    nlinarith
  refine ⟨hpos, fun h => ?_⟩
  have := h.unique (hz_hasDerivAt (m := m) ht hs hm hr)
  linarith

/-- The hypotheses are met. -/
example : 0 < dhz 1 (theta 1 1 1) 1 1 1 ∧ ¬HasDerivAt (fun t => hz 1 (theta t 1 1) 1) (dhz 1 (theta 1 1 1) 1 1 1) 1 :=
  hz_not_hasDerivAt one_pos one_pos one_pos one_pos one_pos (by norm_num)

end Verif.Tdem.Reference
