import Verif.Model.Okada
import Verif.Lemmas.Elastic
import Mathlib.Analysis.SpecialFunctions.Log.Deriv
import Mathlib.Analysis.SpecialFunctions.Trigonometric.ArctanDeriv
import Mathlib.Analysis.Calculus.Deriv.Inv
import Mathlib.Analysis.SpecialFunctions.Sqrt

/-! # The corner terms of Okada's formula, differentiated along the dip and then along the strike (helper lemmas) -/

namespace Verif.Okada

open Real

namespace Corner

variable {xi et q s c m : ℝ}

theorem r_sq (k : Corner) : k.r ^ 2 = k.xi ^ 2 + k.et ^ 2 + k.q ^ 2 := by
  rw [r, sq_sqrt (by nlinarith [mul_self_nonneg k.xi, mul_self_nonneg k.et, mul_self_nonneg k.q])]; ring

theorem r_pos {k : Corner} (hq : k.q ≠ 0) : 0 < k.r := by
  rw [r]
  refine sqrt_pos.2 ?_
  nlinarith [mul_self_nonneg k.xi, mul_self_nonneg k.et, mul_self_pos.2 hq]

theorem abs_et_lt {k : Corner} (hq : k.q ≠ 0) : |k.et| < k.r := by
  refine abs_lt_of_sq_lt_sq ?_ (r_pos hq).le
  rw [r_sq]; nlinarith [sq_nonneg k.xi, sq_nonneg k.et, sq_pos_of_ne_zero hq]

theorem abs_xi_lt {k : Corner} (hq : k.q ≠ 0) : |k.xi| < k.r := by
  refine abs_lt_of_sq_lt_sq ?_ (r_pos hq).le
  rw [r_sq]; nlinarith [sq_nonneg k.xi, sq_nonneg k.et, sq_pos_of_ne_zero hq]

theorem ret_pos {k : Corner} (hq : k.q ≠ 0) : 0 < k.r + k.et := by have := (abs_lt.1 (abs_et_lt hq)).1; linarith

theorem rxi_pos {k : Corner} (hq : k.q ≠ 0) : 0 < k.r + k.xi := by have := (abs_lt.1 (abs_xi_lt hq)).1; linarith

/-! ## Along the dip -/

theorem deriv_et_r (hq : q ≠ 0) : HasDerivAt (fun e => (⟨xi, e, q⟩ : Corner).r) (et / (⟨xi, et, q⟩ : Corner).r) et := by
  have h0 : xi * xi + et * et + q * q ≠ 0 := by
    have := mul_self_nonneg xi; have := mul_self_nonneg et; have := mul_self_pos.2 hq; nlinarith
  have h : HasDerivAt (fun e : ℝ => xi * xi + e * e + q * q) (2 * et) et := by
    refine ((((hasDerivAt_id et).mul (hasDerivAt_id et)).const_add (xi * xi)).add_const (q * q)).congr_deriv ?_
    simp; ring
  refine (h.sqrt h0).congr_deriv ?_
  simp only [r]
  field_simp

theorem deriv_et_rd (hq : q ≠ 0) :
    HasDerivAt (fun e => (⟨xi, e, q⟩ : Corner).rd s c) (et / (⟨xi, et, q⟩ : Corner).r + s) et := by
  have h : HasDerivAt (fun e : ℝ => e * s - q * c) s et := by
    simpa using ((hasDerivAt_id et).mul_const s).sub_const (q * c)
  exact (deriv_et_r hq).fun_add h

theorem deriv_et_y : HasDerivAt (fun e => (⟨xi, e, q⟩ : Corner).y s c) c et := by
  simpa [y] using ((hasDerivAt_id et).mul_const c).add_const (q * s)

theorem deriv_et_ale (hq : q ≠ 0) : HasDerivAt (fun e => (⟨xi, e, q⟩ : Corner).ale) (1 / (⟨xi, et, q⟩ : Corner).r) et := by
  have e : (fun e => (⟨xi, e, q⟩ : Corner).ale) = fun e => log ((⟨xi, e, q⟩ : Corner).r + e) := by
    funext e; simp [ale, ret, hq]
  have hp := ret_pos (k := ⟨xi, et, q⟩) hq
  have hr := r_pos (k := ⟨xi, et, q⟩) hq
  rw [e]
  refine (((deriv_et_r hq).fun_add (hasDerivAt_id et)).log hp.ne').congr_deriv ?_
  simp only [id] at *
  field_simp
  ring

theorem deriv_et_y11 (hq : q ≠ 0) : HasDerivAt (fun e => (⟨xi, e, q⟩ : Corner).y11) (-(1 / (⟨xi, et, q⟩ : Corner).r ^ 3)) et := by
  have e : (fun e => (⟨xi, e, q⟩ : Corner).y11) = fun e => ((⟨xi, e, q⟩ : Corner).r * ((⟨xi, e, q⟩ : Corner).r + e))⁻¹ := by
    funext e; simp [y11, ret, hq]
  have hp := ret_pos (k := ⟨xi, et, q⟩) hq
  have hr := r_pos (k := ⟨xi, et, q⟩) hq
  rw [e]
  refine (((deriv_et_r hq).fun_mul ((deriv_et_r hq).fun_add (hasDerivAt_id et))).inv (mul_pos hr hp).ne').congr_deriv ?_
  simp only [id] at *
  generalize (⟨xi, et, q⟩ : Corner).r = R at *
  field_simp
  ring

theorem deriv_et_x11 (hq : q ≠ 0) : HasDerivAt (fun e => (⟨xi, e, q⟩ : Corner).x11)
    (-(et * (1 / ((⟨xi, et, q⟩ : Corner).r ^ 3 * ((⟨xi, et, q⟩ : Corner).r + xi)) +
      1 / ((⟨xi, et, q⟩ : Corner).r ^ 2 * ((⟨xi, et, q⟩ : Corner).r + xi) ^ 2)))) et := by
  have e : (fun e => (⟨xi, e, q⟩ : Corner).x11) = fun e => ((⟨xi, e, q⟩ : Corner).r * ((⟨xi, e, q⟩ : Corner).r + xi))⁻¹ := by
    funext e; simp [x11, hq]
  have hp := rxi_pos (k := ⟨xi, et, q⟩) hq
  have hr := r_pos (k := ⟨xi, et, q⟩) hq
  rw [e]
  refine (((deriv_et_r hq).fun_mul ((deriv_et_r hq).add_const xi)).inv (mul_pos hr hp).ne').congr_deriv ?_
  simp only at *
  generalize (⟨xi, et, q⟩ : Corner).r = R at *
  field_simp

theorem deriv_et_tt (hq : q ≠ 0) : HasDerivAt (fun e => (⟨xi, e, q⟩ : Corner).tt)
    (xi * q / ((⟨xi, et, q⟩ : Corner).r * (et ^ 2 + q ^ 2))) et := by
  have e : (fun e => (⟨xi, e, q⟩ : Corner).tt) = fun e => arctan (xi * e / (q * (⟨xi, e, q⟩ : Corner).r)) := by
    funext e; simp [tt, hq]
  have hr := r_pos (k := ⟨xi, et, q⟩) hq
  have h2 := r_sq ⟨xi, et, q⟩
  have hs : 0 < et ^ 2 + q ^ 2 := by have := sq_nonneg et; have := sq_pos_of_ne_zero hq; linarith
  have hd : HasDerivAt (fun e : ℝ => xi * e) xi et := by simpa using (hasDerivAt_id et).const_mul xi
  rw [e]
  refine ((hd.fun_div ((deriv_et_r hq).const_mul q) (mul_ne_zero hq hr.ne')).arctan).congr_deriv ?_
  simp only at *
  generalize (⟨xi, et, q⟩ : Corner).r = R at *
  have h3 : 0 < xi ^ 2 + q ^ 2 := by have := sq_nonneg xi; have := sq_pos_of_ne_zero hq; linarith
  have e1 : 1 + (xi * et / (q * R)) ^ 2 = (xi ^ 2 + q ^ 2) * (et ^ 2 + q ^ 2) / (q * R) ^ 2 := by
    field_simp
    rw [h2]; ring
  rw [e1]
  field_simp
  rw [h2]; ring

theorem deriv_et_log_rd (hq : q ≠ 0) (hrd : 0 < (⟨xi, et, q⟩ : Corner).rd s c) :
    HasDerivAt (fun e => log ((⟨xi, e, q⟩ : Corner).rd s c))
      ((et / (⟨xi, et, q⟩ : Corner).r + s) / (⟨xi, et, q⟩ : Corner).rd s c) et :=
  (deriv_et_rd hq).log hrd.ne'

theorem deriv_et_inv_rd (hq : q ≠ 0) (hrd : 0 < (⟨xi, et, q⟩ : Corner).rd s c) :
    HasDerivAt (fun e => ((⟨xi, e, q⟩ : Corner).rd s c)⁻¹)
      (-(et / (⟨xi, et, q⟩ : Corner).r + s) / (⟨xi, et, q⟩ : Corner).rd s c ^ 2) et :=
  (deriv_et_rd hq).inv hrd.ne'

theorem deriv_et_ai3 (hq : q ≠ 0) (hsc : s ^ 2 + c ^ 2 = 1) (hrd : 0 < (⟨xi, et, q⟩ : Corner).rd s c) :
    HasDerivAt (fun e => (⟨xi, e, q⟩ : Corner).ai3 s c)
      (-(1 / (⟨xi, et, q⟩ : Corner).rd s c) + xi ^ 2 / ((⟨xi, et, q⟩ : Corner).r * (⟨xi, et, q⟩ : Corner).rd s c ^ 2)) et := by
  have hr := r_pos (k := ⟨xi, et, q⟩) hq
  have h2 := r_sq ⟨xi, et, q⟩
  have h3 : (⟨xi, et, q⟩ : Corner).rd s c = (⟨xi, et, q⟩ : Corner).r + (et * s - q * c) := rfl
  have hy : (⟨xi, et, q⟩ : Corner).y s c = et * c + q * s := rfl
  by_cases hc : c = 0
  · have e : (fun e => (⟨xi, e, q⟩ : Corner).ai3 s c) = fun e => (e * ((⟨xi, e, q⟩ : Corner).rd s c)⁻¹ +
        (⟨xi, e, q⟩ : Corner).y s c * q * (((⟨xi, e, q⟩ : Corner).rd s c)⁻¹ * ((⟨xi, e, q⟩ : Corner).rd s c)⁻¹) -
          (⟨xi, e, q⟩ : Corner).ale) / 2 := by
      funext e; simp only [ai3, hc, ne_eq, not_true_eq_false, if_false, div_eq_mul_inv, mul_inv]
    rw [e]
    have hw := deriv_et_inv_rd hq hrd
    refine ((((((hasDerivAt_id et).fun_mul hw).fun_add ((deriv_et_y.mul_const q).fun_mul (hw.fun_mul hw))).fun_sub
      (deriv_et_ale hq)).div_const 2)).congr_deriv ?_
    simp only [id] at *
    rw [hy]
    generalize (⟨xi, et, q⟩ : Corner).rd s c = D at *
    generalize (⟨xi, et, q⟩ : Corner).r = R at *
    subst hc
    field_simp
    grind
  · have e : (fun e => (⟨xi, e, q⟩ : Corner).ai3 s c) = fun e => ((⟨xi, e, q⟩ : Corner).y s c * c * ((⟨xi, e, q⟩ : Corner).rd s c)⁻¹ -
        (⟨xi, e, q⟩ : Corner).ale + s * log ((⟨xi, e, q⟩ : Corner).rd s c)) / (c * c) := by
      funext e; simp only [ai3, ne_eq, hc, not_false_eq_true, if_true, div_eq_mul_inv]
    rw [e]
    have hw := deriv_et_inv_rd hq hrd
    refine (((((deriv_et_y.mul_const c).fun_mul hw).fun_sub (deriv_et_ale hq)).fun_add
      ((deriv_et_log_rd hq hrd).const_mul s)).div_const (c * c)).congr_deriv ?_
    simp only at *
    rw [hy]
    generalize (⟨xi, et, q⟩ : Corner).rd s c = D at *
    generalize (⟨xi, et, q⟩ : Corner).r = R at *
    field_simp
    grind

theorem deriv_et_atan (hq : q ≠ 0) (hsc : s ^ 2 + c ^ 2 = 1) (hc : c ≠ 0) (hxi : xi ≠ 0) (hrd : 0 < (⟨xi, et, q⟩ : Corner).rd s c) :
    HasDerivAt (fun e => 2 * arctan ((e * (√(xi * xi + q * q) + q * c) +
        √(xi * xi + q * q) * ((⟨xi, e, q⟩ : Corner).r + √(xi * xi + q * q)) * s) /
          (xi * ((⟨xi, e, q⟩ : Corner).r + √(xi * xi + q * q)) * c)))
      (xi * c / ((⟨xi, et, q⟩ : Corner).r * (⟨xi, et, q⟩ : Corner).rd s c)) et := by
  have hr := r_pos (k := ⟨xi, et, q⟩) hq
  have h2 := r_sq ⟨xi, et, q⟩
  have h3 : (⟨xi, et, q⟩ : Corner).rd s c = (⟨xi, et, q⟩ : Corner).r + (et * s - q * c) := rfl
  have hx0 : 0 < xi * xi + q * q := by have := mul_self_pos.2 hxi; have := mul_self_pos.2 hq; linarith
  have hX : 0 < √(xi * xi + q * q) := sqrt_pos.2 hx0
  have hX2 : √(xi * xi + q * q) ^ 2 = xi ^ 2 + q ^ 2 := by rw [sq_sqrt hx0.le]; ring
  have hXq : 0 < √(xi * xi + q * q) + q * c := by
    have : |q * c| < √(xi * xi + q * q) := by
      refine abs_lt_of_sq_lt_sq ?_ hX.le
      rw [hX2]
      have := sq_pos_of_ne_zero hxi
      nlinarith [sq_nonneg (q * s)]
    have := (abs_lt.1 this).1; linarith
  generalize √(xi * xi + q * q) = X at *
  have hdr := deriv_et_r (xi := xi) (et := et) hq
  have hN : HasDerivAt (fun e => e * (X + q * c) + X * ((⟨xi, e, q⟩ : Corner).r + X) * s)
      ((X + q * c) + X * (et / (⟨xi, et, q⟩ : Corner).r) * s) et := by
    refine (((hasDerivAt_id et).mul_const (X + q * c)).fun_add (((hdr.add_const X).const_mul X).mul_const s)).congr_deriv ?_
    ring
  have hD : HasDerivAt (fun e => xi * ((⟨xi, e, q⟩ : Corner).r + X) * c) (xi * (et / (⟨xi, et, q⟩ : Corner).r) * c) et :=
    ((hdr.add_const X).const_mul xi).mul_const c
  have hD0 : xi * ((⟨xi, et, q⟩ : Corner).r + X) * c ≠ 0 := by
    have : (⟨xi, et, q⟩ : Corner).r + X ≠ 0 := by linarith
    exact mul_ne_zero (mul_ne_zero hxi this) hc
  refine (((hN.fun_div hD hD0).arctan).const_mul 2).congr_deriv ?_
  simp only at *
  generalize (⟨xi, et, q⟩ : Corner).rd s c = D at *
  generalize (⟨xi, et, q⟩ : Corner).r = R at *
  have hRX : 0 < R + X := by linarith
  have key : (et * (X + q * c) + X * (R + X) * s) ^ 2 + (xi * (R + X) * c) ^ 2 = 2 * X * (X + q * c) * (R + X) * D := by
    rw [h3]; grind
  have key2 : ((X + q * c + X * (et / R) * s) * (xi * (R + X) * c) - (et * (X + q * c) + X * (R + X) * s) * (xi * (et / R) * c)) =
      xi * c * (X + q * c) * X * (R + X) / R := by
    field_simp
    grind
  have e1 : 1 + ((et * (X + q * c) + X * (R + X) * s) / (xi * (R + X) * c)) ^ 2 =
      2 * X * (X + q * c) * (R + X) * D / (xi * (R + X) * c) ^ 2 := by
    rw [← key, div_pow]
    field_simp
    ring
  rw [key2, e1]
  have := hXq.ne'
  generalize X + q * c = Z at *
  generalize R + X = V at *
  field_simp

theorem deriv_et_ai4 (hq : q ≠ 0) (hsc : s ^ 2 + c ^ 2 = 1) (hrd : 0 < (⟨xi, et, q⟩ : Corner).rd s c) :
    HasDerivAt (fun e => (⟨xi, e, q⟩ : Corner).ai4 s c)
      (xi * (c * (⟨xi, et, q⟩ : Corner).r - q) / ((⟨xi, et, q⟩ : Corner).r * (⟨xi, et, q⟩ : Corner).rd s c ^ 2)) et := by
  have hr := r_pos (k := ⟨xi, et, q⟩) hq
  have h2 := r_sq ⟨xi, et, q⟩
  have h3 : (⟨xi, et, q⟩ : Corner).rd s c = (⟨xi, et, q⟩ : Corner).r + (et * s - q * c) := rfl
  have hy : (⟨xi, et, q⟩ : Corner).y s c = et * c + q * s := rfl
  have hw := deriv_et_inv_rd hq hrd
  by_cases hc : c = 0
  · have e : (fun e => (⟨xi, e, q⟩ : Corner).ai4 s c) = fun e => xi * (⟨xi, e, q⟩ : Corner).y s c *
        (((⟨xi, e, q⟩ : Corner).rd s c)⁻¹ * ((⟨xi, e, q⟩ : Corner).rd s c)⁻¹) / 2 := by
      funext e; simp only [ai4, hc, ne_eq, not_true_eq_false, if_false, div_eq_mul_inv, mul_inv]
    rw [e]
    refine (((deriv_et_y.const_mul xi).fun_mul (hw.fun_mul hw)).div_const 2).congr_deriv ?_
    simp only at *
    rw [hy]
    generalize (⟨xi, et, q⟩ : Corner).rd s c = D at *
    generalize (⟨xi, et, q⟩ : Corner).r = R at *
    subst hc
    field_simp
    grind
  by_cases hxi : xi = 0
  · have e : (fun e => (⟨xi, e, q⟩ : Corner).ai4 s c) = fun _ => 0 := by
      funext e; simp [ai4, hc, hxi]
    rw [e]
    exact (hasDerivAt_const et (0 : ℝ)).congr_deriv (by rw [hxi]; ring)
  · have e : (fun e => (⟨xi, e, q⟩ : Corner).ai4 s c) = fun e => 1 / (c * c) * (xi * ((⟨xi, e, q⟩ : Corner).rd s c)⁻¹ * (s * c) +
        2 * arctan ((e * (√(xi * xi + q * q) + q * c) +
        √(xi * xi + q * q) * ((⟨xi, e, q⟩ : Corner).r + √(xi * xi + q * q)) * s) /
          (xi * ((⟨xi, e, q⟩ : Corner).r + √(xi * xi + q * q)) * c))) := by
      funext e; simp only [ai4, ne_eq, hc, hxi, not_false_eq_true, if_true, if_false, div_eq_mul_inv]
    rw [e]
    refine ((((hw.const_mul xi).mul_const (s * c)).fun_add (deriv_et_atan hq hsc hc hxi hrd)).const_mul (1 / (c * c))).congr_deriv ?_
    simp only at *
    generalize (⟨xi, et, q⟩ : Corner).rd s c = D at *
    generalize (⟨xi, et, q⟩ : Corner).r = R at *
    field_simp
    grind

theorem deriv_et_ai1 (hq : q ≠ 0) (hsc : s ^ 2 + c ^ 2 = 1) (hrd : 0 < (⟨xi, et, q⟩ : Corner).rd s c) :
    HasDerivAt (fun e => (⟨xi, e, q⟩ : Corner).ai1 s c)
      (xi * (⟨xi, et, q⟩ : Corner).y s c / ((⟨xi, et, q⟩ : Corner).r * (⟨xi, et, q⟩ : Corner).rd s c ^ 2)) et := by
  have hr := r_pos (k := ⟨xi, et, q⟩) hq
  have hy : (⟨xi, et, q⟩ : Corner).y s c = et * c + q * s := rfl
  refine ((((deriv_et_inv_rd hq hrd).const_mul (-xi)).mul_const c).fun_sub ((deriv_et_ai4 hq hsc hrd).mul_const s)).congr_deriv ?_
  rw [hy]
  generalize (⟨xi, et, q⟩ : Corner).rd s c = D at *
  generalize (⟨xi, et, q⟩ : Corner).r = R at *
  field_simp
  ring

theorem deriv_et_ai2 (hq : q ≠ 0) (hsc : s ^ 2 + c ^ 2 = 1) (hrd : 0 < (⟨xi, et, q⟩ : Corner).rd s c) :
    HasDerivAt (fun e => (⟨xi, e, q⟩ : Corner).ai2 s c)
      ((et / (⟨xi, et, q⟩ : Corner).r + s) / (⟨xi, et, q⟩ : Corner).rd s c +
        (-(1 / (⟨xi, et, q⟩ : Corner).rd s c) + xi ^ 2 / ((⟨xi, et, q⟩ : Corner).r * (⟨xi, et, q⟩ : Corner).rd s c ^ 2)) * s) et :=
  (deriv_et_log_rd hq hrd).fun_add ((deriv_et_ai3 hq hsc hrd).mul_const s)

/-- The derivative of the strike-slip terms along the dip. -/
noncomputable def strikeEt (k : Corner) (s c m : ℝ) : V3 ℝ :=
  let u := (k.r)⁻¹
  let w := (k.rd s c)⁻¹
  ⟨k.xi * k.q * u ^ 3 - k.xi * k.q * (u * (k.et ^ 2 + k.q ^ 2)⁻¹) - m * s * k.y s c * (k.xi * u * w ^ 2),
   k.q * k.et * u ^ 3 + m * s * (c * w - k.y s c * ((k.et * u + s) * w ^ 2)),
   -k.q ^ 2 * u ^ 3 - m * s * ((k.et * u + s) * w + s * (k.xi ^ 2 * u * w ^ 2 - w))⟩

/-- The derivative of the dip-slip terms along the dip. -/
noncomputable def dipEt (k : Corner) (s c m : ℝ) : V3 ℝ :=
  let u := (k.r)⁻¹
  let w := (k.rd s c)⁻¹
  let v := (k.r + k.xi)⁻¹
  ⟨k.q * k.et * u ^ 3 + m * s * c * (k.xi ^ 2 * u * w ^ 2 - w),
   k.et ^ 2 * k.q * (u ^ 3 * v + u ^ 2 * v ^ 2) - k.q * (u * v) - k.xi * k.q * (u * (k.et ^ 2 + k.q ^ 2)⁻¹) +
     m * s * c * (k.xi * (k.et * u + s) * w ^ 2),
   -k.q ^ 2 * k.et * (u ^ 3 * v + u ^ 2 * v ^ 2) + m * s * c * (k.xi * (c - k.q * u) * w ^ 2)⟩

theorem deriv_et_inv_r (hq : q ≠ 0) :
    HasDerivAt (fun e => ((⟨xi, e, q⟩ : Corner).r)⁻¹) (-et / (⟨xi, et, q⟩ : Corner).r ^ 3) et := by
  have hr := r_pos (k := ⟨xi, et, q⟩) hq
  refine ((deriv_et_r hq).inv hr.ne').congr_deriv ?_
  field_simp

theorem deriv_et_strike (hq : q ≠ 0) (hsc : s ^ 2 + c ^ 2 = 1) (hrd : 0 < (⟨xi, et, q⟩ : Corner).rd s c) :
    HasDerivAt (fun e => ((⟨xi, e, q⟩ : Corner).strikeSlip s c m).x) ((⟨xi, et, q⟩ : Corner).strikeEt s c m).x et ∧
    HasDerivAt (fun e => ((⟨xi, e, q⟩ : Corner).strikeSlip s c m).y) ((⟨xi, et, q⟩ : Corner).strikeEt s c m).y et ∧
    HasDerivAt (fun e => ((⟨xi, e, q⟩ : Corner).strikeSlip s c m).z) ((⟨xi, et, q⟩ : Corner).strikeEt s c m).z et := by
  have hr := r_pos (k := ⟨xi, et, q⟩) hq
  have hs : 0 < et ^ 2 + q ^ 2 := by have := sq_nonneg et; have := sq_pos_of_ne_zero hq; linarith
  refine ⟨?_, ?_, ?_⟩ <;> simp only [strikeSlip, strikeEt]
  · refine (((((deriv_et_y11 hq).const_mul q).const_mul (-xi)).fun_sub (deriv_et_tt hq)).fun_sub
      (((deriv_et_ai1 hq hsc hrd).const_mul m).mul_const s)).congr_deriv ?_
    generalize (⟨xi, et, q⟩ : Corner).rd s c = D at *
    generalize (⟨xi, et, q⟩ : Corner).r = R at *
    generalize et ^ 2 + q ^ 2 = E at *
    field_simp
  · refine (((deriv_et_inv_r hq).const_mul (-q)).fun_add
      (((deriv_et_y.const_mul m).fun_mul (deriv_et_inv_rd hq hrd)).mul_const s)).congr_deriv ?_
    generalize (⟨xi, et, q⟩ : Corner).rd s c = D at *
    generalize (⟨xi, et, q⟩ : Corner).r = R at *
    field_simp
    ring
  · refine ((((deriv_et_y11 hq).const_mul q).const_mul q).fun_sub
      (((deriv_et_ai2 hq hsc hrd).const_mul m).mul_const s)).congr_deriv ?_
    generalize (⟨xi, et, q⟩ : Corner).rd s c = D at *
    generalize (⟨xi, et, q⟩ : Corner).r = R at *
    field_simp
    ring

theorem deriv_et_dip (hq : q ≠ 0) (hsc : s ^ 2 + c ^ 2 = 1) (hrd : 0 < (⟨xi, et, q⟩ : Corner).rd s c) :
    HasDerivAt (fun e => ((⟨xi, e, q⟩ : Corner).dipSlip s c m).x) ((⟨xi, et, q⟩ : Corner).dipEt s c m).x et ∧
    HasDerivAt (fun e => ((⟨xi, e, q⟩ : Corner).dipSlip s c m).y) ((⟨xi, et, q⟩ : Corner).dipEt s c m).y et ∧
    HasDerivAt (fun e => ((⟨xi, e, q⟩ : Corner).dipSlip s c m).z) ((⟨xi, et, q⟩ : Corner).dipEt s c m).z et := by
  have hr := r_pos (k := ⟨xi, et, q⟩) hq
  have hv := rxi_pos (k := ⟨xi, et, q⟩) hq
  have hs : 0 < et ^ 2 + q ^ 2 := by have := sq_nonneg et; have := sq_pos_of_ne_zero hq; linarith
  have hx : (⟨xi, et, q⟩ : Corner).x11 = ((⟨xi, et, q⟩ : Corner).r * ((⟨xi, et, q⟩ : Corner).r + xi))⁻¹ := by simp [x11, hq]
  refine ⟨?_, ?_, ?_⟩ <;> simp only [dipSlip, dipEt]
  · refine (((deriv_et_inv_r hq).const_mul (-q)).fun_add
      (((deriv_et_ai3 hq hsc hrd).const_mul m).mul_const (s * c))).congr_deriv ?_
    generalize (⟨xi, et, q⟩ : Corner).rd s c = D at *
    generalize (⟨xi, et, q⟩ : Corner).r = R at *
    field_simp
    ring
  · refine (((((hasDerivAt_id et).fun_neg).fun_mul ((deriv_et_x11 hq).const_mul q)).fun_sub (deriv_et_tt hq)).fun_sub
      (((deriv_et_inv_rd hq hrd).const_mul (m * xi)).mul_const (s * c))).congr_deriv ?_
    simp only [id]
    rw [hx]
    generalize (⟨xi, et, q⟩ : Corner).rd s c = D at *
    generalize (⟨xi, et, q⟩ : Corner).r = R at *
    simp only at *
    generalize et ^ 2 + q ^ 2 = E at *
    generalize R + xi = V at *
    field_simp
    ring
  · refine ((((deriv_et_x11 hq).const_mul q).const_mul q).fun_add
      (((deriv_et_ai4 hq hsc hrd).const_mul m).mul_const (s * c))).congr_deriv ?_
    generalize (⟨xi, et, q⟩ : Corner).rd s c = D at *
    generalize (⟨xi, et, q⟩ : Corner).r = R at *
    simp only at *
    generalize R + xi = V at *
    field_simp

/-! ## Along the strike -/

theorem deriv_xi_r (hq : q ≠ 0) : HasDerivAt (fun x => (⟨x, et, q⟩ : Corner).r) (xi / (⟨xi, et, q⟩ : Corner).r) xi := by
  have h0 : xi * xi + et * et + q * q ≠ 0 := by
    have := mul_self_nonneg xi; have := mul_self_nonneg et; have := mul_self_pos.2 hq; nlinarith
  have h : HasDerivAt (fun x : ℝ => x * x + et * et + q * q) (2 * xi) xi := by
    refine ((((hasDerivAt_id xi).mul (hasDerivAt_id xi)).add_const (et * et)).add_const (q * q)).congr_deriv ?_
    simp; ring
  refine (h.sqrt h0).congr_deriv ?_
  simp only [r]
  field_simp

theorem deriv_xi_u (hq : q ≠ 0) :
    HasDerivAt (fun x => ((⟨x, et, q⟩ : Corner).r)⁻¹) (-xi * ((⟨xi, et, q⟩ : Corner).r)⁻¹ ^ 3) xi := by
  have hr := r_pos (k := ⟨xi, et, q⟩) hq
  refine ((deriv_xi_r hq).inv hr.ne').congr_deriv ?_
  field_simp

theorem deriv_xi_w (hq : q ≠ 0) (hrd : 0 < (⟨xi, et, q⟩ : Corner).rd s c) :
    HasDerivAt (fun x => ((⟨x, et, q⟩ : Corner).rd s c)⁻¹)
      (-xi * ((⟨xi, et, q⟩ : Corner).r)⁻¹ * ((⟨xi, et, q⟩ : Corner).rd s c)⁻¹ ^ 2) xi := by
  have hr := r_pos (k := ⟨xi, et, q⟩) hq
  have hd : HasDerivAt (fun x => (⟨x, et, q⟩ : Corner).rd s c) (xi / (⟨xi, et, q⟩ : Corner).r) xi :=
    (deriv_xi_r hq).add_const (et * s - q * c)
  refine (hd.inv hrd.ne').congr_deriv ?_
  field_simp

theorem deriv_xi_v (hq : q ≠ 0) :
    HasDerivAt (fun x => ((⟨x, et, q⟩ : Corner).r + x)⁻¹)
      (-((⟨xi, et, q⟩ : Corner).r)⁻¹ * ((⟨xi, et, q⟩ : Corner).r + xi)⁻¹) xi := by
  have hr := r_pos (k := ⟨xi, et, q⟩) hq
  have hv := rxi_pos (k := ⟨xi, et, q⟩) hq
  refine (((deriv_xi_r hq).fun_add (hasDerivAt_id xi)).inv hv.ne').congr_deriv ?_
  simp only [id] at *
  generalize (⟨xi, et, q⟩ : Corner).r = R at *
  field_simp
  ring

/-- The mixed derivative of the strike-slip terms. -/
noncomputable def strikeMixed (k : Corner) (s c m : ℝ) : V3 ℝ :=
  let u := (k.r)⁻¹
  let w := (k.rd s c)⁻¹
  ⟨-3 * k.xi ^ 2 * k.q * u ^ 5 - m * s * k.y s c * (u * w ^ 2 - k.xi ^ 2 * u ^ 3 * w ^ 2 - 2 * k.xi ^ 2 * u ^ 2 * w ^ 3),
   -3 * k.xi * k.q * k.et * u ^ 5 +
     m * s * (-c * k.xi * u * w ^ 2 + k.y s c * (k.xi * k.et * u ^ 3 * w ^ 2 + 2 * k.xi * u * (k.et * u + s) * w ^ 3)),
   3 * k.xi * k.q ^ 2 * u ^ 5 + m * s * (k.xi * k.et * u ^ 3 * w + (k.et * u + s) * k.xi * u * w ^ 2 -
     s * (3 * k.xi * u * w ^ 2 - k.xi ^ 3 * u ^ 3 * w ^ 2 - 2 * k.xi ^ 3 * u ^ 2 * w ^ 3))⟩

/-- The mixed derivative of the dip-slip terms. -/
noncomputable def dipMixed (k : Corner) (s c m : ℝ) : V3 ℝ :=
  let u := (k.r)⁻¹
  let w := (k.rd s c)⁻¹
  ⟨-3 * k.xi * k.q * k.et * u ^ 5 + m * s * c * (3 * k.xi * u * w ^ 2 - k.xi ^ 3 * u ^ 3 * w ^ 2 - 2 * k.xi ^ 3 * u ^ 2 * w ^ 3),
   -3 * k.et ^ 2 * k.q * u ^ 5 +
     m * s * c * ((k.et * u + s) * w ^ 2 - k.xi ^ 2 * k.et * u ^ 3 * w ^ 2 - 2 * k.xi ^ 2 * (k.et * u + s) * u * w ^ 3),
   3 * k.et * k.q ^ 2 * u ^ 5 +
     m * s * c * ((c - k.q * u) * w ^ 2 + k.xi ^ 2 * k.q * u ^ 3 * w ^ 2 - 2 * k.xi ^ 2 * (c - k.q * u) * u * w ^ 3)⟩

theorem deriv_xi_strikeEt (hq : q ≠ 0) (hrd : 0 < (⟨xi, et, q⟩ : Corner).rd s c) :
    HasDerivAt (fun x => ((⟨x, et, q⟩ : Corner).strikeEt s c m).x) ((⟨xi, et, q⟩ : Corner).strikeMixed s c m).x xi ∧
    HasDerivAt (fun x => ((⟨x, et, q⟩ : Corner).strikeEt s c m).y) ((⟨xi, et, q⟩ : Corner).strikeMixed s c m).y xi ∧
    HasDerivAt (fun x => ((⟨x, et, q⟩ : Corner).strikeEt s c m).z) ((⟨xi, et, q⟩ : Corner).strikeMixed s c m).z xi := by
  have hr := r_pos (k := ⟨xi, et, q⟩) hq
  have h2 := r_sq ⟨xi, et, q⟩
  have hs : 0 < et ^ 2 + q ^ 2 := by have := sq_nonneg et; have := sq_pos_of_ne_zero hq; linarith
  have hu := deriv_xi_u (xi := xi) (et := et) hq
  have hw := deriv_xi_w hq hrd
  have hx := hasDerivAt_id xi
  have ey : (⟨xi, et, q⟩ : Corner).y s c = et * c + q * s := rfl
  have hy : HasDerivAt (fun x => (⟨x, et, q⟩ : Corner).y s c) 0 xi := hasDerivAt_const xi (et * c + q * s)
  refine ⟨?_, ?_, ?_⟩ <;> simp only [strikeEt, strikeMixed]
  · refine ((((hx.mul_const q).fun_mul (hu.fun_pow 3)).fun_sub ((hx.mul_const q).fun_mul (hu.mul_const (et ^ 2 + q ^ 2)⁻¹))).fun_sub
      ((hy.const_mul (m * s)).fun_mul ((hx.fun_mul hu).fun_mul (hw.fun_pow 2)))).congr_deriv ?_
    simp only [id]
    have e1 : ((⟨xi, et, q⟩ : Corner).r)⁻¹ ^ 2 * (xi ^ 2 + et ^ 2 + q ^ 2) = 1 := by
      rw [← h2]; field_simp
    have e2 : (et ^ 2 + q ^ 2) * (et ^ 2 + q ^ 2)⁻¹ = 1 := mul_inv_cancel₀ hs.ne'
    generalize ((⟨xi, et, q⟩ : Corner).rd s c)⁻¹ = w at *
    generalize ((⟨xi, et, q⟩ : Corner).r)⁻¹ = u at *
    generalize (et ^ 2 + q ^ 2)⁻¹ = E at *
    push_cast
    grind
  · refine ((hu.fun_pow 3).const_mul (q * et) |>.fun_add (((hw.const_mul c).fun_sub
      (hy.fun_mul (((hu.const_mul et).add_const s).fun_mul (hw.fun_pow 2)))).const_mul (m * s))).congr_deriv ?_
    push_cast
    ring
  · refine ((hu.fun_pow 3).const_mul (-q ^ 2) |>.fun_sub (((((hu.const_mul et).add_const s).fun_mul hw).fun_add
      ((((hx.fun_pow 2).fun_mul hu).fun_mul (hw.fun_pow 2)).fun_sub hw |>.const_mul s)).const_mul (m * s))).congr_deriv ?_
    simp only [id]
    push_cast
    ring

theorem deriv_xi_dipEt (hq : q ≠ 0) (hrd : 0 < (⟨xi, et, q⟩ : Corner).rd s c) :
    HasDerivAt (fun x => ((⟨x, et, q⟩ : Corner).dipEt s c m).x) ((⟨xi, et, q⟩ : Corner).dipMixed s c m).x xi ∧
    HasDerivAt (fun x => ((⟨x, et, q⟩ : Corner).dipEt s c m).y) ((⟨xi, et, q⟩ : Corner).dipMixed s c m).y xi ∧
    HasDerivAt (fun x => ((⟨x, et, q⟩ : Corner).dipEt s c m).z) ((⟨xi, et, q⟩ : Corner).dipMixed s c m).z xi := by
  have hr := r_pos (k := ⟨xi, et, q⟩) hq
  have hv0 := rxi_pos (k := ⟨xi, et, q⟩) hq
  have h2 := r_sq ⟨xi, et, q⟩
  have hs : 0 < et ^ 2 + q ^ 2 := by have := sq_nonneg et; have := sq_pos_of_ne_zero hq; linarith
  have hu := deriv_xi_u (xi := xi) (et := et) hq
  have hw := deriv_xi_w hq hrd
  have hv := deriv_xi_v (xi := xi) (et := et) hq
  have hx := hasDerivAt_id xi
  refine ⟨?_, ?_, ?_⟩ <;> simp only [dipEt, dipMixed]
  · refine ((hu.fun_pow 3).const_mul (q * et) |>.fun_add
      ((((hx.fun_pow 2).fun_mul hu).fun_mul (hw.fun_pow 2)).fun_sub hw |>.const_mul (m * s * c))).congr_deriv ?_
    simp only [id]
    push_cast
    ring
  · refine ((((((hu.fun_pow 3).fun_mul hv).fun_add ((hu.fun_pow 2).fun_mul (hv.fun_pow 2))).const_mul (et ^ 2 * q)).fun_sub
      ((hu.fun_mul hv).const_mul q)).fun_sub ((hx.mul_const q).fun_mul (hu.mul_const (et ^ 2 + q ^ 2)⁻¹)) |>.fun_add
      (((hx.fun_mul ((hu.const_mul et).add_const s)).fun_mul (hw.fun_pow 2)).const_mul (m * s * c))).congr_deriv ?_
    simp only [id]
    have e1 : ((⟨xi, et, q⟩ : Corner).r)⁻¹ * (⟨xi, et, q⟩ : Corner).r = 1 := inv_mul_cancel₀ hr.ne'
    have e2 : (et ^ 2 + q ^ 2) * (et ^ 2 + q ^ 2)⁻¹ = 1 := mul_inv_cancel₀ hs.ne'
    have e3 : ((⟨xi, et, q⟩ : Corner).r + xi)⁻¹ * ((⟨xi, et, q⟩ : Corner).r + xi) = 1 := inv_mul_cancel₀ hv0.ne'
    simp only at h2
    generalize ((⟨xi, et, q⟩ : Corner).r + xi)⁻¹ = v at *
    generalize ((⟨xi, et, q⟩ : Corner).rd s c)⁻¹ = w at *
    generalize ((⟨xi, et, q⟩ : Corner).r)⁻¹ = u at *
    generalize (⟨xi, et, q⟩ : Corner).r = R at *
    generalize (et ^ 2 + q ^ 2)⁻¹ = E at *
    push_cast
    clear hr hv0 hs hu hw hv hx hrd hq
    grind
  · refine (((((hu.fun_pow 3).fun_mul hv).fun_add ((hu.fun_pow 2).fun_mul (hv.fun_pow 2))).const_mul (-q ^ 2 * et)).fun_add
      (((hx.fun_mul ((hu.const_mul q).const_sub c)).fun_mul (hw.fun_pow 2)).const_mul (m * s * c))).congr_deriv ?_
    simp only [id]
    have e1 : ((⟨xi, et, q⟩ : Corner).r)⁻¹ * (⟨xi, et, q⟩ : Corner).r = 1 := inv_mul_cancel₀ hr.ne'
    have e3 : ((⟨xi, et, q⟩ : Corner).r + xi)⁻¹ * ((⟨xi, et, q⟩ : Corner).r + xi) = 1 := inv_mul_cancel₀ hv0.ne'
    simp only at h2
    generalize ((⟨xi, et, q⟩ : Corner).r + xi)⁻¹ = v at *
    generalize ((⟨xi, et, q⟩ : Corner).rd s c)⁻¹ = w at *
    generalize ((⟨xi, et, q⟩ : Corner).r)⁻¹ = u at *
    generalize (⟨xi, et, q⟩ : Corner).r = R at *
    push_cast
    clear hr hv0 hs hu hw hv hx hrd hq
    grind

/-! ## The mixed derivative is the field of a dislocation -/

/-- The position of the element of the fault, seen from the station. -/
noncomputable def position (k : Corner) (s c : ℝ) : V3 ℝ := ⟨-k.xi, -k.y s c, -k.d s c⟩

theorem position_len (k : Corner) (hsc : s ^ 2 + c ^ 2 = 1) : (k.position s c).len = k.r := by
  rw [V3.len, r, position]
  congr 1
  simp only [y, d]
  linear_combination (k.et ^ 2 + k.q ^ 2) * hsc

theorem U_position (k : Corner) (hsc : s ^ 2 + c ^ 2 = 1) : Elastic.U (k.position s c) = (k.r)⁻¹ := by
  rw [Elastic.U, position_len k hsc]

theorem W_position (k : Corner) (hsc : s ^ 2 + c ^ 2 = 1) : Elastic.W (k.position s c) = (k.rd s c)⁻¹ := by
  rw [Elastic.W, position_len k hsc, rd, position]
  simp

/-- The axes of the fault turned into those of the surface. -/
def turned (v : V3 ℝ) (s c : ℝ) : V3 ℝ := ⟨v.x, v.y * c - v.z * s, v.y * s + v.z * c⟩

open Elastic in
theorem strike_dislocation (k : Corner) (hr : 0 < k.r) (hsc : s ^ 2 + c ^ 2 = 1) (hrd : 0 < k.rd s c) :
    turned (k.strikeMixed s c m) s c = (1 / 2 : ℝ) • (⟨V3.dot ⟨1, 0, 0⟩ (traction (stress 0 1 (jacX m (k.position s c))) ⟨0, -s, c⟩),
      V3.dot ⟨1, 0, 0⟩ (traction (stress 0 1 (jacY m (k.position s c))) ⟨0, -s, c⟩),
      V3.dot ⟨1, 0, 0⟩ (traction (stress 0 1 (jacZ m (k.position s c))) ⟨0, -s, c⟩)⟩ : V3 ℝ) := by
  have h2 := r_sq k
  have e1 : (k.r)⁻¹ * k.r = 1 := inv_mul_cancel₀ hr.ne'
  have e3 : (k.rd s c)⁻¹ * (k.r + (k.et * s - k.q * c)) = 1 := inv_mul_cancel₀ hrd.ne'
  have eU := U_position k hsc
  have eW := W_position k hsc
  ext <;> simp only [turned, strikeMixed, V3.smul_x, V3.smul_y, V3.smul_z, smul_eq_mul, V3.dot, traction, stress, jacX, jacY, jacZ, eU, eW] <;>
    simp only [position, y, d] <;>
    generalize (k.rd s c)⁻¹ = w at * <;> generalize (k.r)⁻¹ = u at * <;> generalize k.r = R at * <;>
    generalize k.xi = xi at * <;> generalize k.et = et at * <;> generalize k.q = q at * <;> clear hr hrd eU eW
  · grind
  · grind
  · grind

open Elastic in
theorem dip_dislocation (k : Corner) (hr : 0 < k.r) (hsc : s ^ 2 + c ^ 2 = 1) (hrd : 0 < k.rd s c) :
    turned (k.dipMixed s c m) s c = (1 / 2 : ℝ) • (⟨V3.dot ⟨0, c, s⟩ (traction (stress 0 1 (jacX m (k.position s c))) ⟨0, -s, c⟩),
      V3.dot ⟨0, c, s⟩ (traction (stress 0 1 (jacY m (k.position s c))) ⟨0, -s, c⟩),
      V3.dot ⟨0, c, s⟩ (traction (stress 0 1 (jacZ m (k.position s c))) ⟨0, -s, c⟩)⟩ : V3 ℝ) := by
  have h2 := r_sq k
  have e1 : (k.r)⁻¹ * k.r = 1 := inv_mul_cancel₀ hr.ne'
  have e3 : (k.rd s c)⁻¹ * (k.r + (k.et * s - k.q * c)) = 1 := inv_mul_cancel₀ hrd.ne'
  have eU := U_position k hsc
  have eW := W_position k hsc
  ext <;> simp only [turned, dipMixed, V3.smul_x, V3.smul_y, V3.smul_z, smul_eq_mul, V3.dot, traction, stress, jacX, jacY, jacZ, eU, eW] <;>
    simp only [position, y, d] <;>
    generalize (k.rd s c)⁻¹ = w at * <;> generalize (k.r)⁻¹ = u at * <;> generalize k.r = R at * <;>
    generalize k.xi = xi at * <;> generalize k.et = et at * <;> generalize k.q = q at * <;> clear hr hrd eU eW
  · grind
  · grind
  · grind

end Corner

end Verif.Okada
