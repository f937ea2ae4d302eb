import Verif.Lemmas.Radial
import Mathlib.Analysis.SpecialFunctions.ExpDeriv
import Mathlib.Analysis.Complex.RealDeriv

/-! # Spherical-wave profiles (helper lemmas) -/

namespace Verif

open Complex (I)

/-- `c e^{-ikr} / r` -/
noncomputable def sphP (c k : ℂ) (r : ℝ) : ℂ := c * Complex.exp (-(I * (k * r))) / r
/-- `c (ikr + 1) e^{-ikr} / r³` -/
noncomputable def sphG (c k : ℂ) (r : ℝ) : ℂ := c * (I * (k * r) + 1) * Complex.exp (-(I * (k * r))) / r ^ 3
/-- `c (-k²r² + 3ikr + 3) e^{-ikr} / r⁵` -/
noncomputable def sphA (c k : ℂ) (r : ℝ) : ℂ :=
  c * (-(k * r) ^ 2 + 3 * (I * (k * r)) + 3) * Complex.exp (-(I * (k * r))) / r ^ 5
/-- `c (k²r² - ikr - 1) e^{-ikr} / r³` -/
noncomputable def sphB (c k : ℂ) (r : ℝ) : ℂ :=
  c * ((k * r) ^ 2 - I * (k * r) - 1) * Complex.exp (-(I * (k * r))) / r ^ 3

section

variable (c k : ℂ) {r : ℝ}

theorem hasDerivAt_expI (z : ℂ) : HasDerivAt (fun z : ℂ => Complex.exp (-(I * (k * z))))
    (Complex.exp (-(I * (k * z))) * -(I * k)) z := by
  have h : HasDerivAt (fun z : ℂ => -(I * (k * z))) (-(I * k)) z := by
    refine ((((hasDerivAt_id z).const_mul k).const_mul I).fun_neg).congr_deriv ?_
    simp
  exact h.cexp

theorem hasDerivAt_sphP (hr : r ≠ 0) : HasDerivAt (sphP c k) (-(r * sphG c k r)) r := by
  have hr' : (r : ℂ) ≠ 0 := by exact_mod_cast hr
  have h := ((hasDerivAt_expI k (r : ℂ)).const_mul c).div (hasDerivAt_id (r : ℂ)) hr'
  refine h.comp_ofReal.congr_deriv ?_
  simp only [sphG, id]
  field_simp
  ring

theorem hasDerivAt_sphG (hr : r ≠ 0) : HasDerivAt (sphG c k) (-(r * sphA c k r)) r := by
  have hr' : (r : ℂ) ≠ 0 := by exact_mod_cast hr
  have hp : HasDerivAt (fun z : ℂ => c * (I * (k * z) + 1)) (c * (I * k)) (r : ℂ) := by
    simpa using ((((hasDerivAt_id (r : ℂ)).const_mul k).const_mul I).add_const 1).const_mul c
  have h := (hp.mul (hasDerivAt_expI k (r : ℂ))).div ((hasDerivAt_id (r : ℂ)).pow 3) (pow_ne_zero 3 hr')
  refine h.comp_ofReal.congr_deriv ?_
  simp only [sphA, id, Pi.mul_apply, Pi.pow_apply]
  field_simp
  ring_nf
  simp only [Complex.I_sq]
  ring

theorem hasDerivAt_sphA (hr : r ≠ 0) :
    HasDerivAt (sphA c k) (-(5 * sphA c k r - k ^ 2 * sphG c k r) / r) r := by
  have hr' : (r : ℂ) ≠ 0 := by exact_mod_cast hr
  have hid : HasDerivAt (fun z : ℂ => k * z) k (r : ℂ) := by
    simpa using (hasDerivAt_id (r : ℂ)).const_mul k
  have hp : HasDerivAt (fun z : ℂ => c * (-(k * z) ^ 2 + 3 * (I * (k * z)) + 3))
      (c * (-(2 * (k * r) * k) + 3 * (I * k))) (r : ℂ) := by
    have := ((((hid.pow 2).neg).add ((hid.const_mul I).const_mul 3)).add_const 3).const_mul c
    refine this.congr_deriv ?_
    push_cast; ring
  have h := (hp.mul (hasDerivAt_expI k (r : ℂ))).div ((hasDerivAt_id (r : ℂ)).pow 5) (pow_ne_zero 5 hr')
  refine h.comp_ofReal.congr_deriv ?_
  simp only [sphA, sphG, id, Pi.mul_apply, Pi.pow_apply]
  field_simp
  ring_nf
  simp only [Complex.I_sq]
  ring

theorem hasDerivAt_sphB (hr : r ≠ 0) :
    HasDerivAt (sphB c k) (r * (sphA c k r - k ^ 2 * sphG c k r)) r := by
  have hr' : (r : ℂ) ≠ 0 := by exact_mod_cast hr
  have hid : HasDerivAt (fun z : ℂ => k * z) k (r : ℂ) := by
    simpa using (hasDerivAt_id (r : ℂ)).const_mul k
  have hp : HasDerivAt (fun z : ℂ => c * ((k * z) ^ 2 - I * (k * z) - 1))
      (c * (2 * (k * r) * k - I * k)) (r : ℂ) := by
    have := (((hid.pow 2).sub (hid.const_mul I)).sub_const 1).const_mul c
    refine this.congr_deriv ?_
    push_cast; ring
  have h := (hp.mul (hasDerivAt_expI k (r : ℂ))).div ((hasDerivAt_id (r : ℂ)).pow 3) (pow_ne_zero 3 hr')
  refine h.comp_ofReal.congr_deriv ?_
  simp only [sphA, sphG, id, Pi.mul_apply, Pi.pow_apply]
  field_simp
  ring_nf
  simp only [Complex.I_sq]
  ring

theorem sphB_eq (hr : r ≠ 0) : sphB c k r = 2 * sphG c k r - r ^ 2 * sphA c k r := by
  have hr' : (r : ℂ) ≠ 0 := by exact_mod_cast hr
  simp only [sphA, sphB, sphG]
  field_simp
  ring

end

section

variable {o loc p : V3 ℝ} (c k : ℂ) (h : (p - loc).len ≠ 0)
include h

theorem sph_curlP : HasCurl (dipF o loc (fun _ => 0) (sphP c k)) (dipX o loc (sphG c k) p) p := by
  have h' : ((p - loc).len : ℂ) ≠ 0 := by exact_mod_cast h
  obtain ⟨J, hJ, e⟩ := dipF_curl (o := o) h (hasDerivAt_const _ (0:ℂ)) (hasDerivAt_sphP c k h)
  refine ⟨J, hJ, e.trans ?_⟩
  ext <;> simp [dipX] <;> field_simp <;> simp

theorem sph_curlG : HasCurl (dipX o loc (sphG c k)) (dipF o loc (sphA c k) (sphB c k) p) p := by
  have h' : ((p - loc).len : ℂ) ≠ 0 := by exact_mod_cast h
  obtain ⟨J, hJ, e⟩ := dipX_curl (o := o) h (hasDerivAt_sphG c k h)
  refine ⟨J, hJ, e.trans ?_⟩
  ext <;> simp [dipF, sphB_eq c k h] <;> field_simp <;> ring

theorem sph_divG : HasDiv (dipX o loc (sphG c k)) 0 p := dipX_div h (hasDerivAt_sphG c k h)

theorem sph_curlAB : HasCurl (dipF o loc (sphA c k) (sphB c k))
    ((dipX o loc (sphG c k) p).map (fun x => k ^ 2 * x)) p := by
  have h' : ((p - loc).len : ℂ) ≠ 0 := by exact_mod_cast h
  obtain ⟨J, hJ, e⟩ := dipF_curl (o := o) h (hasDerivAt_sphA c k h) (hasDerivAt_sphB c k h)
  refine ⟨J, hJ, e.trans ?_⟩
  ext <;> simp [dipX] <;> field_simp <;> ring

theorem sph_divAB : HasDiv (dipF o loc (sphA c k) (sphB c k)) 0 p := by
  have h' : ((p - loc).len : ℂ) ≠ 0 := by exact_mod_cast h
  obtain ⟨J, hJ, e⟩ := dipF_div (o := o) h (hasDerivAt_sphA c k h) (hasDerivAt_sphB c k h)
  refine ⟨J, hJ, e.trans ?_⟩
  simp
  field_simp
  ring

end

/-! Scaling by a constant -/

theorem HasJac.const_map {F : V3 ℝ → V3 ℂ} {J : M3 ℂ} {p : V3 ℝ} (a : ℂ) (h : HasJac F J p) :
    HasJac (fun q => (F q).map (fun x => a * x))
      ⟨J.x.map (fun x => a * x), J.y.map (fun x => a * x), J.z.map (fun x => a * x)⟩ p :=
  ⟨h.1.const_mul a, h.2.1.const_mul a, h.2.2.const_mul a⟩

theorem HasCurl.const_map {F : V3 ℝ → V3 ℂ} {v : V3 ℂ} {p : V3 ℝ} (a : ℂ) (h : HasCurl F v p) :
    HasCurl (fun q => (F q).map (fun x => a * x)) (v.map (fun x => a * x)) p := by
  obtain ⟨J, hJ, rfl⟩ := h
  refine ⟨_, hJ.const_map a, ?_⟩
  ext <;> simp [M3.curl] <;> ring

theorem HasDiv.const_map {F : V3 ℝ → V3 ℂ} {v : ℂ} {p : V3 ℝ} (a : ℂ) (h : HasDiv F v p) :
    HasDiv (fun q => (F q).map (fun x => a * x)) (a * v) p := by
  obtain ⟨J, hJ, rfl⟩ := h
  refine ⟨_, hJ.const_map a, ?_⟩
  simp [M3.trace]; ring

end Verif
