import Verif.Model.Fdem
import Verif.Lemmas.ComplexSqrt
import Mathlib.Analysis.Complex.Exponential
import Mathlib.Analysis.SpecialFunctions.Exp
import Mathlib.Tactic.NormNum.RealSqrt

/-! # C42, C43, C47: wavenumber, skin depth and the quasistatic flag -/

namespace Verif.Fdem

open Complex (I)

variable {f sigma mu epsilon : ℝ}

/-! ## C42 -/

/-- **C42.** Without the quasistatic approximation `k² = w² mu eps - i w mu sigma`. -/
theorem wavenumber_sq (f sigma mu epsilon : ℝ) :
    wavenumber f sigma mu epsilon (.bool false) ^ 2 =
      (2 * Real.pi * f) ^ 2 * mu * epsilon - I * (2 * Real.pi * f) * mu * sigma := by
  rw [wavenumber]; simp only [Flag.isTrue, omega, Bool.false_eq_true, if_false, csqrt_sq]
  push_cast; ring

/-- **C42.** With it, `k² = - i w mu sigma`. -/
theorem wavenumber_sq_quasistatic (f sigma mu epsilon : ℝ) :
    wavenumber f sigma mu epsilon (.bool true) ^ 2 = -I * (2 * Real.pi * f) * mu * sigma := by
  rw [wavenumber]; simp only [Flag.isTrue, omega, if_true, csqrt_sq]
  push_cast; ring

/-- **C42.** For every value of the flag `k² = - i w mu sigma_hat`, with the `sigma_hat` of the same flag. -/
theorem wavenumber_sq_sigmaHat (f sigma mu epsilon : ℝ) (q : Flag) :
    wavenumber f sigma mu epsilon q ^ 2 = -I * omega f * mu * sigmaHat f sigma epsilon q := by
  unfold wavenumber sigmaHat
  by_cases h : q.isTrue <;> simp only [h, if_true, if_false, csqrt_sq, Bool.false_eq_true]
  linear_combination ((omega f : ℂ) ^ 2 * mu * epsilon) * Complex.I_sq

/-- The quantity under the root has negative imaginary part. -/
theorem under_root_im (hf : 0 < f) (hs : 0 < sigma) (hm : 0 < mu) :
    (-I * (omega f : ℂ) * mu * sigma).im < 0 ∧
    ((omega f : ℂ) ^ 2 * mu * epsilon - I * omega f * mu * sigma).im < 0 := by
  have hw : 0 < omega f := by unfold omega; positivity
  have h : 0 < omega f * mu * sigma := by positivity
  constructor
  · have : (-I * (omega f : ℂ) * mu * sigma) = ((-(omega f * mu * sigma) : ℝ) : ℂ) * I := by
      push_cast; ring
    rw [this, Complex.mul_I_im, Complex.ofReal_re]
    linarith
  · have : ((omega f : ℂ) ^ 2 * mu * epsilon - I * omega f * mu * sigma) =
      ((omega f ^ 2 * mu * epsilon : ℝ) : ℂ) + ((-(omega f * mu * sigma) : ℝ) : ℂ) * I := by
      push_cast; ring
    rw [this, Complex.add_im, Complex.ofReal_im, Complex.mul_I_im, Complex.ofReal_re]
    linarith

/-- **C42.** For positive frequency, conductivity and permeability `Re k > 0` and `Im k < 0`, whatever the
permittivity and the flag. -/
theorem wavenumber_quadrant (hf : 0 < f) (hs : 0 < sigma) (hm : 0 < mu) (q : Flag) :
    0 < (wavenumber f sigma mu epsilon q).re ∧ (wavenumber f sigma mu epsilon q).im < 0 := by
  obtain ⟨h1, h2⟩ := under_root_im (epsilon := epsilon) hf hs hm
  unfold wavenumber
  by_cases h : q.isTrue <;> simp only [h, if_true, if_false, Bool.false_eq_true]
  · exact ⟨csqrt_re_pos h1.ne, csqrt_im_lt h1⟩
  · exact ⟨csqrt_re_pos h2.ne, csqrt_im_lt h2⟩

/-- **C42.** It is the only root of the dispersion relation with that sign of the imaginary part. -/
theorem wavenumber_unique (hf : 0 < f) (hs : 0 < sigma) (hm : 0 < mu) (q : Flag) (k : ℂ)
    (hk : k ^ 2 = -I * omega f * mu * sigmaHat f sigma epsilon q) (him : k.im ≤ 0) :
    k = wavenumber f sigma mu epsilon q := by
  have h := wavenumber_quadrant (epsilon := epsilon) hf hs hm q
  rw [← wavenumber_sq_sigmaHat] at hk
  rcases sq_eq_sq_iff_eq_or_eq_neg.1 hk with e | e
  · exact e
  · rw [e] at him; simp at him; linarith

theorem norm_exp_decay (k : ℂ) (r : ℝ) : ‖Complex.exp (-I * k * r)‖ = Real.exp (k.im * r) := by
  rw [Complex.norm_exp]; congr 1; simp

/-- **C42.** `exp(-i k r)` has modulus `exp(Im k · r)`, at most one for `r ≥ 0`, and strictly decreasing in `r`. -/
theorem wavenumber_decay (hf : 0 < f) (hs : 0 < sigma) (hm : 0 < mu) (q : Flag) :
    (∀ r : ℝ, 0 ≤ r → ‖Complex.exp (-I * wavenumber f sigma mu epsilon q * r)‖ ≤ 1) ∧
    ∀ r r' : ℝ, r < r' → ‖Complex.exp (-I * wavenumber f sigma mu epsilon q * r')‖ <
      ‖Complex.exp (-I * wavenumber f sigma mu epsilon q * r)‖ := by
  have h := (wavenumber_quadrant (epsilon := epsilon) hf hs hm q).2
  refine ⟨fun r hr => ?_, fun r r' hr => ?_⟩
  · rw [norm_exp_decay]
    exact Real.exp_le_one_iff.2 (mul_nonpos_of_nonpos_of_nonneg h.le hr)
  · rw [norm_exp_decay, norm_exp_decay]
    exact Real.exp_lt_exp.2 (mul_lt_mul_of_neg_left hr h)

/-! ## C43 -/

theorem wavenumber_im_quasistatic (hf : 0 < f) (hs : 0 < sigma) (hm : 0 < mu) :
    (wavenumber f sigma mu epsilon (.bool true)).im = -Real.sqrt (omega f * mu * sigma / 2) := by
  obtain ⟨h1, -⟩ := under_root_im (epsilon := epsilon) hf hs hm
  have hw : 0 < omega f := by unfold omega; positivity
  unfold wavenumber
  simp only [Flag.isTrue, if_true]
  rw [csqrt_im_neg h1]
  have e : (-I * (omega f : ℂ) * mu * sigma) = ((-(omega f * mu * sigma) : ℝ) : ℂ) * I := by
      push_cast; ring
  have h : 0 < omega f * mu * sigma := by positivity
  rw [e, norm_mul, Complex.norm_I, Complex.norm_real, Real.norm_eq_abs, abs_neg, abs_of_pos h]
  simp

/-- **C43 (partial: the quasistatic setting).** Over one skin depth the wave decays by exactly `1/e`.  Missing: the
setting `quasistatic=False`, where the property is false of the code (`skinDepth_wrong`). -/
theorem skinDepth_decay_partial (hf : 0 < f) (hs : 0 < sigma) (hm : 0 < mu) :
    ‖Complex.exp (-I * wavenumber f sigma mu epsilon (.bool true) *
      skinDepth f sigma mu epsilon (.bool true))‖ = Real.exp (-1) := by
  have hw : 0 < omega f := by unfold omega; positivity
  rw [norm_exp_decay, wavenumber_im_quasistatic hf hs hm]
  simp only [skinDepth, Flag.truthy, if_true]
  rw [neg_mul, ← Real.sqrt_mul (by positivity)]
  have : omega f * mu * sigma / 2 * (2 / (omega f * sigma * mu)) = 1 := by field_simp
  rw [this, Real.sqrt_one]

theorem wavenumber_im_full (hf : 0 < f) (hs : 0 < sigma) (hm : 0 < mu) (he : 0 < epsilon) :
    (wavenumber f sigma mu epsilon (.bool false)).im =
      -(omega f * Real.sqrt ((mu * epsilon / 2) * (Real.sqrt (1 + sigma ^ 2 / (omega f * epsilon) ^ 2) - 1))) := by
  obtain ⟨-, h1⟩ := under_root_im (epsilon := epsilon) hf hs hm
  have hw : 0 < omega f := by unfold omega; positivity
  unfold wavenumber
  simp only [Flag.isTrue, if_false, Bool.false_eq_true]
  rw [csqrt_im_neg h1]
  have e : ((omega f : ℂ) ^ 2 * mu * epsilon - I * omega f * mu * sigma) =
      ((omega f ^ 2 * mu * epsilon : ℝ) : ℂ) + ((-(omega f * mu * sigma) : ℝ) : ℂ) * I := by
      push_cast; ring
  have hre : (((omega f ^ 2 * mu * epsilon : ℝ) : ℂ) + ((-(omega f * mu * sigma) : ℝ) : ℂ) * I).re =
      omega f ^ 2 * mu * epsilon := by
    rw [Complex.add_re, Complex.ofReal_re, Complex.mul_I_re, Complex.ofReal_im]; simp
  rw [e, hre, Complex.norm_add_mul_I]
  congr 1
  have e2 : (omega f ^ 2 * mu * epsilon) ^ 2 + (-(omega f * mu * sigma)) ^ 2 =
      (omega f ^ 2 * mu * epsilon) ^ 2 * (1 + sigma ^ 2 / (omega f * epsilon) ^ 2) := by field_simp
  rw [e2, Real.sqrt_mul (by positivity), Real.sqrt_sq (by positivity)]
  rw [show (omega f ^ 2 * mu * epsilon * Real.sqrt (1 + sigma ^ 2 / (omega f * epsilon) ^ 2) -
    omega f ^ 2 * mu * epsilon) / 2 = omega f ^ 2 * ((mu * epsilon / 2) *
      (Real.sqrt (1 + sigma ^ 2 / (omega f * epsilon) ^ 2) - 1)) by ring, Real.sqrt_mul (by positivity),
    Real.sqrt_sq hw.le]

/-- **C43 (what the code returns without the approximation).** `-Im k / w²` instead of the decay length `-1 / Im k`. -/
theorem skinDepth_full_value (hf : 0 < f) (hs : 0 < sigma) (hm : 0 < mu) (he : 0 < epsilon) :
    skinDepth f sigma mu epsilon (.bool false) =
      -(wavenumber f sigma mu epsilon (.bool false)).im / omega f ^ 2 := by
  have hw : 0 < omega f := by unfold omega; positivity
  rw [wavenumber_im_full hf hs hm he]
  simp only [skinDepth, Flag.truthy, if_false, Bool.false_eq_true]
  field_simp

/-- **C43 (finding).** The decay over the returned depth is `exp(-(Im k / w)²)`, so it is `1/e` exactly when
`-Im k = w`. -/
theorem skinDepth_full_iff (hf : 0 < f) (hs : 0 < sigma) (hm : 0 < mu) (he : 0 < epsilon) :
    ‖Complex.exp (-I * wavenumber f sigma mu epsilon (.bool false) *
      skinDepth f sigma mu epsilon (.bool false))‖ = Real.exp (-1) ↔
      -(wavenumber f sigma mu epsilon (.bool false)).im = omega f := by
  have hw : 0 < omega f := by unfold omega; positivity
  have hk := (wavenumber_quadrant (epsilon := epsilon) hf hs hm (.bool false)).2
  rw [norm_exp_decay, skinDepth_full_value hf hs hm he, Real.exp_eq_exp]
  set b := (wavenumber f sigma mu epsilon (.bool false)).im
  constructor
  · intro h
    field_simp at h
    have : (-b) ^ 2 = omega f ^ 2 := by linarith
    exact (sq_eq_sq₀ (by linarith) hw.le).1 this
  · intro h
    rw [← h]
    have := hk.ne
    field_simp

/-- **C43 is false of the code without the quasistatic approximation**: at angular frequency 1 with unit properties the
returned depth is not the `1/e` decay length. -/
theorem skinDepth_wrong :
    ¬ ∀ f sigma mu epsilon : ℝ, 0 < f → 0 < sigma → 0 < mu → 0 < epsilon → ∀ b : Bool,
      ‖Complex.exp (-I * wavenumber f sigma mu epsilon (.bool b) *
        skinDepth f sigma mu epsilon (.bool b))‖ = Real.exp (-1) := by
  intro h
  have hpi := Real.pi_pos
  have hf : (0:ℝ) < 1 / (2 * Real.pi) := by positivity
  have hw : omega (1 / (2 * Real.pi)) = 1 := by unfold omega; field_simp
  have h1 := h (1 / (2 * Real.pi)) 1 1 1 hf one_pos one_pos one_pos false
  rw [skinDepth_full_iff hf one_pos one_pos one_pos, wavenumber_im_full hf one_pos one_pos one_pos, hw] at h1
  norm_num at h1
  have h2 : Real.sqrt 2 ^ 2 = 2 := Real.sq_sqrt (by norm_num)
  have h0 : 0 < Real.sqrt 2 := by positivity
  have h3 : 1 < Real.sqrt 2 := by nlinarith
  have h4 : Real.sqrt (Real.sqrt 2 - 1) ^ 2 = Real.sqrt 2 - 1 := Real.sq_sqrt (by linarith)
  have h5 : Real.sqrt (Real.sqrt 2 - 1) = Real.sqrt 2 := by
    field_simp at h1; exact h1
  rw [h5] at h4
  nlinarith

/-! ## C47 -/

/-- **C47 (partial: values whose identity with `True` agrees with their truth value, in particular the two
booleans).** All three functions use the same approximation: either that of `True` or that of `False`.  Missing: other
truthy values, for which the property is false (`quasistatic_flag_inconsistent`). -/
theorem quasistatic_flag_partial (q : Flag) (h : q.isTrue = q.truthy) :
    ∃ b : Bool, b = q.truthy ∧ ∀ f sigma mu epsilon : ℝ,
      wavenumber f sigma mu epsilon q = wavenumber f sigma mu epsilon (.bool b) ∧
      sigmaHat f sigma epsilon q = sigmaHat f sigma epsilon (.bool b) ∧
      skinDepth f sigma mu epsilon q = skinDepth f sigma mu epsilon (.bool b) := by
  refine ⟨q.truthy, rfl, fun f sigma mu epsilon => ?_⟩
  have e1 : (Flag.bool q.truthy).isTrue = q.truthy := rfl
  have e2 : (Flag.bool q.truthy).truthy = q.truthy := rfl
  simp only [wavenumber, sigmaHat, skinDepth, h, e1, e2, and_self]

/-- **C47.** The two booleans, zero and `None` are such values; other integers and numpy's true are not. -/
theorem flag_agrees_iff (q : Flag) :
    q.isTrue = q.truthy ↔ (∃ b, q = .bool b) ∨ q = .int 0 ∨ q = .npBool false ∨ q = .none := by
  cases q with
  | bool b => simp [Flag.isTrue, Flag.truthy]
  | int n => simp [Flag.isTrue, Flag.truthy]
  | npBool b => cases b <;> simp [Flag.isTrue, Flag.truthy]
  | none => simp [Flag.isTrue, Flag.truthy]

/-- **C47 is false of the code**: for `quasistatic=1` or `np.True_` the skin depth uses the approximation while the
wavenumber and the conductivity do not, at every positive frequency, permeability and permittivity. -/
theorem quasistatic_flag_inconsistent (q : Flag) (hq : q = .int 1 ∨ q = .npBool true)
    (hf : 0 < f) (hm : 0 < mu) (he : 0 < epsilon) :
    skinDepth f sigma mu epsilon q = skinDepth f sigma mu epsilon (.bool true) ∧
    wavenumber f sigma mu epsilon q ≠ wavenumber f sigma mu epsilon (.bool true) ∧
    sigmaHat f sigma epsilon q ≠ sigmaHat f sigma epsilon (.bool true) := by
  have hw : 0 < omega f := by unfold omega; positivity
  have h1 : wavenumber f sigma mu epsilon q = wavenumber f sigma mu epsilon (.bool false) := by
    rcases hq with rfl | rfl <;> simp [wavenumber, Flag.isTrue]
  have h2 : sigmaHat f sigma epsilon q = sigmaHat f sigma epsilon (.bool false) := by
    rcases hq with rfl | rfl <;> simp [sigmaHat, Flag.isTrue]
  have h3 : sigmaHat f sigma epsilon (.bool false) ≠ sigmaHat f sigma epsilon (.bool true) := by
    intro e
    have := congrArg Complex.im e
    simp [sigmaHat, Flag.isTrue] at this
    rcases this with h | h <;> linarith
  refine ⟨?_, ?_, h2 ▸ h3⟩
  · rcases hq with rfl | rfl <;> simp [skinDepth, Flag.truthy]
  · rw [h1]
    intro e
    have e2 := congrArg (· ^ 2) e
    simp only [wavenumber_sq_sigmaHat] at e2
    refine h3 (mul_left_cancel₀ ?_ e2)
    have : (omega f : ℂ) ≠ 0 := by exact_mod_cast hw.ne'
    have : (mu : ℂ) ≠ 0 := by exact_mod_cast hm.ne'
    simp [*]

end Verif.Fdem
