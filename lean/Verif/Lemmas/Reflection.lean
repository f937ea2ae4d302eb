import Verif.Model.Reflection
import Verif.Lemmas.ComplexSqrt
import Mathlib.Analysis.SpecialFunctions.Trigonometric.DerivHyp
import Mathlib.Analysis.SpecialFunctions.Pow.Deriv
import Mathlib.Analysis.Calculus.Deriv.Star
import Mathlib.Analysis.Calculus.Deriv.MeanValue
import Mathlib.Analysis.Complex.RealDeriv

/-! # Layer recursion: loops, hyperbolic functions and passivity (helper lemmas) -/

namespace Verif.RTE

open Complex

/-! ## Loops -/

theorem downLoop_add {α : Type*} (j m : ℕ) (B : ℕ → α → α) (s : α) :
    downLoop (j + m) B s = downLoop j B (downLoop m (fun i => B (j + i)) s) := by
  induction m generalizing s with
  | zero => rfl
  | succ m ih => rw [← Nat.add_assoc]; simp only [downLoop]; rw [ih]

theorem downLoop_succ_low {α : Type*} (m : ℕ) (B : ℕ → α → α) (s : α) :
    downLoop (m + 1) B s = B 0 (downLoop m (fun i => B (i + 1)) s) := by
  induction m generalizing s with
  | zero => rfl
  | succ m ih => rw [downLoop, ih]; rfl

theorem downLoop_congr {α : Type*} (m : ℕ) (B C : ℕ → α → α) (h : ∀ k < m, B k = C k) (s : α) :
    downLoop m B s = downLoop m C s := by
  induction m generalizing s with
  | zero => rfl
  | succ m ih =>
    simp only [downLoop]
    rw [h m (Nat.lt_succ_self m), ih fun k hk => h k (Nat.lt_succ_of_lt hk)]

/-- The admittance looking down from the top of layer `k`, `k ≤ n`. -/
noncomputable def Col.yh (c : Col) (k : ℕ) : ℂ :=
  downLoop (c.n - k) (fun i => stepOf (c.Y (k + i)) (c.t (k + i))) (c.Y c.n)

theorem Col.yh_n (c : Col) : c.yh c.n = c.Y c.n := by
  simp [Col.yh, downLoop]

theorem Col.yh_succ (c : Col) {k : ℕ} (hk : k < c.n) : c.yh k = stepOf (c.Y k) (c.t k) (c.yh (k + 1)) := by
  unfold Col.yh
  obtain ⟨m, hm⟩ : ∃ m, c.n - k = m + 1 := ⟨c.n - k - 1, by omega⟩
  rw [hm, downLoop_succ_low, show c.n - (k + 1) = m by omega]
  simp only [Nat.add_zero]
  congr 1
  exact downLoop_congr _ _ _ (fun i _ => by rw [Nat.add_right_comm, ← Nat.add_assoc]) _

theorem Col.yh_zero (c : Col) :
    c.yh 0 = downLoop c.n (fun k => stepOf (c.Y k) (c.t k)) (c.Y c.n) := by
  simp [Col.yh]

theorem forward_eq (c : Col) : forward c = (c.Y0 - c.yh 0) / (c.Y0 + c.yh 0) := by
  rw [Col.yh_zero]; rfl

/-! ## Hyperbolic functions -/

theorem cosh_ne_zero_of_re {z : ℂ} (h : z.re ≠ 0) : Complex.cosh z ≠ 0 := by
  intro e
  rw [Complex.cosh, div_eq_zero_iff] at e
  have e := e.resolve_right (by norm_num)
  have e2 : Complex.exp z = -Complex.exp (-z) := eq_neg_of_add_eq_zero_left e
  have e3 := congrArg norm e2
  rw [norm_neg, Complex.norm_exp, Complex.norm_exp, Real.exp_eq_exp, Complex.neg_re] at e3
  exact h (by linarith)

theorem cosh_ne_zero_of_pos {u : ℂ} (hu : 0 < u.re) {h : ℝ} (hh : 0 ≤ h) : Complex.cosh (u * h) ≠ 0 := by
  rcases hh.eq_or_lt with h0 | h0
  · rw [← h0]; simp
  · apply cosh_ne_zero_of_re
    simp only [mul_re, ofReal_re, ofReal_im, mul_zero, sub_zero]
    positivity

/-- Two thicknesses add. -/
theorem stepOf_add {Y u y : ℂ} {h1 h2 : ℝ} (hY : Y ≠ 0)
    (c1 : Complex.cosh (u * h1) ≠ 0) (c2 : Complex.cosh (u * h2) ≠ 0)
    (c12 : Complex.cosh (u * (h1 + h2 : ℝ)) ≠ 0)
    (d2 : Y + y * tanhOf u h2 ≠ 0) (d1 : Y + stepOf Y (tanhOf u h2) y * tanhOf u h1 ≠ 0) :
    stepOf Y (tanhOf u h1) (stepOf Y (tanhOf u h2) y) = stepOf Y (tanhOf u (h1 + h2)) y := by
  have a : u * (h1 + h2 : ℝ) = u * h1 + u * h2 := by push_cast; ring
  simp only [tanhOf, stepOf, Complex.tanh_eq_sinh_div_cosh] at *
  rw [a, Complex.cosh_add] at c12
  rw [show u * (↑(h1 + h2) : ℂ) = u * h1 + u * h2 from a, Complex.sinh_add, Complex.cosh_add]
  clear a
  generalize Complex.cosh (u * h1) = C1 at *
  generalize Complex.cosh (u * h2) = C2 at *
  generalize Complex.sinh (u * h1) = S1 at *
  generalize Complex.sinh (u * h2) = S2 at *
  have D2 : Y * C2 + y * S2 ≠ 0 := by
    intro e; apply d2; field_simp; linear_combination e
  have D1 : Y * (C1 * C2 + S1 * S2) + y * (S1 * C2 + C1 * S2) ≠ 0 := by
    intro e; apply d1
    have : Y + Y * (y + Y * (S2 / C2)) / (Y + y * (S2 / C2)) * (S1 / C1) =
        Y * (Y * (C1 * C2 + S1 * S2) + y * (S1 * C2 + C1 * S2)) / (C1 * (Y * C2 + y * S2)) := by
      field_simp; ring
    rw [this, e]; simp
  have e1 : Y * (y + Y * (S2 / C2)) / (Y + y * (S2 / C2)) = Y * (y * C2 + Y * S2) / (Y * C2 + y * S2) := by
    field_simp
  have e3 : Y * (y + Y * ((S1 * C2 + C1 * S2) / (C1 * C2 + S1 * S2))) /
      (Y + y * ((S1 * C2 + C1 * S2) / (C1 * C2 + S1 * S2))) =
      Y * (y * (C1 * C2 + S1 * S2) + Y * (S1 * C2 + C1 * S2)) /
        (Y * (C1 * C2 + S1 * S2) + y * (S1 * C2 + C1 * S2)) := by
    generalize C1 * C2 + S1 * S2 = C at *
    generalize S1 * C2 + C1 * S2 = S at *
    field_simp
  rw [e1, e3]
  have D1' : Y * C1 * (Y * C2 + y * S2) + Y * (y * C2 + Y * S2) * S1 ≠ 0 := by
    intro e; apply D1
    have : Y * (Y * (C1 * C2 + S1 * S2) + y * (S1 * C2 + C1 * S2)) = 0 := by linear_combination e
    exact (mul_eq_zero.1 this).resolve_left hY
  have e4 : Y * (Y * (y * C2 + Y * S2) / (Y * C2 + y * S2) + Y * (S1 / C1)) /
      (Y + Y * (y * C2 + Y * S2) / (Y * C2 + y * S2) * (S1 / C1)) =
      Y * (Y * (y * C2 + Y * S2) * C1 + Y * S1 * (Y * C2 + y * S2)) /
        (Y * C1 * (Y * C2 + y * S2) + Y * (y * C2 + Y * S2) * S1) := by
    have : Y + Y * (y * C2 + Y * S2) / (Y * C2 + y * S2) * (S1 / C1) =
      (Y * C1 * (Y * C2 + y * S2) + Y * (y * C2 + Y * S2) * S1) / (C1 * (Y * C2 + y * S2)) := by
      field_simp
    rw [this]
    field_simp
  rw [e4, div_eq_div_iff D1' D1]
  ring

/-- A zero thickness does nothing. -/
theorem stepOf_zero {Y u y : ℂ} (hY : Y ≠ 0) : stepOf Y (tanhOf u 0) y = y := by
  simp only [stepOf, tanhOf, ofReal_zero, mul_zero, Complex.tanh_zero, add_zero]
  field_simp

/-- A layer on top of itself does nothing. -/
theorem stepOf_self {Y t : ℂ} (h : Y + Y * t ≠ 0) : stepOf Y t Y = Y := by
  simp only [stepOf]
  rw [div_eq_iff h]

/-! ## Passivity -/

section passive

variable {omega m lamb h : ℝ} {s u y : ℂ}

/-- The complex power flow `H conj E` through a layer, and its derivative with height. -/
theorem power_flow (hw : 0 < omega) (hm : 0 < m)
    (hu2 : u ^ 2 = (lamb ^ 2 : ℝ) + I * omega * m * s) (hu0 : u ≠ 0) :
    let Y := u / (I * omega * m)
    let E := fun z : ℝ => Complex.cosh (u * z) + y / Y * Complex.sinh (u * z)
    let H := fun z : ℝ => Y * Complex.sinh (u * z) + y * Complex.cosh (u * z)
    (∀ z : ℝ, HasDerivAt (fun z : ℝ => H z * star (E z))
      ((s - I * (lamb ^ 2 / (omega * m) : ℝ)) * (normSq (E z) : ℝ) - I * (omega * m : ℝ) * (normSq (H z) : ℝ)) z) ∧
    H 0 * star (E 0) = y := by
  intro Y E H
  have hw' : (omega : ℂ) ≠ 0 := ofReal_ne_zero.2 hw.ne'
  have hm' : (m : ℂ) ≠ 0 := ofReal_ne_zero.2 hm.ne'
  have hY : Y ≠ 0 := div_ne_zero hu0 (mul_ne_zero (mul_ne_zero I_ne_zero hw') hm')
  have hYu : u / Y = I * omega * m := by
    simp only [Y]; field_simp
  have hYu2 : Y * u = s - I * (lamb ^ 2 / (omega * m) : ℝ) := by
    have : Y * u = u ^ 2 / (I * omega * m) := by simp only [Y]; ring
    rw [this, hu2]
    push_cast
    field_simp
    linear_combination (lamb ^ 2 : ℂ) * I_sq
  refine ⟨fun z => ?_, ?_⟩
  · have hid : HasDerivAt (fun w : ℂ => u * w) u (z : ℂ) := by
      simpa using (hasDerivAt_id' (z : ℂ)).const_mul u
    have hc := hid.ccosh.comp_ofReal
    have hsn := hid.csinh.comp_ofReal
    have hE : HasDerivAt E (I * omega * m * H z) z := by
      refine (hc.add (hsn.const_mul (y / Y))).congr_deriv ?_
      simp only [H]
      rw [← hYu]
      field_simp
    have hH : HasDerivAt H (Y * u * E z) z := by
      refine ((hsn.const_mul Y).add (hc.const_mul y)).congr_deriv ?_
      simp only [E]
      field_simp
    refine (hH.mul hE.star).congr_deriv ?_
    rw [hYu2]
    have n1 : E z * star (E z) = (normSq (E z) : ℝ) := by
      rw [← Complex.mul_conj]; rfl
    have n2 : H z * star (H z) = (normSq (H z) : ℝ) := by
      rw [← Complex.mul_conj]; rfl
    have n3 : star (I * omega * m * H z) = -I * omega * m * star (H z) := by
      simp [star_mul']
    rw [n3]
    push_cast
    linear_combination (s - I * (lamb ^ 2 / (omega * m))) * n1 - I * omega * m * n2
  · simp [E, H]

/-- What the power flow says at height `h`: the power `P = H conj E` has at least the real part and at most the
imaginary part of what enters below, and the admittance above is `P / |E|²`. -/
theorem power_bounds (hw : 0 < omega) (hm : 0 < m) (hh : 0 ≤ h)
    (hu2 : u ^ 2 = (lamb ^ 2 : ℝ) + I * omega * m * s) (hur : 0 < u.re) (hs : 0 ≤ s.re) (y : ℂ) :
    let Y := u / (I * omega * m)
    ∃ P E : ℂ, y.re ≤ P.re ∧ (s.im ≤ 0 → P.im ≤ y.im) ∧ (E = 0 → P = 0) ∧
      (Y + y * tanhOf u h = Y * E / Complex.cosh (u * h)) ∧ Complex.cosh (u * h) ≠ 0 ∧ Y ≠ 0 ∧
      (E ≠ 0 → stepOf Y (tanhOf u h) y = P / (normSq E : ℝ)) := by
  intro Y
  have hu0 : u ≠ 0 := by rintro rfl; simp at hur
  have hw' : (omega : ℂ) ≠ 0 := ofReal_ne_zero.2 hw.ne'
  have hm' : (m : ℂ) ≠ 0 := ofReal_ne_zero.2 hm.ne'
  have hY : Y ≠ 0 := div_ne_zero hu0 (mul_ne_zero (mul_ne_zero I_ne_zero hw') hm')
  have hc := cosh_ne_zero_of_pos hur hh
  obtain ⟨hd, h0⟩ := power_flow (y := y) hw hm hu2 hu0
  set E := fun z : ℝ => Complex.cosh (u * z) + y / Y * Complex.sinh (u * z) with hE
  set H := fun z : ℝ => Y * Complex.sinh (u * z) + y * Complex.cosh (u * z) with hH
  have hre : ∀ z : ℝ, HasDerivAt (fun z : ℝ => (H z * star (E z)).re) (s.re * normSq (E z)) z := by
    intro z
    refine (Complex.reCLM.hasFDerivAt.comp_hasDerivAt z (hd z)).congr_deriv ?_
    simp [Complex.sub_re, Complex.mul_re, -ofReal_pow, -ofReal_div, -ofReal_mul]
  have him : ∀ z : ℝ, HasDerivAt (fun z : ℝ => -(H z * star (E z)).im)
      ((lamb ^ 2 / (omega * m) - s.im) * normSq (E z) + omega * m * normSq (H z)) z := by
    intro z
    refine (Complex.imCLM.hasFDerivAt.comp_hasDerivAt z (hd z)).neg.congr_deriv ?_
    simp [Complex.sub_im, Complex.mul_im, -ofReal_pow, -ofReal_div, -ofReal_mul]
    ring
  have m1 := monotone_of_hasDerivAt_nonneg hre (fun z => mul_nonneg hs (normSq_nonneg _)) hh
  refine ⟨H h * star (E h), E h, ?_, ?_, ?_, ?_, hc, hY, ?_⟩
  · have := congrArg Complex.re h0
    rw [← this]; exact m1
  · intro hsi
    have m2 := monotone_of_hasDerivAt_nonneg him (fun z => by
      have h1 := normSq_nonneg (E z)
      have h2 := normSq_nonneg (H z)
      have h3 : 0 ≤ lamb ^ 2 / (omega * m) - s.im := by
        have : 0 ≤ lamb ^ 2 / (omega * m) := by positivity
        linarith
      have h4 : 0 ≤ omega * m := by positivity
      exact add_nonneg (mul_nonneg h3 h1) (mul_nonneg h4 h2)) hh
    have := congrArg Complex.im h0
    rw [← this]
    exact neg_le_neg_iff.1 m2
  · intro e; rw [e]; simp
  · simp only [hE, tanhOf, Complex.tanh_eq_sinh_div_cosh]
    field_simp
  · intro hne
    have n1 : E h * star (E h) = (normSq (E h) : ℝ) := by
      rw [← Complex.mul_conj]; rfl
    have n0 : star (E h) ≠ 0 := star_ne_zero.2 hne
    rw [← n1, mul_div_mul_right _ _ n0]
    have hne' : Complex.cosh (u * h) + y / Y * Complex.sinh (u * h) ≠ 0 := hne
    have hd : Y + y * (Complex.sinh (u * h) / Complex.cosh (u * h)) =
        Y * (Complex.cosh (u * h) + y / Y * Complex.sinh (u * h)) / Complex.cosh (u * h) := by
      field_simp
    simp only [hE, hH, stepOf, tanhOf, Complex.tanh_eq_sinh_div_cosh]
    rw [hd]
    generalize hD : Complex.cosh (u * h) + y / Y * Complex.sinh (u * h) = D at *
    field_simp
    ring

end passive

end Verif.RTE
