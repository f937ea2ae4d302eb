import Verif.Lemmas.OkadaCorner
import Mathlib.MeasureTheory.Integral.IntervalIntegral.FundThmCalculus

/-! # The four corner terms of Okada's formula add up to an integral over the fault (helper lemmas) -/

namespace Verif.Okada

open Real intervalIntegral

/-- The fundamental theorem in both variables. -/
theorem double_ftc {F E M : ℝ → ℝ → ℝ} {a1 a2 w1 w2 X p : ℝ}
    (hF : ∀ xi, ∀ et ∈ Set.uIcc (p - w2) (p - w1), HasDerivAt (fun e => F xi e) (E xi et) et)
    (hE : ∀ xi, ∀ et ∈ Set.uIcc (p - w2) (p - w1), HasDerivAt (fun x => E x et) (M xi et) xi)
    (cM : ∀ et ∈ Set.uIcc (p - w2) (p - w1), Continuous fun x => M x et)
    (cE : ∀ xi, ContinuousOn (fun e => E xi e) (Set.uIcc (p - w2) (p - w1))) :
    ∫ w in w1..w2, ∫ a in a1..a2, M (X - a) (p - w) =
      F (X - a1) (p - w1) - F (X - a2) (p - w1) - F (X - a1) (p - w2) + F (X - a2) (p - w2) := by
  have h1 : ∫ w in w1..w2, ∫ a in a1..a2, M (X - a) (p - w) = ∫ w in w1..w2, (fun e => E (X - a1) e - E (X - a2) e) (p - w) := by
    refine integral_congr fun w hw => ?_
    have hm : p - w ∈ Set.uIcc (p - w2) (p - w1) := by
      rw [Set.mem_uIcc] at hw ⊢
      rcases hw with h | h
      · left; constructor <;> linarith [h.1, h.2]
      · right; constructor <;> linarith [h.1, h.2]
    simp only
    rw [integral_comp_sub_left (fun x => M x (p - w)) X]
    exact integral_eq_sub_of_hasDerivAt (fun x _ => hE x _ hm) ((cM _ hm).intervalIntegrable _ _)
  rw [h1, integral_comp_sub_left (fun e => E (X - a1) e - E (X - a2) e) p, integral_sub ((cE _).intervalIntegrable)
    ((cE _).intervalIntegrable), integral_eq_sub_of_hasDerivAt (fun e he => hF _ e he) ((cE _).intervalIntegrable),
    integral_eq_sub_of_hasDerivAt (fun e he => hF _ e he) ((cE _).intervalIntegrable)]
  ring

namespace Corner

/-- The contribution of one corner for both slips, in the axes of the surface. -/
noncomputable def field (k : Corner) (s c m b1 b2 : ℝ) : V3 ℝ :=
  turned ((b1 / (2 * π)) • k.strikeSlip s c m + (b2 / (2 * π)) • k.dipSlip s c m) s c

noncomputable def fieldEt (k : Corner) (s c m b1 b2 : ℝ) : V3 ℝ :=
  turned ((b1 / (2 * π)) • k.strikeEt s c m + (b2 / (2 * π)) • k.dipEt s c m) s c

noncomputable def fieldMixed (k : Corner) (s c m b1 b2 : ℝ) : V3 ℝ :=
  turned ((b1 / (2 * π)) • k.strikeMixed s c m + (b2 / (2 * π)) • k.dipMixed s c m) s c

/-- A combination of derivatives. -/
theorem hasDerivAt_turned {f g : ℝ → V3 ℝ} {f' g' : V3 ℝ} {t a b s c : ℝ}
    (hf : HasDerivAt (fun x => (f x).x) f'.x t ∧ HasDerivAt (fun x => (f x).y) f'.y t ∧ HasDerivAt (fun x => (f x).z) f'.z t)
    (hg : HasDerivAt (fun x => (g x).x) g'.x t ∧ HasDerivAt (fun x => (g x).y) g'.y t ∧ HasDerivAt (fun x => (g x).z) g'.z t) :
    HasDerivAt (fun x => (turned (a • f x + b • g x) s c).x) (turned (a • f' + b • g') s c).x t ∧
    HasDerivAt (fun x => (turned (a • f x + b • g x) s c).y) (turned (a • f' + b • g') s c).y t ∧
    HasDerivAt (fun x => (turned (a • f x + b • g x) s c).z) (turned (a • f' + b • g') s c).z t := by
  obtain ⟨f1, f2, f3⟩ := hf
  obtain ⟨g1, g2, g3⟩ := hg
  simp only [turned, V3.add_x, V3.add_y, V3.add_z, V3.smul_x, V3.smul_y, V3.smul_z, smul_eq_mul]
  have h1 := (f1.const_mul a).fun_add (g1.const_mul b)
  have h2 := (f2.const_mul a).fun_add (g2.const_mul b)
  have h3 := (f3.const_mul a).fun_add (g3.const_mul b)
  exact ⟨h1, (h2.mul_const c).fun_sub (h3.mul_const s), (h2.mul_const s).fun_add (h3.mul_const c)⟩

theorem continuousOn_turned {f g : ℝ → V3 ℝ} {S : Set ℝ} {a b s c : ℝ}
    (hf : ContinuousOn (fun x => (f x).x) S ∧ ContinuousOn (fun x => (f x).y) S ∧ ContinuousOn (fun x => (f x).z) S)
    (hg : ContinuousOn (fun x => (g x).x) S ∧ ContinuousOn (fun x => (g x).y) S ∧ ContinuousOn (fun x => (g x).z) S) :
    ContinuousOn (fun x => (turned (a • f x + b • g x) s c).x) S ∧
    ContinuousOn (fun x => (turned (a • f x + b • g x) s c).y) S ∧
    ContinuousOn (fun x => (turned (a • f x + b • g x) s c).z) S := by
  obtain ⟨f1, f2, f3⟩ := hf
  obtain ⟨g1, g2, g3⟩ := hg
  simp only [turned, V3.add_x, V3.add_y, V3.add_z, V3.smul_x, V3.smul_y, V3.smul_z, smul_eq_mul]
  refine ⟨?_, ?_, ?_⟩ <;> fun_prop

variable {q s c m : ℝ}

theorem continuous_xi_u (et : ℝ) (hq : q ≠ 0) : Continuous fun x => ((⟨x, et, q⟩ : Corner).r)⁻¹ :=
  continuous_iff_continuousAt.2 fun _ => (deriv_xi_u hq).continuousAt

theorem continuous_xi_w {et : ℝ} (hq : q ≠ 0) (hd : 0 ≤ et * s - q * c) : Continuous fun x => ((⟨x, et, q⟩ : Corner).rd s c)⁻¹ :=
  continuous_iff_continuousAt.2 fun x => (deriv_xi_w hq (by
    have := r_pos (k := ⟨x, et, q⟩) hq
    change 0 < (⟨x, et, q⟩ : Corner).r + (et * s - q * c)
    linarith)).continuousAt

theorem continuous_strikeMixed {et : ℝ} (hq : q ≠ 0) (hd : 0 ≤ et * s - q * c) :
    ContinuousOn (fun x => ((⟨x, et, q⟩ : Corner).strikeMixed s c m).x) Set.univ ∧
    ContinuousOn (fun x => ((⟨x, et, q⟩ : Corner).strikeMixed s c m).y) Set.univ ∧
    ContinuousOn (fun x => ((⟨x, et, q⟩ : Corner).strikeMixed s c m).z) Set.univ := by
  have hu := continuous_xi_u et hq
  have hw := continuous_xi_w hq hd
  have ey : ∀ x, (⟨x, et, q⟩ : Corner).y s c = et * c + q * s := fun _ => rfl
  simp only [continuousOn_univ, strikeMixed, ey]
  refine ⟨?_, ?_, ?_⟩ <;> fun_prop

theorem continuous_dipMixed {et : ℝ} (hq : q ≠ 0) (hd : 0 ≤ et * s - q * c) :
    ContinuousOn (fun x => ((⟨x, et, q⟩ : Corner).dipMixed s c m).x) Set.univ ∧
    ContinuousOn (fun x => ((⟨x, et, q⟩ : Corner).dipMixed s c m).y) Set.univ ∧
    ContinuousOn (fun x => ((⟨x, et, q⟩ : Corner).dipMixed s c m).z) Set.univ := by
  have hu := continuous_xi_u et hq
  have hw := continuous_xi_w hq hd
  simp only [continuousOn_univ, dipMixed]
  refine ⟨?_, ?_, ?_⟩ <;> fun_prop

theorem continuousOn_strikeEt {xi : ℝ} {S : Set ℝ} (hq : q ≠ 0) (hd : ∀ e ∈ S, 0 ≤ e * s - q * c) :
    ContinuousOn (fun e => ((⟨xi, e, q⟩ : Corner).strikeEt s c m).x) S ∧
    ContinuousOn (fun e => ((⟨xi, e, q⟩ : Corner).strikeEt s c m).y) S ∧
    ContinuousOn (fun e => ((⟨xi, e, q⟩ : Corner).strikeEt s c m).z) S := by
  have hu : ContinuousOn (fun e => ((⟨xi, e, q⟩ : Corner).r)⁻¹) S := fun e _ => (deriv_et_inv_r hq).continuousAt.continuousWithinAt
  have hw : ContinuousOn (fun e => ((⟨xi, e, q⟩ : Corner).rd s c)⁻¹) S := fun e he => (deriv_et_inv_rd hq (by
    have := r_pos (k := ⟨xi, e, q⟩) hq
    have := hd e he
    change 0 < (⟨xi, e, q⟩ : Corner).r + (e * s - q * c)
    linarith)).continuousAt.continuousWithinAt
  have hE : ∀ e : ℝ, e ^ 2 + q ^ 2 ≠ 0 := fun e => by have := sq_nonneg e; have := sq_pos_of_ne_zero hq; positivity
  have ey : ∀ e, (⟨xi, e, q⟩ : Corner).y s c = e * c + q * s := fun _ => rfl
  simp only [strikeEt, ey]
  refine ⟨?_, ?_, ?_⟩ <;> fun_prop (disch := simp [hE])

theorem continuousOn_dipEt {xi : ℝ} {S : Set ℝ} (hq : q ≠ 0) (hd : ∀ e ∈ S, 0 ≤ e * s - q * c) :
    ContinuousOn (fun e => ((⟨xi, e, q⟩ : Corner).dipEt s c m).x) S ∧
    ContinuousOn (fun e => ((⟨xi, e, q⟩ : Corner).dipEt s c m).y) S ∧
    ContinuousOn (fun e => ((⟨xi, e, q⟩ : Corner).dipEt s c m).z) S := by
  have hu : ContinuousOn (fun e => ((⟨xi, e, q⟩ : Corner).r)⁻¹) S := fun e _ => (deriv_et_inv_r hq).continuousAt.continuousWithinAt
  have hv : ContinuousOn (fun e => ((⟨xi, e, q⟩ : Corner).r + xi)⁻¹) S := fun e _ =>
    (((deriv_et_r hq).add_const xi).inv (rxi_pos (k := ⟨xi, e, q⟩) hq).ne').continuousAt.continuousWithinAt
  have hw : ContinuousOn (fun e => ((⟨xi, e, q⟩ : Corner).rd s c)⁻¹) S := fun e he => (deriv_et_inv_rd hq (by
    have := r_pos (k := ⟨xi, e, q⟩) hq
    have := hd e he
    change 0 < (⟨xi, e, q⟩ : Corner).r + (e * s - q * c)
    linarith)).continuousAt.continuousWithinAt
  have hE : ∀ e : ℝ, e ^ 2 + q ^ 2 ≠ 0 := fun e => by have := sq_nonneg e; have := sq_pos_of_ne_zero hq; positivity
  simp only [dipEt]
  refine ⟨?_, ?_, ?_⟩ <;> fun_prop (disch := simp [hE])

open Elastic in
/-- The mixed derivative is Volterra's integrand. -/
theorem fieldMixed_eq (k : Corner) {s c lam mu b1 b2 : ℝ} (hr : 0 < k.r) (hsc : s ^ 2 + c ^ 2 = 1) (hrd : 0 < k.rd s c) (hmu : mu ≠ 0) :
    k.fieldMixed s c (mu / (lam + mu)) b1 b2 = dislocation lam mu ⟨b1, b2 * c, b2 * s⟩ ⟨0, -s, c⟩ (k.position s c) := by
  have hp : 0 < (k.position s c).len - (k.position s c).z := by
    rw [position_len k hsc]
    simpa [rd, position] using hrd
  have hbn : V3.dot ⟨b1, b2 * c, b2 * s⟩ (⟨0, -s, c⟩ : V3 ℝ) = 0 := by simp only [V3.dot]; ring
  have h1 := strike_dislocation (m := mu / (lam + mu)) k hr hsc hrd
  have h2 := dip_dislocation (m := mu / (lam + mu)) k hr hsc hrd
  simp only [dislocation, jac_surfaceForce_x lam mu hp, jac_surfaceForce_y lam mu hp, jac_surfaceForce_z lam mu hp,
    dot_traction lam mu _ _ _ _ hbn hmu rfl]
  have e : ∀ J : M3 ℝ, V3.dot ⟨b1, b2 * c, b2 * s⟩ (traction (stress 0 1 J) ⟨0, -s, c⟩) =
      b1 * V3.dot ⟨1, 0, 0⟩ (traction (stress 0 1 J) ⟨0, -s, c⟩) + b2 * V3.dot ⟨0, c, s⟩ (traction (stress 0 1 J) ⟨0, -s, c⟩) := by
    intro J; simp only [V3.dot]; ring
  have e2 : k.fieldMixed s c (mu / (lam + mu)) b1 b2 = (b1 / (2 * π)) • turned (k.strikeMixed s c (mu / (lam + mu))) s c +
      (b2 / (2 * π)) • turned (k.dipMixed s c (mu / (lam + mu))) s c := by
    ext <;> simp [fieldMixed, turned] <;> ring
  rw [e2, h1, h2]
  simp only [e]
  ext <;> simp only [V3.add_x, V3.add_y, V3.add_z, V3.smul_x, V3.smul_y, V3.smul_z, smul_eq_mul] <;> field_simp <;> ring

/-- The four corner terms are the integral over the fault, component by component in any direction. -/
theorem four_corners_along (v : V3 ℝ) {s c lam mu b1 b2 a1 a2 w1 w2 X Y : ℝ} (hsc : s ^ 2 + c ^ 2 = 1) (hmu : mu ≠ 0) (hY : Y ≠ 0) (hs : s ≠ 0)
    (hw1 : w1 * s ≤ 0) (hw2 : w2 * s ≤ 0) :
    let F := fun a w => (⟨X - a, Y * c - w, Y * s⟩ : Corner).field s c (mu / (lam + mu)) b1 b2
    v.dot (F a1 w1 - F a2 w1 - F a1 w2 + F a2 w2) =
      ∫ w in w1..w2, ∫ a in a1..a2, v.dot (Elastic.dislocation lam mu ⟨b1, b2 * c, b2 * s⟩ ⟨0, -s, c⟩
        ((⟨a, w * c, w * s⟩ : V3 ℝ) - ⟨X, Y, 0⟩)) := by
  intro F
  have hq : Y * s ≠ 0 := mul_ne_zero hY hs
  have hd : ∀ e ∈ Set.uIcc (Y * c - w2) (Y * c - w1), 0 ≤ e * s - Y * s * c := by
    intro e he
    have : Y * c - e ∈ Set.uIcc w1 w2 := by
      rw [Set.mem_uIcc] at he ⊢
      rcases he with h | h
      · left; constructor <;> linarith [h.1, h.2]
      · right; constructor <;> linarith [h.1, h.2]
    have h2 : (Y * c - e) * s ≤ 0 := by
      rw [Set.mem_uIcc] at this
      rcases lt_or_gt_of_ne hs with h | h
      · have g1 : 0 ≤ w1 := by nlinarith
        have g2 : 0 ≤ w2 := by nlinarith
        rcases this with t | t <;> nlinarith [t.1, t.2]
      · have g1 : w1 ≤ 0 := by nlinarith
        have g2 : w2 ≤ 0 := by nlinarith
        rcases this with t | t <;> nlinarith [t.1, t.2]
    linarith
  have hrd : ∀ x, ∀ e ∈ Set.uIcc (Y * c - w2) (Y * c - w1), 0 < (⟨x, e, Y * s⟩ : Corner).rd s c := by
    intro x e he
    have := r_pos (k := ⟨x, e, Y * s⟩) hq
    have := hd e he
    change 0 < (⟨x, e, Y * s⟩ : Corner).r + (e * s - Y * s * c)
    linarith
  have hF := fun xi et (he : et ∈ Set.uIcc (Y * c - w2) (Y * c - w1)) => hasDerivAt_turned (a := b1 / (2 * π)) (b := b2 / (2 * π)) (s := s)
    (c := c) (deriv_et_strike (m := mu / (lam + mu)) hq hsc (hrd xi et he)) (deriv_et_dip (m := mu / (lam + mu)) hq hsc (hrd xi et he))
  have hE := fun xi et (he : et ∈ Set.uIcc (Y * c - w2) (Y * c - w1)) => hasDerivAt_turned (a := b1 / (2 * π)) (b := b2 / (2 * π)) (s := s)
    (c := c) (deriv_xi_strikeEt (m := mu / (lam + mu)) hq (hrd xi et he)) (deriv_xi_dipEt (m := mu / (lam + mu)) hq (hrd xi et he))
  have cM := fun et (he : et ∈ Set.uIcc (Y * c - w2) (Y * c - w1)) => continuousOn_turned (a := b1 / (2 * π)) (b := b2 / (2 * π)) (s := s)
    (c := c) (continuous_strikeMixed (m := mu / (lam + mu)) hq (hd et he)) (continuous_dipMixed (m := mu / (lam + mu)) hq (hd et he))
  have cE := fun xi => continuousOn_turned (a := b1 / (2 * π)) (b := b2 / (2 * π)) (s := s)
    (c := c) (continuousOn_strikeEt (m := mu / (lam + mu)) (xi := xi) hq hd) (continuousOn_dipEt (m := mu / (lam + mu)) (xi := xi) hq hd)
  have hI : ∀ w ∈ Set.uIcc w1 w2, ∀ a, Elastic.dislocation lam mu ⟨b1, b2 * c, b2 * s⟩ ⟨0, -s, c⟩
      ((⟨a, w * c, w * s⟩ : V3 ℝ) - ⟨X, Y, 0⟩) = (⟨X - a, Y * c - w, Y * s⟩ : Corner).fieldMixed s c (mu / (lam + mu)) b1 b2 := by
    intro w hw a
    have he : Y * c - w ∈ Set.uIcc (Y * c - w2) (Y * c - w1) := by
      rw [Set.mem_uIcc] at hw ⊢
      rcases hw with h | h
      · left; constructor <;> linarith [h.1, h.2]
      · right; constructor <;> linarith [h.1, h.2]
    rw [fieldMixed_eq _ (r_pos hq) hsc (hrd _ _ he) hmu]
    congr 1
    ext
    · simp [position]
    · simp only [position, y, V3.sub_y]; linear_combination Y * hsc
    · simp only [position, d, V3.sub_z]; ring
  have hint : ∀ g : V3 ℝ → ℝ, (∫ w in w1..w2, ∫ a in a1..a2, g (Elastic.dislocation lam mu ⟨b1, b2 * c, b2 * s⟩ ⟨0, -s, c⟩
      ((⟨a, w * c, w * s⟩ : V3 ℝ) - ⟨X, Y, 0⟩))) =
      ∫ w in w1..w2, ∫ a in a1..a2, g ((⟨X - a, Y * c - w, Y * s⟩ : Corner).fieldMixed s c (mu / (lam + mu)) b1 b2) := by
    intro g
    refine integral_congr fun w hw => ?_
    simp only [hI w hw]
  have e : v.dot (F a1 w1 - F a2 w1 - F a1 w2 + F a2 w2) = v.dot (F a1 w1) - v.dot (F a2 w1) - v.dot (F a1 w2) + v.dot (F a2 w2) := by
    simp only [V3.dot, V3.add_x, V3.add_y, V3.add_z, V3.sub_x, V3.sub_y, V3.sub_z]; ring
  rw [e]
  refine ((hint v.dot).trans ?_).symm
  exact double_ftc (F := fun x e => v.dot ((⟨x, e, Y * s⟩ : Corner).field s c (mu / (lam + mu)) b1 b2))
    (E := fun x e => v.dot ((⟨x, e, Y * s⟩ : Corner).fieldEt s c (mu / (lam + mu)) b1 b2))
    (M := fun x e => v.dot ((⟨x, e, Y * s⟩ : Corner).fieldMixed s c (mu / (lam + mu)) b1 b2))
    (fun xi et he => (((hF xi et he).1.const_mul v.x).fun_add ((hF xi et he).2.1.const_mul v.y)).fun_add ((hF xi et he).2.2.const_mul v.z))
    (fun xi et he => (((hE xi et he).1.const_mul v.x).fun_add ((hE xi et he).2.1.const_mul v.y)).fun_add ((hE xi et he).2.2.const_mul v.z))
    (fun et he => continuousOn_univ.1 ((((cM et he).1.const_mul v.x).add ((cM et he).2.1.const_mul v.y)).add ((cM et he).2.2.const_mul v.z)))
    (fun xi => (((cE xi).1.const_mul v.x).add ((cE xi).2.1.const_mul v.y)).add ((cE xi).2.2.const_mul v.z))

end Corner

end Verif.Okada
