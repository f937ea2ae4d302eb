import Verif.Props.FdemLayered
import Verif.Lemmas.Grad
import Verif.Lemmas.BesselJ
import Mathlib.Analysis.SpecialFunctions.ExpDeriv

/-! # The field over a layered earth as a superposition of partial waves (C79) -/

namespace Verif.Fdem

open Spatial

variable (mu0 : ℝ) (s : LayeredDipole)

/-- Horizontal distance from the source. -/
noncomputable def offsetTo (s : LayeredDipole) (p : V3 ℝ) : ℝ :=
  Real.sqrt ((p.x - s.location.x) ^ 2 + (p.y - s.location.y) ^ 2)

/-- The potential above ground of the reflected partial wave with wave number `lambd`, for the pair of functions `J0`, `J1`. -/
noncomputable def partialWave (J0 J1 : ℝ → ℝ) (mu0 : ℝ) (s : LayeredDipole) (lambd : ℝ) (p : V3 ℝ) : ℂ :=
  let rho := offsetTo s p
  ((s.moment / (4 * Real.pi) : ℝ) : ℂ) * s.rTE mu0 lambd *
    ((lambd * Real.exp (-lambd * (p.z + s.location.z)) * (s.orientation.z * J0 (lambd * rho) -
      (s.orientation.x * (p.x - s.location.x) + s.orientation.y * (p.y - s.location.y)) / rho * J1 (lambd * rho)) : ℝ) : ℂ)

/-- The one tap that picks out the wave number `lambd` at the point `p`. -/
noncomputable def tapAt (J0 J1 : ℝ → ℝ) (s : LayeredDipole) (lambd : ℝ) (p : V3 ℝ) : Tap :=
  ⟨lambd * offsetTo s p, offsetTo s p * J0 (lambd * offsetTo s p), offsetTo s p * J1 (lambd * offsetTo s p)⟩

theorem hasGrad_offsetTo (p : V3 ℝ) (hp : p.x ≠ s.location.x ∨ p.y ≠ s.location.y) :
    HasGrad (offsetTo s) ⟨(p.x - s.location.x) / offsetTo s p, (p.y - s.location.y) / offsetTo s p, 0⟩ p := by
  intro v
  have h := hasDerivAt_offset (p.x - s.location.x) (p.y - s.location.y) v.x v.y (by simpa [sub_ne_zero] using hp)
  have e : (fun t : ℝ => offsetTo s (p + t • v)) =
      fun t : ℝ => Real.sqrt ((p.x - s.location.x + t * v.x) ^ 2 + (p.y - s.location.y + t * v.y) ^ 2) := by
    funext t
    simp only [offsetTo, V3.add_x, V3.add_y, V3.smul_x, V3.smul_y, smul_eq_mul]
    congr 2 <;> ring
  rw [e]
  refine h.congr_deriv ?_
  simp only [V3.app, smul_eq_mul, offsetTo]
  ring

/-- The coefficients applied to one tap: the field of one partial wave. -/
theorem fieldAt_one (J0 J1 : ℝ → ℝ) {lambd : ℝ} (p : V3 ℝ) (hp : p.x ≠ s.location.x ∨ p.y ≠ s.location.y) :
    let x := p.x - s.location.x
    let y := p.y - s.location.y
    let rho := offsetTo s p
    let m := s.orientation
    let md := m.x * x + m.y * y
    let e := Real.exp (-lambd * (p.z + s.location.z))
    let j0 := J0 (lambd * rho)
    let j1 := J1 (lambd * rho)
    s.fieldAt [tapAt J0 J1 s lambd p] mu0 p "secondary" = (((s.moment / (4 * Real.pi) : ℝ) : ℂ) * s.rTE mu0 lambd) •
      ofReal ⟨e * (md * x / rho ^ 2 * lambd ^ 2 * j0 + ((m.x / rho - 2 * md * x / rho ^ 3) * lambd + m.z * x / rho * lambd ^ 2) * j1),
        e * (md * y / rho ^ 2 * lambd ^ 2 * j0 + ((m.y / rho - 2 * md * y / rho ^ 3) * lambd + m.z * y / rho * lambd ^ 2) * j1),
        e * (m.z * lambd ^ 2 * j0 - md / rho * lambd ^ 2 * j1)⟩ := by
  have hr : 0 < offsetTo s p := offset_pos hp
  have hr0 : ((offsetTo s p : ℝ) : ℂ) ≠ 0 := by exact_mod_cast hr.ne'
  intro x y rho m md e j0 j1
  simp only [LayeredDipole.fieldAt, if_neg (show ¬ ("secondary" = "total") by decide), coefficients_eq, transform, List.map_cons,
    List.map_nil, List.sum_cons, List.sum_nil, add_zero, tapAt, V3.sub_x, V3.sub_y]
  rw [show Real.sqrt ((p.x - s.location.x) ^ 2 + (p.y - s.location.y) ^ 2) = offsetTo s p from rfl, mul_div_cancel_right₀ _ hr.ne']
  simp only [md, rho, x, y, e, j0, j1, m]
  generalize offsetTo s p = r at *
  generalize s.rTE mu0 lambd = R
  ext <;> simp only [ofReal, V3.map_x, V3.map_y, V3.map_z, V3.smul_x, V3.smul_y, V3.smul_z, smul_eq_mul] <;> push_cast <;> field_simp <;> ring

/-- With functions such that `J0' = -J1`, `J1' = J0 - J1/x`, one partial wave of the computed secondary field
is minus the gradient of the potential of that wave. -/
theorem wave_gradient_of (J0 J1 : ℝ → ℝ) (h0 : ∀ x, 0 < x → HasDerivAt J0 (-J1 x) x)
    (h1 : ∀ x, 0 < x → HasDerivAt J1 (J0 x - J1 x / x) x) {lambd : ℝ} (hl : 0 < lambd) (p : V3 ℝ)
    (hp : p.x ≠ s.location.x ∨ p.y ≠ s.location.y) :
    HasGrad (partialWave J0 J1 mu0 s lambd) (-(s.fieldAt [tapAt J0 J1 s lambd p] mu0 p "secondary")) p := by
  have hr : 0 < offsetTo s p := offset_pos hp
  have hrho := hasGrad_offsetTo s p hp
  have hlr : HasGrad (fun q => lambd * offsetTo s q) _ p := hrho.const_mul lambd
  have hj0 := HasGrad.comp (f := fun q => lambd * offsetTo s q) (h0 _ (mul_pos hl hr)) hlr
  have hj1 := HasGrad.comp (f := fun q => lambd * offsetTo s q) (h1 _ (mul_pos hl hr)) hlr
  have hinv := HasGrad.comp (hasDerivAt_inv hr.ne') hrho
  have hexp := HasGrad.comp (f := fun q => -lambd * (q.z + s.location.z)) (Real.hasDerivAt_exp _)
    (((hasGrad_z p).add (hasGrad_const s.location.z p)).const_mul (-lambd))
  have hmd := ((hasGrad_sub_x s.location p).const_mul s.orientation.x).add ((hasGrad_sub_y s.location p).const_mul s.orientation.y)
  have h := ((((hexp.const_mul lambd).mul ((hj0.const_mul s.orientation.z).sub ((hmd.mul hinv).mul hj1)))).ofReal).const_mul
    (((s.moment / (4 * Real.pi) : ℝ) : ℂ) * s.rTE mu0 lambd)
  have e : partialWave J0 J1 mu0 s lambd = fun q => (((s.moment / (4 * Real.pi) : ℝ) : ℂ) * s.rTE mu0 lambd) *
    ((lambd * Real.exp (-lambd * (q.z + s.location.z)) * (s.orientation.z * J0 (lambd * offsetTo s q) -
      (s.orientation.x * (q.x - s.location.x) + s.orientation.y * (q.y - s.location.y)) * (offsetTo s q)⁻¹ * J1 (lambd * offsetTo s q)) : ℝ) : ℂ) := by
    funext q
    simp only [partialWave, div_eq_mul_inv]
  rw [e]
  refine h.congr ?_
  rw [fieldAt_one s (mu0 := mu0) J0 J1 p hp]
  have hr0 : ((offsetTo s p : ℝ) : ℂ) ≠ 0 := by exact_mod_cast hr.ne'
  have hl0 : (lambd : ℂ) ≠ 0 := by exact_mod_cast hl.ne'
  generalize offsetTo s p = r at *
  generalize s.rTE mu0 lambd = R
  generalize J0 (lambd * r) = j0
  generalize J1 (lambd * r) = j1
  generalize Real.exp (-lambd * (p.z + s.location.z)) = E
  ext <;> simp [ofReal, -mul_eq_mul_left_iff] <;> field_simp <;> ring

/-- With functions such that `J0' = -J1`, `J1' = J0 - J1/x`, one partial wave of the computed secondary field has no divergence. -/
theorem wave_divergence_of (J0 J1 : ℝ → ℝ) (h0 : ∀ x, 0 < x → HasDerivAt J0 (-J1 x) x)
    (h1 : ∀ x, 0 < x → HasDerivAt J1 (J0 x - J1 x / x) x) {lambd : ℝ} (hl : 0 < lambd) (p : V3 ℝ)
    (hp : p.x ≠ s.location.x ∨ p.y ≠ s.location.y) :
    HasDiv (fun q => s.fieldAt [tapAt J0 J1 s lambd q] mu0 q "secondary") 0 p := by
  have hr : 0 < offsetTo s p := offset_pos hp
  have hrho := hasGrad_offsetTo s p hp
  have hlr : HasGrad (fun q => lambd * offsetTo s q) _ p := hrho.const_mul lambd
  have hj0 := HasGrad.comp (f := fun q => lambd * offsetTo s q) (h0 _ (mul_pos hl hr)) hlr
  have hj1 := HasGrad.comp (f := fun q => lambd * offsetTo s q) (h1 _ (mul_pos hl hr)) hlr
  have hinv := HasGrad.comp (hasDerivAt_inv hr.ne') hrho
  have hexp := HasGrad.comp (f := fun q => -lambd * (q.z + s.location.z)) (Real.hasDerivAt_exp _)
    (((hasGrad_z p).add (hasGrad_const s.location.z p)).const_mul (-lambd))
  have hx := hasGrad_sub_x s.location p
  have hy := hasGrad_sub_y s.location p
  have hmd := (hx.const_mul s.orientation.x).add (hy.const_mul s.orientation.y)
  have hi2 := hinv.mul hinv
  have hi3 := hi2.mul hinv
  have comp : ∀ (o : ℝ) (c : V3 ℝ → ℝ) (g : V3 ℝ), HasGrad c g p → HasGrad (fun q => Real.exp (-lambd * (q.z + s.location.z)) *
      ((s.orientation.x * (q.x - s.location.x) + s.orientation.y * (q.y - s.location.y)) * c q * ((offsetTo s q)⁻¹ * (offsetTo s q)⁻¹) * lambd ^ 2 *
        J0 (lambd * offsetTo s q) + ((o * (offsetTo s q)⁻¹ - 2 * (s.orientation.x * (q.x - s.location.x) + s.orientation.y * (q.y - s.location.y)) *
        c q * ((offsetTo s q)⁻¹ * (offsetTo s q)⁻¹ * (offsetTo s q)⁻¹)) * lambd + s.orientation.z * c q * (offsetTo s q)⁻¹ * lambd ^ 2) *
        J1 (lambd * offsetTo s q))) _ p := fun o c g hc =>
    hexp.mul (((((hmd.mul hc).mul hi2).mul_const (lambd ^ 2)).mul hj0).add
      ((((hinv.const_mul o).sub (((hmd.const_mul 2).mul hc).mul hi3)).mul_const lambd |>.add
        (((hc.const_mul s.orientation.z).mul hinv).mul_const (lambd ^ 2))).mul hj1))
  have hz := hexp.mul (((hj0.const_mul (s.orientation.z * lambd ^ 2))).sub (((hmd.mul hinv).mul_const (lambd ^ 2)).mul hj1))
  let K := ((s.moment / (4 * Real.pi) : ℝ) : ℂ) * s.rTE mu0 lambd
  have near : ∀ v : V3 ℝ, ∀ᶠ t in nhds (0 : ℝ), (p + t • v).x ≠ s.location.x ∨ (p + t • v).y ≠ s.location.y := by
    intro v
    have c1 : ContinuousAt (fun t : ℝ => (p + t • v).x) 0 := by simp only [V3.add_x, V3.smul_x, smul_eq_mul]; fun_prop
    have c2 : ContinuousAt (fun t : ℝ => (p + t • v).y) 0 := by simp only [V3.add_y, V3.smul_y, smul_eq_mul]; fun_prop
    rcases hp with h | h
    · exact (c1.eventually_ne (by simpa using h)).mono fun t ht => .inl ht
    · exact (c2.eventually_ne (by simpa using h)).mono fun t ht => .inr ht
  have X := ((comp s.orientation.x _ _ hx).ofReal.const_mul K).congr_of_lines
    (g := fun q => (s.fieldAt [tapAt J0 J1 s lambd q] mu0 q "secondary").x) fun v => (near v).mono fun t ht => by
      rw [fieldAt_one s (mu0 := mu0) J0 J1 _ ht]
      simp only [ofReal, V3.map_x, V3.smul_x, smul_eq_mul, K, Complex.coe_algebraMap]
      congr 2
      simp only [div_eq_mul_inv]
      ring
  have Y := ((comp s.orientation.y _ _ hy).ofReal.const_mul K).congr_of_lines
    (g := fun q => (s.fieldAt [tapAt J0 J1 s lambd q] mu0 q "secondary").y) fun v => (near v).mono fun t ht => by
      rw [fieldAt_one s (mu0 := mu0) J0 J1 _ ht]
      simp only [ofReal, V3.map_y, V3.smul_y, smul_eq_mul, K, Complex.coe_algebraMap]
      congr 2
      simp only [div_eq_mul_inv]
      ring
  have Z := (hz.ofReal.const_mul K).congr_of_lines
    (g := fun q => (s.fieldAt [tapAt J0 J1 s lambd q] mu0 q "secondary").z) fun v => (near v).mono fun t ht => by
      rw [fieldAt_one s (mu0 := mu0) J0 J1 _ ht]
      simp only [ofReal, V3.map_z, V3.smul_z, smul_eq_mul, K, Complex.coe_algebraMap]
      congr 2
  refine ⟨⟨_, _, _⟩, ⟨X, Y, Z⟩, ?_⟩
  clear X Y Z hz comp near hi3 hi2 hmd hy hx hexp hinv hj1 hj0 hlr hrho
  have hr0 : ((offsetTo s p : ℝ) : ℂ) ≠ 0 := by exact_mod_cast hr.ne'
  have hl0 : (lambd : ℂ) ≠ 0 := by exact_mod_cast hl.ne'
  have hsq : ((offsetTo s p : ℝ) : ℂ) ^ 2 = ((p.x - s.location.x : ℝ) : ℂ) ^ 2 + ((p.y - s.location.y : ℝ) : ℂ) ^ 2 := by
    norm_cast
    rw [offsetTo, Real.sq_sqrt (by positivity)]
  generalize K = K at *
  simp only [M3.trace, V3.map_x, V3.map_y, V3.map_z, V3.add_x, V3.add_y, V3.add_z, V3.sub_x, V3.sub_y, V3.sub_z, V3.zero_x, V3.zero_y,
    V3.zero_z, smul_eq_mul, Complex.coe_algebraMap]
  generalize offsetTo s p = r at *
  generalize J0 (lambd * r) = j0
  generalize J1 (lambd * r) = j1
  generalize p.x - s.location.x = x at *
  generalize p.y - s.location.y = y at *
  generalize Real.exp (-lambd * (p.z + s.location.z)) = E
  push_cast
  field_simp
  linear_combination (-(K * lambd * E * (-2 * (s.orientation.x * x + s.orientation.y * y) * lambd * r * j0 -
    lambd ^ 2 * r ^ 2 * j1 * (s.orientation.x * x + s.orientation.y * y) + 6 * (s.orientation.x * x + s.orientation.y * y) * j1 -
    lambd * r ^ 2 * s.orientation.z * j1 + (-2 * (s.orientation.x * x + s.orientation.y * y) + lambd * r ^ 2 * s.orientation.z) *
    (lambd * r * j0 - j1)))) * hsq

/-- **C79.** The secondary field is the sum over the taps of the filter of the fields of the single taps. -/
theorem layered_taps (p : V3 ℝ) (a : Tap) (filter : List Tap) :
    s.fieldAt [] mu0 p "secondary" = 0 ∧
    s.fieldAt (a :: filter) mu0 p "secondary" = s.fieldAt [a] mu0 p "secondary" + s.fieldAt filter mu0 p "secondary" := by
  simp only [LayeredDipole.fieldAt, if_neg (show ¬ ("secondary" = "total") by decide), transform, List.map_cons, List.map_nil, List.sum_cons,
    List.sum_nil, add_zero]
  constructor
  · ext <;> simp
  · ext <;> simp <;> ring

/-- **C79.** Each partial wave of the secondary field that the code computes, with the Bessel functions `J_0`, `J_1` of the Hankel
transforms for the weights, is off the axis of the source minus the gradient of the wave's potential, and has no divergence. -/
theorem layered_wave {lambd : ℝ} (hl : 0 < lambd) (p : V3 ℝ) (hp : p.x ≠ s.location.x ∨ p.y ≠ s.location.y) :
    HasGrad (partialWave besselJ0 besselJ1 mu0 s lambd) (-(s.fieldAt [tapAt besselJ0 besselJ1 s lambd p] mu0 p "secondary")) p ∧
    HasDiv (fun q => s.fieldAt [tapAt besselJ0 besselJ1 s lambd q] mu0 q "secondary") 0 p :=
  ⟨wave_gradient_of mu0 s _ _ (fun x _ => hasDerivAt_besselJ0 x) (fun _ hx => hasDerivAt_besselJ1 hx) hl p hp,
    wave_divergence_of mu0 s _ _ (fun x _ => hasDerivAt_besselJ0 x) (fun _ hx => hasDerivAt_besselJ1 hx) hl p hp⟩

/-- Non-vacuity: a tilted dipole over a two-layer earth. -/
example : HasDiv (fun q => (⟨100, 1, fun _ => 10, fun _ => 1, fun _ => 1, ⟨0, 0, 1⟩, ⟨1, 0, 1⟩, 2⟩ : LayeredDipole).fieldAt
    [tapAt besselJ0 besselJ1 ⟨100, 1, fun _ => 10, fun _ => 1, fun _ => 1, ⟨0, 0, 1⟩, ⟨1, 0, 1⟩, 2⟩ 3 q] 1 q "secondary") 0 ⟨1, 2, 3⟩ :=
  (layered_wave 1 ⟨100, 1, fun _ => 10, fun _ => 1, fun _ => 1, ⟨0, 0, 1⟩, ⟨1, 0, 1⟩, 2⟩ three_pos ⟨1, 2, 3⟩ (.inl (by norm_num))).2

end Verif.Fdem
