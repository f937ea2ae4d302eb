import Verif.Lemmas.StepOff
import Verif.Props.FdemDipoles
import Verif.Props.TdemWholeSpace

/-! # C85: the transients and the harmonic fields in a whole space are each other's Fourier transforms -/

namespace Verif.Fdem

open Real Filter MeasureTheory Set
open Complex (I)
open scoped Topology

/-- The quasistatic wavenumber is `√(iω)` up to the factor `-i √(μσ)`. -/
theorem wavenumber_root {f sigma mu epsilon : ℝ} (hf : 0 ≤ f) (hs : 0 < sigma) (hm : 0 < mu) :
    ∃ κ : ℂ, |κ.im| ≤ κ.re ∧ κ ^ 2 = I * omega f ∧
      √(mu * sigma) * κ = I * wavenumber f sigma mu epsilon (.bool true) := by
  have hq : 0 < √(mu * sigma) := sqrt_pos.2 (by positivity)
  have hq2 : √(mu * sigma) ^ 2 = mu * sigma := sq_sqrt (by positivity)
  have hqc : (√(mu * sigma) : ℂ) ≠ 0 := by exact_mod_cast hq.ne'
  have hk2 : wavenumber f sigma mu epsilon (.bool true) ^ 2 = -I * omega f * mu * sigma := by
    rw [wavenumber]; simp only [Flag.isTrue, if_true]; exact csqrt_sq _
  refine ⟨I * wavenumber f sigma mu epsilon (.bool true) / √(mu * sigma), ?_, ?_, by field_simp⟩
  · rcases hf.eq_or_lt with rfl | hf
    · have : wavenumber 0 sigma mu epsilon (.bool true) = 0 := by
        have := hk2; simp [omega] at this; exact this
      simp [this]
    · have him := (wavenumber_quadrant (epsilon := epsilon) hf hs hm (.bool true))
      generalize wavenumber f sigma mu epsilon (.bool true) = k at *
      have hre : (k ^ 2).re = 0 := by rw [hk2]; simp
      have e : (k ^ 2).re = (k.re - k.im) * (k.re + k.im) := by simp [sq]; ring
      rw [e] at hre
      have hz : k.re + k.im = 0 := by
        rcases mul_eq_zero.1 hre with h | h
        · linarith [him.1, him.2]
        · exact h
      rw [Complex.div_ofReal_im, Complex.div_ofReal_re]
      have e1 : (I * k).im = k.re := by simp
      have e2 : (I * k).re = -k.im := by simp
      rw [e1, e2, abs_of_pos (div_pos him.1 hq)]
      refine div_le_div_of_nonneg_right ?_ hq.le
      linarith
  · have hqc2 : (√(mu * sigma) : ℂ) ^ 2 = mu * sigma := by exact_mod_cast hq2
    rw [div_pow, mul_pow, hk2, hqc2, Complex.I_sq]
    have : (mu : ℂ) ≠ 0 := by exact_mod_cast hm.ne'
    have : (sigma : ℂ) ≠ 0 := by exact_mod_cast hs.ne'
    field_simp

/-- The transient source with the attributes of the harmonic one, at the time `t`. -/
def ElectricDipole.switchedOff (s : ElectricDipole) (t : ℝ) : Tdem.ElectricDipole :=
  ⟨⟨t, s.sigma, s.mu⟩, s.location, s.orientation, s.length, s.current⟩

section shapes

variable {sigma mu r ω : ℝ} {κ : ℂ}

theorem stepOff_P (hs : 0 < sigma) (hm : 0 < mu) (hr : 0 < r) (hκ : |κ.im| ≤ κ.re) (hω : κ ^ 2 = I * ω) :
    IsStepOff (fun t => erf (Tdem.theta t sigma mu * r)) ω (Complex.exp (-(r * √(mu * sigma) * κ))) := by
  refine (Tdem.stepOff_shape hs hm hr hκ hω 1 0 0 0 (g := erf) (fun x => (hasDerivAt_erf x).congr_deriv (by ring)) erf_zero).congr
    (fun _ _ => rfl) (by push_cast; ring)

theorem stepOff_G (hs : 0 < sigma) (hm : 0 < mu) (hr : 0 < r) (hκ : |κ.im| ≤ κ.re) (hω : κ ^ 2 = I * ω) :
    IsStepOff (fun t => erfRest (Tdem.theta t sigma mu * r)) ω
      ((r * √(mu * sigma) * κ + 1) * Complex.exp (-(r * √(mu * sigma) * κ))) := by
  refine (Tdem.stepOff_shape hs hm hr hκ hω 0 2 0 0 (g := erfRest)
    (fun x => (hasDerivAt_erfRest x).congr_deriv (by ring)) erfRest_zero).congr (fun _ _ => rfl) (by push_cast; ring)

theorem hasDerivAt_symShape (c x : ℝ) :
    HasDerivAt (fun x => c * erf x - (4 * x ^ 2 + 2 * c) * (x / √π * exp (-x ^ 2)))
      (2 / √π * (0 + 2 * (c - 3) * x ^ 2 + 4 * x ^ 4 + 0 * x ^ 6) * exp (-x ^ 2)) x := by
  have hpi : √π ≠ 0 := (sqrt_pos.2 pi_pos).ne'
  have h1 : HasDerivAt (fun x : ℝ => 4 * x ^ 2 + 2 * c) (8 * x) x := by
    refine (((hasDerivAt_pow 2 x).const_mul 4).add_const _).congr_deriv ?_
    push_cast; ring
  have h2 := ((hasDerivAt_id' x).div_const √π).fun_mul (hasDerivAt_exp_neg_sq x)
  refine (((hasDerivAt_erf x).const_mul c).fun_sub (h1.fun_mul h2)).congr_deriv ?_
  field_simp
  ring

theorem stepOff_A (hs : 0 < sigma) (hm : 0 < mu) (hr : 0 < r) (hκ : |κ.im| ≤ κ.re) (hω : κ ^ 2 = I * ω) (c : ℝ) :
    IsStepOff (fun t => c * erf (Tdem.theta t sigma mu * r) - (4 * (Tdem.theta t sigma mu * r) ^ 2 + 2 * c) *
        (Tdem.theta t sigma mu * r / √π * exp (-(Tdem.theta t sigma mu * r) ^ 2))) ω
      ((c + c * (r * √(mu * sigma) * κ) + (r * √(mu * sigma) * κ) ^ 2) * Complex.exp (-(r * √(mu * sigma) * κ))) := by
  refine (Tdem.stepOff_shape hs hm hr hκ hω 0 (2 * (c - 3)) 4 0 (g := fun x => c * erf x - (4 * x ^ 2 + 2 * c) * (x / √π * exp (-x ^ 2)))
    (hasDerivAt_symShape c) (by simp)).congr (fun _ _ => rfl) (by push_cast; ring)

end shapes

namespace ElectricDipole

variable (s : ElectricDipole) (p : V3 ℝ)

/-- **C85.** In the quasistatic setting the harmonic vector potential, electric field, current density, magnetic field and flux
density of an electric dipole at any frequency are the Fourier transforms of minus the time derivatives of the transients of the
same dipole after switch-off, at every point off the source. -/
theorem is_transform_of_transient (hq : s.quasistatic = .bool true) (hf : 0 ≤ s.frequency) (hs : 0 < s.sigma) (hm : 0 < s.mu)
    (hp : p ≠ s.location) :
    IsStepOffV (fun t => (s.switchedOff t).vectorPotential p) s.omega (s.vectorPotential p) ∧
    IsStepOffV (fun t => (s.switchedOff t).electricField p) s.omega (s.electricField p) ∧
    IsStepOffV (fun t => (s.switchedOff t).currentDensity p) s.omega (s.currentDensity p) ∧
    IsStepOffV (fun t => (s.switchedOff t).magneticField p) s.omega (s.magneticField p) ∧
    IsStepOffV (fun t => (s.switchedOff t).magneticFluxDensity p) s.omega (s.magneticFluxDensity p) := by
  obtain ⟨κ, hκ, hω, hk⟩ := wavenumber_root (epsilon := s.epsilon) hf hs hm
  have hr : 0 < (p - s.location).len := lt_of_le_of_ne (sqrt_nonneg _) (Ne.symm (V3.len_sub_ne_zero hp))
  have hu : ((p - s.location).len : ℂ) * √(s.mu * s.sigma) * κ = I * (s.wavenumber * (p - s.location).len) := by
    rw [Medium.wavenumber, hq, mul_assoc, hk]; ring
  have P := stepOff_P hs hm hr hκ hω
  have G := stepOff_G hs hm hr hκ hω
  have A := stepOff_A hs hm hr hκ hω 3
  have B := stepOff_A hs hm hr hκ hω 1
  rw [hu] at P G A B
  have hI2 : ∀ z : ℂ, (I * z) ^ 2 = -z ^ 2 := fun z => by rw [mul_pow, Complex.I_sq]; ring
  rw [hI2] at A B
  have hth : ∀ t, (s.switchedOff t).theta = Tdem.theta t s.sigma s.mu := fun _ => rfl
  have hrc : ((p - s.location).len : ℂ) ≠ 0 := by exact_mod_cast hr.ne'
  have hsc : (s.sigma : ℂ) ≠ 0 := by exact_mod_cast hs.ne'
  have hpi : (π : ℂ) ≠ 0 := by exact_mod_cast pi_ne_zero
  have hA : IsStepOffV (fun t => (s.switchedOff t).vectorPotential p) s.omega (s.vectorPotential p) := by
    have key : ∀ c : ℝ, IsStepOff (fun t => s.current * s.length / (4 * π * (p - s.location).len) *
        erf (Tdem.theta t s.sigma s.mu * (p - s.location).len) * c) s.omega
        (s.current * s.length / (4 * π * (p - s.location).len) * Complex.exp (-I * s.wavenumber * (p - s.location).len) * c) := by
      intro c
      refine (P.const_mul (s.current * s.length / (4 * π * (p - s.location).len) * c)).congr (fun t _ => by ring) ?_
      push_cast
      rw [show -I * s.wavenumber * ((p - s.location).len : ℂ) = -(I * (s.wavenumber * (p - s.location).len)) by ring]
      ring
    exact ⟨key s.orientation.x, key s.orientation.y, key s.orientation.z⟩
  have hH : IsStepOffV (fun t => (s.switchedOff t).magneticField p) s.omega (s.magneticField p) := by
    have key : ∀ c : ℝ, IsStepOff (fun t => s.current * s.length / (4 * π * (p - s.location).len ^ 2) *
        (erf (Tdem.theta t s.sigma s.mu * (p - s.location).len) - 2 / √π * (Tdem.theta t s.sigma s.mu * (p - s.location).len) *
          exp (-(Tdem.theta t s.sigma s.mu * (p - s.location).len) ^ 2)) * c) s.omega
        (s.current * s.length / (4 * π * (p - s.location).len ^ 2) * (I * (s.wavenumber * (p - s.location).len) + 1) *
          Complex.exp (-(I * (s.wavenumber * (p - s.location).len))) * c) := by
      intro c
      refine (G.const_mul (s.current * s.length / (4 * π * (p - s.location).len ^ 2) * c)).congr
        (fun t _ => by simp only [erfRest]; ring) ?_
      push_cast; ring
    exact ⟨key (s.orientation.cross ((p - s.location).map (· / (p - s.location).len))).x,
      key (s.orientation.cross ((p - s.location).map (· / (p - s.location).len))).y,
      key (s.orientation.cross ((p - s.location).map (· / (p - s.location).len))).z⟩
  have hE : IsStepOffV (fun t => (s.switchedOff t).electricField p) s.omega (s.electricField p) := by
    have key : ∀ b c : ℝ, IsStepOff (fun t => s.current * s.length / (4 * π * s.sigma * (p - s.location).len ^ 3) *
        ((3 * erf (Tdem.theta t s.sigma s.mu * (p - s.location).len) -
            (4 * (Tdem.theta t s.sigma s.mu * (p - s.location).len) ^ 2 + 6) * (Tdem.theta t s.sigma s.mu * (p - s.location).len / √π *
              exp (-(Tdem.theta t s.sigma s.mu * (p - s.location).len) ^ 2))) * b -
          (erf (Tdem.theta t s.sigma s.mu * (p - s.location).len) -
            (4 * (Tdem.theta t s.sigma s.mu * (p - s.location).len) ^ 2 + 2) * (Tdem.theta t s.sigma s.mu * (p - s.location).len / √π *
              exp (-(Tdem.theta t s.sigma s.mu * (p - s.location).len) ^ 2))) * c)) s.omega
        (s.current * s.length / (4 * π * s.sigma * (p - s.location).len ^ 3) * Complex.exp (-(I * (s.wavenumber * (p - s.location).len))) *
          ((-(s.wavenumber * (p - s.location).len) ^ 2 + 3 * (I * (s.wavenumber * (p - s.location).len)) + 3) * b +
            ((s.wavenumber * (p - s.location).len) ^ 2 - I * (s.wavenumber * (p - s.location).len) - 1) * c)) := by
      intro b c
      refine ((A.const_mul (s.current * s.length / (4 * π * s.sigma * (p - s.location).len ^ 3) * b)).add
        (B.const_mul (-(s.current * s.length / (4 * π * s.sigma * (p - s.location).len ^ 3) * c)))).congr (fun t _ => by ring) ?_
      push_cast; ring
    refine ⟨?_, ?_, ?_⟩
    · refine (key ((((p - s.location).map (· / (p - s.location).len)).dot s.orientation) * ((p - s.location).x / (p - s.location).len))
        s.orientation.x).congr (fun t _ => ?_) ?_
      · simp only [Tdem.ElectricDipole.electricField, switchedOff, Tdem.Medium.theta, V3.map_x, V3.sub_x]
      · simp only [electricField, V3.map_x, V3.add_x]; push_cast; ring
    · refine (key ((((p - s.location).map (· / (p - s.location).len)).dot s.orientation) * ((p - s.location).y / (p - s.location).len))
        s.orientation.y).congr (fun t _ => ?_) ?_
      · simp only [Tdem.ElectricDipole.electricField, switchedOff, Tdem.Medium.theta, V3.map_y, V3.sub_y]
      · simp only [electricField, V3.map_y, V3.add_y]; push_cast; ring
    · refine (key ((((p - s.location).map (· / (p - s.location).len)).dot s.orientation) * ((p - s.location).z / (p - s.location).len))
        s.orientation.z).congr (fun t _ => ?_) ?_
      · simp only [Tdem.ElectricDipole.electricField, switchedOff, Tdem.Medium.theta, V3.map_z, V3.sub_z]
      · simp only [electricField, V3.map_z, V3.add_z]; push_cast; ring
  exact ⟨hA, hE, ⟨hE.1.const_mul _, hE.2.1.const_mul _, hE.2.2.const_mul _⟩, hH,
    ⟨hH.1.const_mul _, hH.2.1.const_mul _, hH.2.2.const_mul _⟩⟩

/-- Non-vacuity: a dipole and a point with all hypotheses. -/
example : ∃ (s : ElectricDipole) (p : V3 ℝ), s.quasistatic = .bool true ∧ 0 ≤ s.frequency ∧ 0 < s.sigma ∧ 0 < s.mu ∧ p ≠ s.location ∧
    s.magneticField p ≠ 0 := by
  refine ⟨⟨⟨0, 1, 1, 0, .bool true⟩, 0, ⟨1, 0, 0⟩, 1, 1⟩, ⟨0, 1, 0⟩, rfl, le_rfl, one_pos, one_pos, by simp [V3.ext_iff], ?_⟩
  intro h
  have hz := congrArg V3.z h
  have hl : (⟨0, 1, 0⟩ : V3 ℝ).len = 1 := by simp [V3.len]
  have hw : wavenumber 0 1 1 0 (.bool true) = 0 := by
    have := csqrt_sq 0
    simp [wavenumber, omega, Flag.isTrue] at this ⊢
  simp [magneticField, hl, Medium.wavenumber, hw, pi_ne_zero, V3.cross] at hz

end ElectricDipole

end Verif.Fdem
