import Verif.Props.TimeFrequency
import Verif.Props.FdemPlaneWave
import Verif.Props.FdemHalfspace

/-! # C86, C87: plane waves, and sources on a halfspace, in the two domains -/

namespace Verif.Fdem

open Real Filter MeasureTheory Set
open Complex (I)
open scoped Topology

/-! ## C86: plane wave -/

namespace PlaneWave

variable (s : PlaneWave) (p : V3 ℝ)

/-- The transient plane wave with the attributes of the harmonic one, at the time `t`. -/
def pulse (t : ℝ) : Tdem.PlaneWave := ⟨⟨t, s.sigma, s.mu⟩, s.amplitude, s.orientation⟩

theorem eAmp_eq {mu sigma z t : ℝ} (hs : 0 < sigma) (hm : 0 < mu) (ht : 0 < t) :
    Tdem.PlaneWave.eAmp mu sigma t z = -z * √(mu * sigma) / 2 / √π * mom (-z * √(mu * sigma)) 1 t := by
  have hq2 : √(mu * sigma) ^ 2 = mu * sigma := sq_sqrt (by positivity)
  have e : (-z * √(mu * sigma)) ^ 2 / (4 * t) = (mu * sigma * z ^ 2) / (4 * t) := by rw [mul_pow, hq2]; ring
  rw [Tdem.PlaneWave.eAmp, mom, e, neg_div (4 * t)]
  have h1 := (sqrt_pos.2 ht).ne'
  have h2 := (sqrt_pos.2 pi_pos).ne'
  have h3 := ht.ne'
  field_simp

theorem bAmp_eq {mu sigma z t : ℝ} (hs : 0 < sigma) (hm : 0 < mu) (ht : 0 < t) :
    Tdem.PlaneWave.bAmp mu sigma t z = -(√(mu * sigma) / √π) * mom (-z * √(mu * sigma)) 0 t := by
  have hq2 : √(mu * sigma) ^ 2 = mu * sigma := sq_sqrt (by positivity)
  have e : (-z * √(mu * sigma)) ^ 2 / (4 * t) = (mu * sigma * z ^ 2) / (4 * t) := by rw [mul_pow, hq2]; ring
  rw [Tdem.PlaneWave.bAmp, mom, e, neg_div (4 * t)]
  have h1 := (sqrt_pos.2 ht).ne'
  have h2 := (sqrt_pos.2 pi_pos).ne'
  field_simp

/-- The transform of the profile of the electric field, below and above the level `z = 0`. -/
theorem eAmp_transform {mu sigma ω : ℝ} {κ : ℂ} (hs : 0 < sigma) (hm : 0 < mu) (hκ : |κ.im| ≤ κ.re) (hω : κ ^ 2 = I * ω)
    {z : ℝ} (hz : z < 0) :
    IsImpulse (fun t => Tdem.PlaneWave.eAmp mu sigma t z) ω (Complex.exp (√(mu * sigma) * κ * z)) ∧
    IsImpulse (fun t => Tdem.PlaneWave.eAmp mu sigma t (-z)) ω (-Complex.exp (√(mu * sigma) * κ * z)) := by
  have hq : 0 < √(mu * sigma) := sqrt_pos.2 (by positivity)
  have ha : 0 < -z * √(mu * sigma) := mul_pos (by linarith) hq
  have h := (isImpulse_of_integrable (ω := ω) (mom_integrable ha 0)).const_mul (-z * √(mu * sigma) / 2 / √π)
  have hpi : (√π : ℂ) ≠ 0 := by exact_mod_cast (sqrt_pos.2 pi_pos).ne'
  have hac : ((-z * √(mu * sigma) : ℝ) : ℂ) ≠ 0 := by exact_mod_cast ha.ne'
  have e1 : ((-z * √(mu * sigma) / 2 / √π : ℝ) : ℂ) * lap (mom (-z * √(mu * sigma)) (0 + 1)) (I * ω) =
      Complex.exp (√(mu * sigma) * κ * z) := by
    rw [← hω, zero_add, lap_mom_one ha hκ]
    rw [show -((-z * √(mu * sigma) : ℝ) : ℂ) * κ = √(mu * sigma) * κ * z by push_cast; ring]
    rw [Complex.ofReal_div, Complex.ofReal_div]
    generalize Complex.exp (√(mu * sigma) * κ * z) = X
    generalize ((-z * √(mu * sigma) : ℝ) : ℂ) = Y at *
    push_cast
    field_simp
  refine ⟨h.congr (fun t ht => eAmp_eq hs hm ht) e1, (h.const_mul (-1)).congr (fun t ht => ?_) ?_⟩
  · rw [eAmp_eq hs hm ht]
    have : mom (- -z * √(mu * sigma)) 1 t = mom (-z * √(mu * sigma)) 1 t := by
      rw [mom, mom]; congr 3; ring
    rw [this]; ring
  · rw [e1]; push_cast; ring

theorem bAmp_transform {mu sigma ω : ℝ} {κ : ℂ} (hs : 0 < sigma) (hm : 0 < mu) (hκ : |κ.im| ≤ κ.re) (hω : κ ^ 2 = I * ω)
    (h0 : κ ≠ 0) {z : ℝ} (hz : z < 0) :
    IsImpulse (fun t => Tdem.PlaneWave.bAmp mu sigma t z) ω (-(√(mu * sigma) / κ * Complex.exp (√(mu * sigma) * κ * z))) := by
  have hq : 0 < √(mu * sigma) := sqrt_pos.2 (by positivity)
  have ha : 0 < -z * √(mu * sigma) := mul_pos (by linarith) hq
  have hpi : (√π : ℂ) ≠ 0 := by exact_mod_cast (sqrt_pos.2 pi_pos).ne'
  refine ((isImpulse_mom_zero ha hκ hω h0).const_mul (-(√(mu * sigma) / √π))).congr (fun t ht => bAmp_eq hs hm ht) ?_
  rw [show -((-z * √(mu * sigma) : ℝ) : ℂ) * κ = √(mu * sigma) * κ * z by push_cast; ring]
  push_cast
  generalize Complex.exp (√(mu * sigma) * κ * z) = X
  field_simp

theorem timesTransform {f : ℝ → ℝ} {ω : ℝ} {F : ℂ} (h : IsImpulse f ω F) (v : V3 ℝ) (a : ℝ) :
    IsImpulseV (fun t => v.map fun c => c * (a * f t)) ω (v.map fun c : ℝ => (c : ℂ) * (a * F)) := by
  have key : ∀ c : ℝ, IsImpulse (fun t => c * (a * f t)) ω ((c:ℂ) * (a * F)) := fun c =>
    (h.const_mul (c * a)).congr (fun t _ => by ring) (by push_cast; ring)
  exact ⟨key v.x, key v.y, key v.z⟩

/-- **C86.** Below the level `z = 0`, where the downgoing wave has travelled, the harmonic electric field, current density, flux density
and magnetic field of a plane wave at any positive frequency are the Fourier transforms of the transients of the plane wave with the
same attributes. -/
theorem is_transform_of_pulse (hq : s.quasistatic = .bool true) (hf : 0 < s.frequency) (hs : 0 < s.sigma) (hm : 0 < s.mu)
    (hz : p.z < 0) :
    IsImpulseV (fun t => (s.pulse t).electricField p) s.omega (s.electricField p) ∧
    IsImpulseV (fun t => (s.pulse t).currentDensity p) s.omega (s.currentDensity p) ∧
    IsImpulseV (fun t => (s.pulse t).magneticFluxDensity p) s.omega (s.magneticFluxDensity p) ∧
    IsImpulseV (fun t => (s.pulse t).magneticField p) s.omega (s.magneticField p) := by
  obtain ⟨κ, hκ, hω, hk⟩ := wavenumber_root (epsilon := s.epsilon) hf.le hs hm
  have hk' : (√(s.mu * s.sigma) : ℂ) * κ = I * s.wavenumber := by rw [Medium.wavenumber, hq, hk]
  have hw : 0 < s.omega := by rw [Medium.omega, omega]; positivity
  have hwc : (s.omega : ℂ) ≠ 0 := by exact_mod_cast hw.ne'
  have hκ0 : κ ≠ 0 := fun h => by
    rw [h] at hω
    have : (I * (omega s.frequency : ℂ)) = 0 := by rw [← hω]; ring
    rcases mul_eq_zero.1 this with h | h
    · exact Complex.I_ne_zero h
    · exact hwc h
  have hE : IsImpulseV (fun t => (s.pulse t).electricField p) s.omega (s.electricField p) := by
    have h := timesTransform (eAmp_transform hs hm hκ hω hz).1 s.orientation s.amplitude
    rw [hk'] at h
    refine ⟨h.1.congr (fun t ht => ?_) ?_, h.2.1.congr (fun t ht => ?_) ?_, h.2.2.congr (fun t ht => ?_) ?_⟩
    · exact congrArg V3.x (Tdem.PlaneWave.electricField_eq (s.pulse t) p ht)
    · simp only [electricField, V3.map_x]; ring
    · exact congrArg V3.y (Tdem.PlaneWave.electricField_eq (s.pulse t) p ht)
    · simp only [electricField, V3.map_y]; ring
    · exact congrArg V3.z (Tdem.PlaneWave.electricField_eq (s.pulse t) p ht)
    · simp only [electricField, V3.map_z]; ring
  have hB : IsImpulseV (fun t => (s.pulse t).magneticFluxDensity p) s.omega (s.magneticFluxDensity p) := by
    have h := timesTransform (bAmp_transform hs hm hκ hω hκ0 hz) ⟨-s.orientation.y, s.orientation.x, 0⟩ s.amplitude
    have hb : (√(s.mu * s.sigma) : ℂ) / κ = s.wavenumber / s.omega := by
      rw [div_eq_div_iff hκ0 hwc]
      have h1 : (√(s.mu * s.sigma) : ℂ) * κ ^ 2 = I * s.wavenumber * κ := by rw [sq, ← mul_assoc, hk']
      rw [hω] at h1
      have h2 : I * (√(s.mu * s.sigma) * (s.omega : ℂ)) = I * (s.wavenumber * κ) := by
        rw [Medium.omega]; linear_combination h1
      exact mul_left_cancel₀ Complex.I_ne_zero h2
    rw [hk', hb] at h
    refine ⟨h.1.congr (fun t ht => ?_) ?_, h.2.1.congr (fun t ht => ?_) ?_, h.2.2.congr (fun t ht => ?_) ?_⟩
    · exact congrArg V3.x (Tdem.PlaneWave.magneticFluxDensity_eq (s.pulse t) p hs hm)
    · simp only [magneticFluxDensity, V3.map_x, V3.cross]; push_cast; ring_nf
    · exact congrArg V3.y (Tdem.PlaneWave.magneticFluxDensity_eq (s.pulse t) p hs hm)
    · simp only [magneticFluxDensity, V3.map_y, V3.cross]; push_cast; ring_nf
    · exact congrArg V3.z (Tdem.PlaneWave.magneticFluxDensity_eq (s.pulse t) p hs hm)
    · simp only [magneticFluxDensity, V3.map_z, V3.cross]; push_cast; ring_nf
  refine ⟨hE, ⟨hE.1.const_mul _, hE.2.1.const_mul _, hE.2.2.const_mul _⟩, hB, ?_⟩
  have hmc : (s.mu : ℂ) ≠ 0 := by exact_mod_cast hm.ne'
  have key : ∀ {f : ℝ → ℝ} {F : ℂ}, IsImpulse f s.omega F → IsImpulse (fun t => f t / s.mu) s.omega (F / s.mu) := fun h =>
    (h.const_mul (1 / s.mu)).congr (fun t _ => by ring) (by push_cast; ring)
  exact ⟨key hB.1, key hB.2.1, key hB.2.2⟩

/-- **C86.** Above that level the transient electric field is minus the one at the mirrored point, so its transform is minus the harmonic
field at the mirrored point, which decays upwards while the harmonic field itself grows. -/
theorem pulse_above (hq : s.quasistatic = .bool true) (hf : 0 < s.frequency) (hs : 0 < s.sigma) (hm : 0 < s.mu)
    (hz : 0 < p.z) :
    IsImpulseV (fun t => (s.pulse t).electricField p) s.omega (-(s.electricField ⟨p.x, p.y, -p.z⟩)) := by
  obtain ⟨κ, hκ, hω, hk⟩ := wavenumber_root (epsilon := s.epsilon) hf.le hs hm
  have hk' : (√(s.mu * s.sigma) : ℂ) * κ = I * s.wavenumber := by rw [Medium.wavenumber, hq, hk]
  have h := timesTransform (eAmp_transform hs hm hκ hω (z := -p.z) (by linarith)).2 s.orientation s.amplitude
  rw [hk', neg_neg] at h
  refine ⟨h.1.congr (fun t ht => ?_) ?_, h.2.1.congr (fun t ht => ?_) ?_, h.2.2.congr (fun t ht => ?_) ?_⟩
  · exact congrArg V3.x (Tdem.PlaneWave.electricField_eq (s.pulse t) p ht)
  · simp only [electricField, V3.map_x, V3.neg_x]; push_cast; ring
  · exact congrArg V3.y (Tdem.PlaneWave.electricField_eq (s.pulse t) p ht)
  · simp only [electricField, V3.map_y, V3.neg_y]; push_cast; ring
  · exact congrArg V3.z (Tdem.PlaneWave.electricField_eq (s.pulse t) p ht)
  · simp only [electricField, V3.map_z, V3.neg_z]; push_cast; ring

/-- Non-vacuity: a wave and a point with all hypotheses. -/
example : ∃ (s : PlaneWave) (p : V3 ℝ), s.quasistatic = .bool true ∧ 0 < s.frequency ∧ 0 < s.sigma ∧ 0 < s.mu ∧ p.z < 0 ∧
    s.electricField p ≠ 0 := by
  refine ⟨⟨⟨1, 1, 1, 0, .bool true⟩, 1, ⟨1, 0, 0⟩⟩, ⟨0, 0, -1⟩, rfl, one_pos, one_pos, one_pos, by norm_num, ?_⟩
  intro h
  have hx := congrArg V3.x h
  simp [electricField] at hx

end PlaneWave

/-! ## C87: horizontal loop and vertical magnetic dipole on a halfspace -/

section halfspace

variable {f sigma mu radius : ℝ}

theorem hasDerivAt_loopSlope (x : ℝ) :
    HasDerivAt (fun x => 3 * erf x - 2 * x / √π * (3 + 2 * x ^ 2) * exp (-x ^ 2))
      (2 / √π * (0 + 0 * x ^ 2 + 4 * x ^ 4 + 0 * x ^ 6) * exp (-x ^ 2)) x := by
  have h := hasDerivAt_symShape 3 x
  refine (h.congr_of_eventuallyEq (Eventually.of_forall fun y => ?_)).congr_deriv (by ring)
  ring

theorem hasDerivAt_dipoleSlope (x : ℝ) :
    HasDerivAt (fun x => 9 * erf x - 2 * x / √π * (9 + 6 * x ^ 2 + 4 * x ^ 4) * exp (-x ^ 2))
      (2 / √π * (0 + 0 * x ^ 2 + -8 * x ^ 4 + 8 * x ^ 6) * exp (-x ^ 2)) x := by
  have hpi : √π ≠ 0 := (sqrt_pos.2 pi_pos).ne'
  have h1 : HasDerivAt (fun x : ℝ => 9 + 6 * x ^ 2 + 4 * x ^ 4) (12 * x + 16 * x ^ 3) x := by
    refine ((((hasDerivAt_pow 2 x).const_mul 6).const_add 9).fun_add ((hasDerivAt_pow 4 x).const_mul 4)).congr_deriv ?_
    push_cast; ring
  have h2 := ((((hasDerivAt_id' x).const_mul 2).div_const √π).fun_mul h1).fun_mul (hasDerivAt_exp_neg_sq x)
  refine (((hasDerivAt_erf x).const_mul 9).fun_sub h2).congr_deriv ?_
  field_simp
  ring

theorem tendsto_gauss_poly (c0 c2 c4 : ℝ) : Tendsto (fun x : ℝ => 2 * x / √π * (c0 + c2 * x ^ 2 + c4 * x ^ 4) * exp (-x ^ 2)) atTop (𝓝 0) := by
  have h := (((tendsto_pow_mul_gauss 1).const_mul (2 / √π * c0)).add ((tendsto_pow_mul_gauss 3).const_mul (2 / √π * c2))).add
    ((tendsto_pow_mul_gauss 5).const_mul (2 / √π * c4))
  simp only [mul_zero, add_zero] at h
  refine h.congr fun x => ?_
  ring

/-- **C87.** The harmonic field at the centre of a horizontal loop on a halfspace, at any positive frequency, is the Fourier transform
of minus the time derivative of the transient there after switch-off. -/
theorem loop_is_transform (hf : 0 < f) (hs : 0 < sigma) (hm : 0 < mu) (ha : 0 < radius) (current turns : ℝ) :
    IsStepOff (fun t => Tdem.loopField t sigma mu radius current turns) (omega f) (loopField f sigma mu radius current turns false) ∧
    IsStepOff (fun t => Tdem.loopFlux t sigma mu radius current turns) (omega f) (loopFlux f sigma mu radius current turns false) := by
  obtain ⟨κ, hκ, hω, hk⟩ := wavenumber_root (epsilon := 0) hf.le hs hm
  have hw : 0 < omega f := by rw [omega]; positivity
  have hwc : (omega f : ℂ) ≠ 0 := by exact_mod_cast hw.ne'
  have hac : (radius : ℂ) ≠ 0 := by exact_mod_cast ha.ne'
  have hsc : (sigma : ℂ) ≠ 0 := by exact_mod_cast hs.ne'
  have hmc : (mu : ℂ) ≠ 0 := by exact_mod_cast hm.ne'
  have h := Tdem.stepOff_of_deriv_shape hs hm ha hκ hω hw.ne' 4 0 3 (turns * current / (mu * sigma * radius ^ 3)) hasDerivAt_loopSlope (by simp)
    (f := fun t => Tdem.loopField t sigma mu radius current turns) ?_ ?_ (Tdem.loopField_end hs hm ha)
  · have hk2 : wavenumber f sigma mu 0 (.bool true) ^ 2 = -I * omega f * mu * sigma := by
      rw [wavenumber]; simp only [Flag.isTrue, if_true]; exact csqrt_sq _
    have hsq : Complex.sqrt (-I * ((2 * π * f : ℝ) : ℂ) * mu * sigma) = wavenumber f sigma mu 0 (.bool true) := by
      rw [wavenumber]; simp only [Flag.isTrue, if_true, omega]
    have hu : (radius : ℂ) * √(mu * sigma) * κ = I * wavenumber f sigma mu 0 (.bool true) * radius := by rw [mul_assoc, hk]; ring
    have hF : IsStepOff (fun t => Tdem.loopField t sigma mu radius current turns) (omega f)
        (loopField f sigma mu radius current turns false) := by
      refine h.congr (fun _ _ => rfl) ?_
      simp only [loopField, Bool.false_eq_true, if_false]
      push_cast at hsq ⊢
      rw [hsq, hu]
      generalize wavenumber f sigma mu 0 (.bool true) = k at *
      rw [show -I * k * (radius : ℂ) = -(I * k * radius) by ring]
      generalize Complex.exp (-(I * k * radius)) = X
      have hu2 : (I * k * radius) ^ 2 = -(k ^ 2 * radius ^ 2) := by rw [mul_pow, mul_pow, Complex.I_sq]; ring
      rw [hu2, hk2]
      field_simp
      ring
    exact ⟨hF, hF.const_mul mu⟩
  · have h1 := (tendsto_erf_atTop.const_mul 3).sub (tendsto_gauss_poly 3 2 0)
    rw [mul_one, sub_zero] at h1
    refine h1.congr fun x => ?_
    ring
  · intro t ht
    refine (Tdem.loopField_hasDerivAt ht hs hm ha).congr_deriv ?_
    simp only [Tdem.loopFieldTimeDeriv, Tdem.loopFluxTimeDeriv]
    generalize erf (Tdem.theta t sigma mu * radius) = E
    generalize exp (-(Tdem.theta t sigma mu * radius) ^ 2) = X
    have := (sqrt_pos.2 pi_pos).ne'
    field_simp

/-- **C87.** The vertical component of the harmonic field of a vertical magnetic dipole on a halfspace is the Fourier transform of minus
the time derivative of the transient of the same dipole after switch-off. -/
theorem dipole_is_transform (iv kv : ℕ → ℂ → ℂ) {mu0 : ℝ} (hm : 0 < mu0) (s : HalfDipole) (hf : 0 < s.frequency) (hs : 0 < sigma)
    (hsig : s.sigmaHat = sigma) (ho : s.orientation = ⟨0, 0, 1⟩) (p : V3 ℝ) (hr : p.x ≠ s.location.x ∨ p.y ≠ s.location.y) :
    IsStepOff (fun t => ((⟨⟨t, sigma, mu0⟩, s.moment, s.location⟩ : Tdem.HalfspaceDipole).magneticField p.x p.y).z) (omega s.frequency)
      (s.magneticField iv kv mu0 p "total").z := by
  set x := p.x - s.location.x with hx
  set y := p.y - s.location.y with hy
  have hne : x ≠ 0 ∨ y ≠ 0 := by simpa [hx, hy, sub_ne_zero] using hr
  have hrp : 0 < √(x ^ 2 + y ^ 2) := by
    refine sqrt_pos.2 ?_
    rcases hne with h | h <;> positivity
  obtain ⟨κ, hκ, hω, hk⟩ := wavenumber_root (epsilon := 0) hf.le hs hm
  have hw : 0 < omega s.frequency := by rw [omega]; positivity
  have hwc : (omega s.frequency : ℂ) ≠ 0 := by exact_mod_cast hw.ne'
  have hac : (√(x ^ 2 + y ^ 2) : ℂ) ≠ 0 := by exact_mod_cast hrp.ne'
  have hsc : (sigma : ℂ) ≠ 0 := by exact_mod_cast hs.ne'
  have hmc : (mu0 : ℂ) ≠ 0 := by exact_mod_cast hm.ne'
  have hpc : (π : ℂ) ≠ 0 := by exact_mod_cast pi_ne_zero
  have h := Tdem.stepOff_of_deriv_shape hs hm hrp hκ hω hw.ne' (-8) 8 9 (-(s.moment / (4 * π) * (2 / (mu0 * sigma * √(x ^ 2 + y ^ 2) ^ 5))))
    hasDerivAt_dipoleSlope (by simp) (f := fun t => (Tdem.dipoleField t x y sigma mu0 s.moment).z) ?_ ?_ ?_
  · have hk2 : wavenumber s.frequency sigma mu0 0 (.bool true) ^ 2 = -I * omega s.frequency * mu0 * sigma := by
      rw [wavenumber]; simp only [Flag.isTrue, if_true]; exact csqrt_sq _
    have hsq : s.k mu0 = wavenumber s.frequency sigma mu0 0 (.bool true) := by
      rw [wavenumber, HalfDipole.k, hsig]; simp only [Flag.isTrue, if_true, omega]
    have hu : (√(x ^ 2 + y ^ 2) : ℂ) * √(mu0 * sigma) * κ = I * wavenumber s.frequency sigma mu0 0 (.bool true) * √(x ^ 2 + y ^ 2) := by
      rw [mul_assoc, hk]; ring
    refine h.congr (fun _ _ => rfl) ?_
    simp only [HalfDipole.magneticField, halfEm, ho, ← hx, ← hy, hsq, V3.smul_z, smul_eq_mul]
    rw [if_neg (by decide), if_neg (by simp), if_pos one_ne_zero]
    simp only [zero_add]
    push_cast
    rw [hu]
    generalize wavenumber s.frequency sigma mu0 0 (.bool true) = k at *
    generalize (√(x ^ 2 + y ^ 2) : ℂ) = r at *
    rw [show -I * k * r = -(I * k * r) by ring]
    generalize Complex.exp (-(I * k * r)) = X
    have hu2 : (I * k * r) ^ 2 = -(k ^ 2 * r ^ 2) := by rw [mul_pow, mul_pow, Complex.I_sq]; ring
    have hu3 : (I * k * r) ^ 3 = -(I * k ^ 3 * r ^ 3) := by rw [pow_succ, hu2]; ring
    have hk3 : k ^ 3 = k ^ 2 * k := by ring
    rw [hu3, hu2, hk3, hk2]
    have hI : I ≠ 0 := Complex.I_ne_zero
    field_simp
    ring
  · have h1 := (tendsto_erf_atTop.const_mul 9).sub (tendsto_gauss_poly 9 6 4)
    rw [mul_one, sub_zero] at h1
    exact h1
  · intro t ht
    refine (Tdem.dipoleField_hasDerivAt (moment := s.moment) ht hs hm hne).2.2.congr_deriv ?_
    have hq := Tdem.theta_sq ht hs hm
    have hth := Tdem.theta_pos ht hs hm
    simp only [Tdem.dipoleFieldTimeDeriv, V3.smul_z, smul_eq_mul]
    generalize √(x ^ 2 + y ^ 2) = r at *
    generalize erf (Tdem.theta t sigma mu0 * r) = E
    generalize exp (-(Tdem.theta t sigma mu0 * r) ^ 2) = X
    generalize Tdem.theta t sigma mu0 = th at *
    have := (sqrt_pos.2 pi_pos).ne'
    have e : mu0 = 4 * t * th ^ 2 / sigma := by rw [hq]; field_simp
    rw [e]
    field_simp
    ring
  · exact (Tdem.dipoleField_end hs hm hne).2.2

/-- Non-vacuity: the loop of radius one carries a field in both domains. -/
example : IsStepOff (fun t => Tdem.loopField t 1 1 1 1 1) (omega 1) (loopField 1 (1:ℝ) (1:ℝ) 1 1 1 false) :=
  (loop_is_transform one_pos one_pos one_pos one_pos 1 1).1

end halfspace

end Verif.Fdem
