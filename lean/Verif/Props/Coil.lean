import Verif.Lemmas.Coil
import Verif.Props.FdemDipoles
import Verif.Props.FdemPlaneWave
import Verif.Props.TdemWholeSpace
import Verif.Props.StaticDipole
import Verif.Props.LineAmpere

/-!
# C135: Faraday's and Ampère's laws for coils

What a receiver coil measures: the voltage once around a plane coil is the rate of change of the flux through it, and the magnetic field once
around is the current through it. Coils are parallelograms in any position, and no flux and no current gets lost through the six faces of a
parallelepiped, also if the dipole is inside. -/

namespace Verif

open Coil
open Complex (I)

theorem flux_smul (c : ℂ) (F : V3 ℝ → V3 ℂ) (o u v : V3 ℝ) : flux (fun p => c • F p) o u v = c * flux F o u v := by
  rw [flux, flux, ← MeasureTheory.integral_const_mul]
  refine MeasureTheory.integral_congr_ae (Filter.Eventually.of_forall fun w => ?_)
  simp only [V3.app, V3.smul_x, V3.smul_y, V3.smul_z, smul_eq_mul, Complex.real_smul]
  ring

theorem flux_real_smul (c : ℝ) (F : V3 ℝ → V3 ℝ) (o u v : V3 ℝ) : flux (fun p => c • F p) o u v = c * flux F o u v := by
  rw [flux, flux, ← MeasureTheory.integral_const_mul]
  refine MeasureTheory.integral_congr_ae (Filter.Eventually.of_forall fun w => ?_)
  simp only [V3.app, V3.smul_x, V3.smul_y, V3.smul_z, smul_eq_mul]
  ring

theorem crateFlux_smul (c : ℂ) (F : V3 ℝ → V3 ℂ) (o u v w : V3 ℝ) : crateFlux (fun p => c • F p) o u v w = c * crateFlux F o u v w := by
  simp only [crateFlux, flux_smul]
  ring

theorem crateFlux_real_smul (c : ℝ) (F : V3 ℝ → V3 ℝ) (o u v w : V3 ℝ) : crateFlux (fun p => c • F p) o u v w = c * crateFlux F o u v w := by
  simp only [crateFlux, flux_real_smul]
  ring

namespace Fdem

open V3

namespace ElectricDipole

variable (s : ElectricDipole) {p : V3 ℝ}

theorem smooth_h (hp : p ≠ s.location) : Smooth s.magneticField p :=
  (dipX_smooth (len_sub_ne_zero hp) (hasDerivAt_sphG _ _ (len_sub_ne_zero hp))).congr_off hp fun q hq => s.magneticField_eq q hq

theorem smooth_e (hp : p ≠ s.location) : Smooth s.electricField p :=
  (dipF_smooth (len_sub_ne_zero hp) (hasDerivAt_sphA _ _ (len_sub_ne_zero hp)) (hasDerivAt_sphB _ _ (len_sub_ne_zero hp))).congr_off hp
    fun q hq => s.electricField_eq q hq

theorem smooth_a (hp : p ≠ s.location) : Smooth s.vectorPotential p :=
  (dipF_smooth (len_sub_ne_zero hp) (hasDerivAt_const _ (0 : ℂ)) (hasDerivAt_sphP _ _ (len_sub_ne_zero hp))).congr_off hp
    fun q _ => s.vectorPotential_eq q

/-- **C135.** Ampère's law for a coil near a harmonic electric dipole: the magnetic field once around is the current through the coil. -/
theorem coil_ampere (hs : 0 < s.sigma) {o u v : V3 ℝ} (hc : s.location ∉ coil o u v) :
    circulation s.magneticField o u v = flux s.currentDensity o u v := by
  have hp : ∀ p ∈ coil o u v, p ≠ s.location := fun p hp h => hc (h ▸ hp)
  exact stokes (fun p h => s.smooth_h (hp p h)) (fun p h => (s.smooth_e (hp p h)).mul s.sigma) fun p h => s.j_is_curl_h p hs (hp p h)

/-- **C135 (partial: quasistatic sources).** Faraday's law for a coil near a harmonic electric dipole: the voltage once around is `−iω` times the
flux. Missing: the full-wave setting, where it is false of the code (`coil_faraday_fails_at`). -/
theorem coil_faraday_partial (hq : s.quasistatic = .bool true) (hs : 0 < s.sigma) {o u v : V3 ℝ} (hc : s.location ∉ coil o u v) :
    circulation s.electricField o u v = -I * s.omega * flux s.magneticFluxDensity o u v := by
  have hp : ∀ p ∈ coil o u v, p ≠ s.location := fun p hp h => hc (h ▸ hp)
  have h := stokes (fun p h => s.smooth_e (hp p h)) (fun p h => (s.smooth_h (hp p h)).mul (-I * s.omega * s.mu)) fun p h => s.faraday_partial p hq hs (hp p h)
  rw [h, flux_smul]
  have e : s.magneticFluxDensity = fun p => (s.mu : ℂ) • s.magneticField p := funext fun p => s.b_eq p
  rw [e, flux_smul]
  ring

/-- What the voltage is in every setting: in the full-wave setting too large by the factor `σ̂ / σ`. -/
theorem coil_voltage_factor (hs : 0 < s.sigma) {o u v : V3 ℝ} (hc : s.location ∉ coil o u v) :
    circulation s.electricField o u v = s.sigmaHat / s.sigma * (-I * s.omega * flux s.magneticFluxDensity o u v) := by
  have hp : ∀ p ∈ coil o u v, p ≠ s.location := fun p hp h => hc (h ▸ hp)
  have hs' : (s.sigma : ℂ) ≠ 0 := by exact_mod_cast hs.ne'
  have h := stokes (fun p h => s.smooth_e (hp p h)) (fun p h => (s.smooth_h (hp p h)).mul (s.wavenumber ^ 2 / s.sigma)) fun p h => s.curl_e p hs (hp p h)
  have e : s.magneticFluxDensity = fun p => (s.mu : ℂ) • s.magneticField p := funext fun p => s.b_eq p
  have hk : s.wavenumber ^ 2 = -I * s.omega * s.mu * s.sigmaHat := wavenumber_sq_sigmaHat _ _ _ _ _
  rw [h, flux_smul, e, flux_smul, hk]
  field_simp

/-- **C135 is false of the code in the full-wave setting**: through every coil with any flux through it. -/
theorem coil_faraday_fails (hq : s.quasistatic = .bool false) (hf : 0 < s.frequency) (hs : 0 < s.sigma) (he : 0 < s.epsilon) {o u v : V3 ℝ}
    (hc : s.location ∉ coil o u v) (hb : flux s.magneticFluxDensity o u v ≠ 0) :
    circulation s.electricField o u v ≠ -I * s.omega * flux s.magneticFluxDensity o u v := by
  have hs' : (s.sigma : ℂ) ≠ 0 := by exact_mod_cast hs.ne'
  have he' : (s.epsilon : ℂ) ≠ 0 := by exact_mod_cast he.ne'
  have hw : 0 < s.omega := by unfold Medium.omega Fdem.omega; positivity
  have hw' : (s.omega : ℂ) ≠ 0 := by exact_mod_cast hw.ne'
  rw [s.coil_voltage_factor hs hc]
  intro h
  have h0 : -I * s.omega * flux s.magneticFluxDensity o u v ≠ 0 := mul_ne_zero (mul_ne_zero (neg_ne_zero.2 Complex.I_ne_zero) hw') hb
  have h1 : s.sigmaHat / s.sigma = 1 := by
    refine mul_right_cancel₀ h0 ?_
    rw [h, one_mul]
  rw [div_eq_one_iff_eq hs'] at h1
  have h2 : s.sigmaHat = s.sigma + I * s.omega * s.epsilon := by
    simp [Medium.sigmaHat, sigmaHat, hq, Flag.isTrue, Medium.omega]
  rw [h2] at h1
  have h3 : I * s.omega * s.epsilon = 0 := by linear_combination h1
  simp [hw', he'] at h3

/-- **C135.** Such coils can be found at every place that has a field. -/
theorem coil_faraday_fails_at (hq : s.quasistatic = .bool false) (hf : 0 < s.frequency) (hs : 0 < s.sigma) (he : 0 < s.epsilon) (hp : p ≠ s.location)
    (hb : s.magneticFluxDensity p ≠ 0) :
    ∃ u v : V3 ℝ, s.location ∉ coil p u v ∧ circulation s.electricField p u v ≠ -I * s.omega * flux s.magneticFluxDensity p u v := by
  have sm : ∀ q, q ≠ s.location → Smooth s.magneticFluxDensity q := fun q h => by
    have e : s.magneticFluxDensity = fun p => (s.mu : ℂ) • s.magneticField p := funext fun p => s.b_eq p
    rw [e]
    exact (s.smooth_h h).mul s.mu
  have key : ∀ u v : V3 ℝ, (s.magneticFluxDensity p).app (u.cross v) ≠ 0 →
      ∃ u v : V3 ℝ, s.location ∉ coil p u v ∧ circulation s.electricField p u v ≠ -I * s.omega * flux s.magneticFluxDensity p u v := by
    intro u v h0
    obtain ⟨δ, hδ, h⟩ := small_flux sm hp h0
    obtain ⟨h1, h2⟩ := h (δ / 2) (by linarith) (by linarith)
    have hc : s.location ∉ coil p ((δ / 2) • u) ((δ / 2) • v) := by
      rintro ⟨a, ha, b, hb, e⟩
      exact h1 (a, b) ⟨ha, hb⟩ e.symm
    exact ⟨_, _, hc, s.coil_faraday_fails hq hf hs he hc h2⟩
  by_cases hx : (s.magneticFluxDensity p).x = 0
  · by_cases hy : (s.magneticFluxDensity p).y = 0
    · have hz : (s.magneticFluxDensity p).z ≠ 0 := fun hz => hb (V3.ext hx hy hz)
      exact key ⟨1, 0, 0⟩ ⟨0, 1, 0⟩ (by simpa [V3.app, V3.cross] using hz)
    · exact key ⟨0, 0, 1⟩ ⟨1, 0, 0⟩ (by simpa [V3.app, V3.cross] using hy)
  · exact key ⟨0, 1, 0⟩ ⟨0, 0, 1⟩ (by simpa [V3.app, V3.cross] using hx)

/-- **C135.** The flux through a coil is the integral of the vector potential around it. -/
theorem coil_potential {o u v : V3 ℝ} (hc : s.location ∉ coil o u v) : circulation s.vectorPotential o u v = flux s.magneticField o u v := by
  have hp : ∀ p ∈ coil o u v, p ≠ s.location := fun p hp h => hc (h ▸ hp)
  exact stokes (fun p h => s.smooth_a (hp p h)) (fun p h => s.smooth_h (hp p h)) fun p h => s.h_is_curl_a p (hp p h)

/-- **C135.** No flux and no current gets lost in a box, also around the dipole. -/
theorem crate_conserves (hs : 0 < s.sigma) {o u v w : V3 ℝ} (hc : s.location ∉ crate o u v w) :
    crateFlux s.magneticFluxDensity o u v w = 0 ∧ crateFlux s.currentDensity o u v w = 0 := by
  have hp : ∀ p ∈ crate o u v w, p ≠ s.location := fun p hp h => hc (h ▸ hp)
  have h := crate_zero (fun p h => s.smooth_a (hp p h)) (fun p h => s.smooth_h (hp p h)) fun p h => s.h_is_curl_a p (hp p h)
  have e : s.magneticFluxDensity = fun p => (s.mu : ℂ) • s.magneticField p := funext fun p => s.b_eq p
  refine ⟨by rw [e, crateFlux_smul, h, mul_zero], ?_⟩
  exact crate_zero (fun p h => s.smooth_h (hp p h)) (fun p h => (s.smooth_e (hp p h)).mul s.sigma) fun p h => s.j_is_curl_h p hs (hp p h)

end ElectricDipole

namespace MagneticDipole

variable (s : MagneticDipole) {p : V3 ℝ}

theorem smooth_e (hp : p ≠ s.location) : Smooth s.electricField p :=
  (dipX_smooth (len_sub_ne_zero hp) (hasDerivAt_sphG _ _ (len_sub_ne_zero hp))).congr_off hp fun q hq => s.electricField_eq q hq

theorem smooth_h (hp : p ≠ s.location) : Smooth s.magneticField p :=
  (dipF_smooth (len_sub_ne_zero hp) (hasDerivAt_sphA _ _ (len_sub_ne_zero hp)) (hasDerivAt_sphB _ _ (len_sub_ne_zero hp))).congr_off hp
    fun q hq => s.magneticField_eq q hq

theorem smooth_f (hp : p ≠ s.location) : Smooth s.vectorPotential p :=
  (dipF_smooth (len_sub_ne_zero hp) (hasDerivAt_const _ (0 : ℂ)) (hasDerivAt_sphP _ _ (len_sub_ne_zero hp))).congr_off hp
    fun q _ => s.vectorPotential_eq q

/-- **C135.** Faraday's law for a coil near a harmonic magnetic dipole: the voltage once around is `−iω` times the flux. -/
theorem coil_faraday {o u v : V3 ℝ} (hc : s.location ∉ coil o u v) :
    circulation s.electricField o u v = -I * s.omega * flux s.magneticFluxDensity o u v := by
  have hp : ∀ p ∈ coil o u v, p ≠ s.location := fun p hp h => hc (h ▸ hp)
  have h := stokes (fun p h => s.smooth_e (hp p h)) (fun p h => (s.smooth_h (hp p h)).mul (-I * s.omega * s.mu)) fun p h => s.faraday p (hp p h)
  rw [h, flux_smul]
  have e : s.magneticFluxDensity = fun p => (s.mu : ℂ) • s.magneticField p := rfl
  rw [e, flux_smul]
  ring

/-- **C135.** Ampère's law for a coil near a harmonic magnetic dipole, with the displacement current. -/
theorem coil_ampere {o u v : V3 ℝ} (hc : s.location ∉ coil o u v) :
    circulation s.magneticField o u v = s.sigmaHat * flux s.electricField o u v := by
  have hp : ∀ p ∈ coil o u v, p ≠ s.location := fun p hp h => hc (h ▸ hp)
  have h := stokes (fun p h => s.smooth_h (hp p h)) (fun p h => (s.smooth_e (hp p h)).mul s.sigmaHat) fun p h => s.ampere p (hp p h)
  rw [h, flux_smul]

/-- **C135.** No flux and no current gets lost in a box, also around the dipole. -/
theorem crate_conserves {o u v w : V3 ℝ} (hc : s.location ∉ crate o u v w) :
    crateFlux s.magneticFluxDensity o u v w = 0 ∧ crateFlux s.electricField o u v w = 0 := by
  have hp : ∀ p ∈ crate o u v w, p ≠ s.location := fun p hp h => hc (h ▸ hp)
  have e : s.magneticFluxDensity = fun p => (s.mu : ℂ) • s.magneticField p := rfl
  constructor
  · rw [e, crateFlux_smul]
    have h := crate_zero (A := dipX s.orientation s.location (sphG s.strength s.wavenumber))
      (fun p h => dipX_smooth (len_sub_ne_zero (hp p h)) (hasDerivAt_sphG _ _ (len_sub_ne_zero (hp p h)))) (fun p h => s.smooth_h (hp p h))
      fun p h => (s.magneticField_eq p (hp p h)) ▸ sph_curlG _ _ (len_sub_ne_zero (hp p h))
    rw [h, mul_zero]
  · have h := crate_zero (fun p h => s.smooth_f (hp p h)) (F := fun p => (-1 : ℂ) • s.electricField p) (fun p h => (s.smooth_e (hp p h)).mul (-1))
      fun p h => by
        have := s.e_is_neg_curl_f p (hp p h)
        rwa [← neg_one_smul ℂ] at this
    rw [crateFlux_smul] at h
    simpa using h

/-- A coil next to a magnetic dipole, and a box around it. -/
example : (⟨0, 0, 0⟩ : V3 ℝ) ∉ coil ⟨1, 0, 0⟩ ⟨1, 0, 0⟩ ⟨0, 1, 0⟩ ∧ (⟨0, 0, 0⟩ : V3 ℝ) ∉ crate ⟨-1, -1, -1⟩ ⟨2, 0, 0⟩ ⟨0, 2, 0⟩ ⟨0, 0, 2⟩ := by
  constructor
  · rintro ⟨a, ha, b, hb, h⟩
    have := congrArg V3.x h
    simp at this
    linarith [ha.1]
  · rintro (((⟨a, ha, b, hb, h⟩ | ⟨a, ha, b, hb, h⟩) | (⟨a, ha, b, hb, h⟩ | ⟨a, ha, b, hb, h⟩)) | (⟨a, ha, b, hb, h⟩ | ⟨a, ha, b, hb, h⟩))
    · have := congrArg V3.z h; norm_num at this
    · have := congrArg V3.z h; norm_num at this
    · have := congrArg V3.x h; norm_num at this
    · have := congrArg V3.x h; norm_num at this
    · have := congrArg V3.y h; norm_num at this
    · have := congrArg V3.y h; norm_num at this

end MagneticDipole

namespace PlaneWave

variable (s : PlaneWave)

theorem smooth_planar (a : V3 ℂ) {f : ℝ → ℂ} {f' : ℂ} {p : V3 ℝ} (h : HasDerivAt f f' p.z) : Smooth (fun q => a.map (fun c => c * f q.z)) p := by
  have hz : DifferentiableAt ℝ (fun q : ℝ × ℝ × ℝ => f q.2.2) (p.x, p.y, p.z) :=
    DifferentiableAt.comp (p.x, p.y, p.z) (f := fun q : ℝ × ℝ × ℝ => q.2.2) (g := f) h.differentiableAt (by fun_prop)
  exact ⟨hz.const_mul a.x, hz.const_mul a.y, hz.const_mul a.z⟩

theorem smooth_e (p : V3 ℝ) : Smooth s.electricField p := by
  rw [electricField_eq]
  exact smooth_planar _ (hasDerivAt_up _ _)

theorem smooth_b (p : V3 ℝ) : Smooth s.magneticFluxDensity p := by
  rw [magneticFluxDensity_eq]
  exact smooth_planar _ (hasDerivAt_up _ _)

/-- **C135.** Faraday's law for a coil in a harmonic plane wave, wherever the coil is. -/
theorem coil_faraday (hf : 0 < s.frequency) (ho : s.orientation.z = 0) (o u v : V3 ℝ) :
    circulation s.electricField o u v = -I * s.omega * flux s.magneticFluxDensity o u v := by
  have h := stokes (o := o) (u := u) (v := v) (fun p _ => s.smooth_e p) (fun p _ => (s.smooth_b p).mul (-I * s.omega)) fun p _ => s.faraday p hf ho
  rw [h, flux_smul]

/-- **C135.** Ampère's law for a coil in a harmonic plane wave. -/
theorem coil_ampere (hf : 0 < s.frequency) (hm : 0 < s.mu) (ho : s.orientation.z = 0) (o u v : V3 ℝ) :
    circulation s.magneticField o u v = s.sigmaHat * flux s.electricField o u v := by
  have e : s.magneticField = fun q => (1 / s.mu : ℂ) • s.magneticFluxDensity q := by
    funext q
    ext <;> simp [magneticField] <;> ring
  have sm : ∀ p, Smooth s.magneticField p := fun p => by
    rw [e]
    exact (s.smooth_b p).mul _
  have h := stokes (o := o) (u := u) (v := v) (fun p _ => sm p) (fun p _ => (s.smooth_e p).mul s.sigmaHat) fun p _ => s.ampere p hf hm ho
  rw [h, flux_smul]

end PlaneWave

end Fdem

namespace Tdem

open V3

namespace ElectricDipole

variable (s : ElectricDipole) {p : V3 ℝ}

theorem smooth_h (hp : p ≠ s.location) : Smooth s.magneticField p :=
  (dipX_smooth (len_sub_ne_zero hp) (hasDerivAt_tdG _ _ (len_sub_ne_zero hp))).congr_off hp fun q hq => s.magneticField_eq q hq

theorem smooth_e (hp : p ≠ s.location) : Smooth s.electricField p :=
  (dipF_smooth (len_sub_ne_zero hp) (hasDerivAt_tdA _ _ (len_sub_ne_zero hp)) (hasDerivAt_tdB _ _ (len_sub_ne_zero hp))).congr_off hp
    fun q hq => s.electricField_eq q hq

theorem smooth_a (hp : p ≠ s.location) : Smooth s.vectorPotential p :=
  (dipF_smooth (len_sub_ne_zero hp) (hasDerivAt_const _ (0 : ℝ)) (hasDerivAt_tdP _ _ (len_sub_ne_zero hp))).congr_off hp
    fun q _ => s.vectorPotential_eq q

theorem smooth_d (hp : p ≠ s.location) : Smooth s.magneticFieldTimeDeriv p := by
  have h : HasDerivAt (fun r => -2 * s.strength * s.theta ^ 3 / (Real.sqrt Real.pi * s.time) * Real.exp (-(s.theta * r) ^ 2))
      _ (p - s.location).len := (hasDerivAt_gauss s.theta (p - s.location).len).const_mul _
  refine (dipX_smooth (o := s.orientation) (len_sub_ne_zero hp) h).congr_off hp fun q hq => ?_
  have hr := len_sub_ne_zero hq
  have hpi : Real.sqrt Real.pi ≠ 0 := (Real.sqrt_pos.2 Real.pi_pos).ne'
  ext <;> simp [magneticFieldTimeDeriv, dipX, strength] <;> field_simp

/-- **C135.** Faraday's law for a coil near a transient electric dipole: the voltage once around is the flux of the rate of change that the code
returns, with the opposite sign. -/
theorem coil_faraday (ht : 0 < s.time) (hs : 0 < s.sigma) (hm : 0 < s.mu) {o u v : V3 ℝ} (hc : s.location ∉ coil o u v) :
    circulation s.electricField o u v = -flux s.magneticFluxDensityTimeDeriv o u v := by
  have hp : ∀ p ∈ coil o u v, p ≠ s.location := fun p hp h => hc (h ▸ hp)
  have h := stokes (fun p h => s.smooth_e (hp p h)) (F := fun p => (-s.mu) • s.magneticFieldTimeDeriv p) (fun p h => (s.smooth_d (hp p h)).real_mul (-s.mu))
    fun p h => by
      have := s.faraday p ht hs hm (hp p h)
      rwa [← neg_smul] at this
  rw [h, flux_real_smul]
  have e : s.magneticFluxDensityTimeDeriv = fun p => s.mu • s.magneticFieldTimeDeriv p := funext fun p => (s.b_eq p).2
  rw [e, flux_real_smul]
  ring

/-- **C135.** Ampère's law for a coil near a transient electric dipole. -/
theorem coil_ampere (hs : 0 < s.sigma) {o u v : V3 ℝ} (hc : s.location ∉ coil o u v) :
    circulation s.magneticField o u v = flux s.currentDensity o u v := by
  have hp : ∀ p ∈ coil o u v, p ≠ s.location := fun p hp h => hc (h ▸ hp)
  exact stokes (fun p h => s.smooth_h (hp p h)) (fun p h => (s.smooth_e (hp p h)).real_mul s.sigma) fun p h => s.ampere p hs (hp p h)

/-- **C135.** No flux and no current gets lost in a box, also around the dipole. -/
theorem crate_conserves (hs : 0 < s.sigma) {o u v w : V3 ℝ} (hc : s.location ∉ crate o u v w) :
    crateFlux s.magneticFluxDensity o u v w = 0 ∧ crateFlux s.currentDensity o u v w = 0 := by
  have hp : ∀ p ∈ crate o u v w, p ≠ s.location := fun p hp h => hc (h ▸ hp)
  have h := crate_zero (fun p h => s.smooth_a (hp p h)) (fun p h => s.smooth_h (hp p h)) fun p h => s.h_is_curl_a p (hp p h)
  have e : s.magneticFluxDensity = fun p => s.mu • s.magneticField p := funext fun p => (s.b_eq p).1
  refine ⟨by rw [e, crateFlux_real_smul, h, mul_zero], ?_⟩
  exact crate_zero (fun p h => s.smooth_h (hp p h)) (fun p h => (s.smooth_e (hp p h)).real_mul s.sigma) fun p h => s.ampere p hs (hp p h)

/-- **C135.** The voltage around a coil near a transient electric dipole is the rate at which the flux through the coil goes down. -/
theorem coil_voltage (ht : 0 < s.time) (hs : 0 < s.sigma) (hm : 0 < s.mu) {o u v : V3 ℝ} (hc : s.location ∉ coil o u v) :
    HasDerivAt (fun t => flux ({ s with time := t } : ElectricDipole).magneticFluxDensity o u v) (-circulation s.electricField o u v) s.time := by
  have hp : ∀ p ∈ coil o u v, p ≠ s.location := fun p hp h => hc (h ▸ hp)
  rw [s.coil_faraday ht hs hm hc, neg_neg]
  refine flux_hasDerivAt (F := fun t => ({ s with time := t } : ElectricDipole).magneticFluxDensity)
    (D := fun t => ({ s with time := t } : ElectricDipole).magneticFluxDensityTimeDeriv) (a := s.time / 2) (b := 2 * s.time)
    ⟨by linarith, by linarith⟩ (fun t _ p hp' => ?_) ?_ (fun t ht' p _ => ?_)
  · exact (smooth_h ({ s with time := t } : ElectricDipole) (hp p hp')).real_mul s.mu
  · have hform : ContinuousOn (fun x : ℝ × ℝ × ℝ => s.mu * ((-2 * s.strength * theta x.1 s.sigma s.mu ^ 3 / (Real.sqrt Real.pi * x.1) *
        Real.exp (-(theta x.1 s.sigma s.mu * (o + x.2.1 • u + x.2.2 • v - s.location).len) ^ 2)) *
        (s.orientation.cross (o + x.2.1 • u + x.2.2 • v - s.location)).dot (u.cross v))) (Set.Icc (s.time / 2) (2 * s.time) ×ˢ Set.Icc (0 : ℝ) 1 ×ˢ Set.Icc (0 : ℝ) 1) := by
      intro x hx
      have h0 : x.1 ≠ 0 := by
        have := hx.1.1
        intro h
        rw [h] at this
        linarith
      have h1 : Real.sqrt Real.pi * x.1 ≠ 0 := mul_ne_zero (Real.sqrt_pos.2 Real.pi_pos).ne' h0
      have h2 : 4 * x.1 ≠ 0 := by simpa using h0
      refine ContinuousAt.continuousWithinAt ?_
      simp only [theta, V3.len, V3.dot, V3.cross, V3.add_x, V3.add_y, V3.add_z, V3.sub_x, V3.sub_y, V3.sub_z, V3.smul_x, V3.smul_y, V3.smul_z, smul_eq_mul]
      fun_prop (disch := assumption)
    refine hform.congr fun x hx => ?_
    have hq : o + x.2.1 • u + x.2.2 • v ≠ s.location := hp _ ⟨x.2.1, hx.2.1, x.2.2, hx.2.2, rfl⟩
    have hr := len_sub_ne_zero hq
    have hpi : Real.sqrt Real.pi ≠ 0 := (Real.sqrt_pos.2 Real.pi_pos).ne'
    simp only [magneticFluxDensityTimeDeriv, magneticFieldTimeDeriv, V3.app, V3.map_x, V3.map_y, V3.map_z, V3.dot, V3.cross, strength, smul_eq_mul, Medium.theta]
    generalize (o + x.2.1 • u + x.2.2 • v - s.location).len = r at *
    generalize o + x.2.1 • u + x.2.2 • v - s.location = R at *
    field_simp
    ring
  · have h0 : 0 < t := by linarith [ht'.1]
    obtain ⟨hx, hy, hz⟩ := time_deriv ({ s with time := t } : ElectricDipole) p h0 hs hm
    exact ⟨hx.const_mul s.mu, hy.const_mul s.mu, hz.const_mul s.mu⟩

end ElectricDipole

namespace PlaneWave

variable (s : PlaneWave)

theorem smooth_planar (a : V3 ℝ) {f : ℝ → ℝ} {f' : ℝ} {p : V3 ℝ} (h : HasDerivAt f f' p.z) : Smooth (fun q => a.map (fun c => c * f q.z)) p := by
  have hz : DifferentiableAt ℝ (fun q : ℝ × ℝ × ℝ => f q.2.2) (p.x, p.y, p.z) :=
    DifferentiableAt.comp (p.x, p.y, p.z) (f := fun q : ℝ × ℝ × ℝ => q.2.2) (g := f) h.differentiableAt (by fun_prop)
  exact ⟨hz.const_mul a.x, hz.const_mul a.y, hz.const_mul a.z⟩

theorem smooth_e (ht : 0 < s.time) (p : V3 ℝ) : Smooth s.electricField p := by
  rw [show s.electricField = fun q => s.orientation.map (fun c => c * (s.amplitude * eAmp s.mu s.sigma s.time q.z)) from funext fun q => s.electricField_eq q ht]
  exact smooth_planar _ ((hasDerivAt_dAmp ht).1.const_mul _)

theorem smooth_b (ht : 0 < s.time) (hs : 0 < s.sigma) (hm : 0 < s.mu) (p : V3 ℝ) : Smooth s.magneticFluxDensity p := by
  rw [show s.magneticFluxDensity = fun q => (⟨-s.orientation.y, s.orientation.x, 0⟩ : V3 ℝ).map (fun c => c * (s.amplitude * bAmp s.mu s.sigma s.time q.z)) from
    funext fun q => s.magneticFluxDensity_eq q hs hm]
  exact smooth_planar _ ((hasDerivAt_bAmp_z ht).const_mul _)

/-- **C135.** The voltage around a coil in a transient plane wave is the rate at which the flux through the coil goes down. -/
theorem coil_voltage (ht : 0 < s.time) (hs : 0 < s.sigma) (hm : 0 < s.mu) (o u v : V3 ℝ) :
    HasDerivAt (fun t => flux ({ s with time := t } : PlaneWave).magneticFluxDensity o u v) (-circulation s.electricField o u v) s.time := by
  set D : ℝ → V3 ℝ → V3 ℝ := fun t p => (⟨-s.orientation.y, s.orientation.x, 0⟩ : V3 ℝ).map (fun c => c * (s.amplitude * dAmp s.mu s.sigma t p.z)) with hDdef
  have hd : ∀ t, 0 < t → ∀ p, HasDerivAt (fun t => (({ s with time := t } : PlaneWave).magneticFluxDensity p).x) (D t p).x t ∧
      HasDerivAt (fun t => (({ s with time := t } : PlaneWave).magneticFluxDensity p).y) (D t p).y t ∧
      HasDerivAt (fun t => (({ s with time := t } : PlaneWave).magneticFluxDensity p).z) (D t p).z t := by
    intro t h0 p
    have e : ∀ t, ({ s with time := t } : PlaneWave).magneticFluxDensity p =
        (⟨-s.orientation.y, s.orientation.x, 0⟩ : V3 ℝ).map (fun c => c * (s.amplitude * bAmp s.mu s.sigma t p.z)) := fun t =>
      magneticFluxDensity_eq { s with time := t } p hs hm
    have h := ((hasDerivAt_dAmp (mu := s.mu) (sigma := s.sigma) (z := p.z) h0).2).const_mul s.amplitude
    simp only [e, V3.map_x, V3.map_y, V3.map_z, hDdef]
    exact ⟨h.const_mul _, h.const_mul _, h.const_mul _⟩
  have hcurl : circulation s.electricField o u v = flux (fun p => (-1 : ℝ) • D s.time p) o u v := by
    refine stokes (fun p _ => s.smooth_e ht p) (fun p _ => Smooth.real_mul ?_ _) fun p _ => ?_
    · have hz : DifferentiableAt ℝ (fun z => s.amplitude * dAmp s.mu s.sigma s.time z) p.z := by
        unfold dAmp
        fun_prop
      exact smooth_planar _ hz.hasDerivAt
    · obtain ⟨D', h1, hx, hy, hz⟩ := s.faraday p ht hs hm
      obtain ⟨kx, ky, kz⟩ := hd s.time ht p
      have : D' = D s.time p := V3.ext (hx.unique kx) (hy.unique ky) (hz.unique kz)
      rw [this, ← neg_one_smul ℝ] at h1
      exact h1
  rw [hcurl, flux_real_smul, neg_one_mul, neg_neg]
  refine flux_hasDerivAt (F := fun t => ({ s with time := t } : PlaneWave).magneticFluxDensity) (D := D) (a := s.time / 2) (b := 2 * s.time)
    ⟨by linarith, by linarith⟩ (fun t ht' p _ => ?_) ?_ (fun t ht' p _ => hd t (by linarith [ht'.1]) p)
  · exact smooth_b ({ s with time := t } : PlaneWave) (show 0 < t by linarith [ht'.1]) hs hm p
  · intro x hx
    have hpos : 0 < x.1 := by linarith [hx.1.1]
    have h0 : x.1 ≠ 0 := hpos.ne'
    have h1 : 2 * (x.1 * Real.sqrt x.1) ≠ 0 := by have := Real.sqrt_pos.2 hpos; positivity
    have h2 : 4 * x.1 ≠ 0 := by positivity
    have h3 : 2 * x.1 ≠ 0 := by positivity
    refine ContinuousAt.continuousWithinAt ?_
    simp only [hDdef, V3.app, V3.map_x, V3.map_y, V3.map_z, dAmp, V3.add_z, V3.smul_z, smul_eq_mul]
    fun_prop (disch := assumption)

/-- **C135.** Ampère's law for a coil in a transient plane wave. -/
theorem coil_ampere (ht : 0 < s.time) (hs : 0 < s.sigma) (hm : 0 < s.mu) (ho : s.orientation.z = 0) (o u v : V3 ℝ) :
    circulation s.magneticField o u v = flux s.currentDensity o u v := by
  have e : s.magneticField = fun q => (1 / s.mu) • s.magneticFluxDensity q := by
    funext q
    ext <;> simp [magneticField] <;> ring
  have sm : ∀ p, Smooth s.magneticField p := fun p => by
    rw [e]
    exact (s.smooth_b ht hs hm p).real_mul _
  exact stokes (o := o) (u := u) (v := v) (fun p _ => sm p) (fun p _ => (s.smooth_e ht p).real_mul s.sigma) fun p _ => s.ampere p ht hs hm ho

end PlaneWave

end Tdem

namespace Static

open V3

namespace MagDipole

variable (s : MagDipole) {p : V3 ℝ}

theorem smooth_a (hp : p ≠ s.location) : Smooth s.vectorPotential p :=
  (dipX_smooth (len_sub_ne_zero hp) (hasDerivAt_const_div_pow _ 3 (len_sub_ne_zero hp))).congr_off hp fun q hq => s.vectorPotential_eq q hq

theorem smooth_b (hp : p ≠ s.location) : Smooth s.magneticFluxDensity p :=
  (dipF_smooth (len_sub_ne_zero hp) (hasDerivAt_const_div_pow _ 5 (len_sub_ne_zero hp)) (hasDerivAt_const_div_pow _ 3 (len_sub_ne_zero hp))).congr_off hp
    fun q hq => s.magneticFluxDensity_eq q hq

/-- **C135.** The flux of a static dipole through a coil is the integral of the vector potential around it. -/
theorem coil_potential {o u v : V3 ℝ} (hc : s.location ∉ coil o u v) : circulation s.vectorPotential o u v = flux s.magneticFluxDensity o u v := by
  have hp : ∀ p ∈ coil o u v, p ≠ s.location := fun p hp h => hc (h ▸ hp)
  exact stokes (fun p h => s.smooth_a (hp p h)) (fun p h => s.smooth_b (hp p h)) fun p h => dipole_flux_is_curl s p (hp p h)

/-- **C135.** No flux gets lost in a box, also around the dipole. -/
theorem crate_conserves {o u v w : V3 ℝ} (hc : s.location ∉ crate o u v w) : crateFlux s.magneticFluxDensity o u v w = 0 := by
  have hp : ∀ p ∈ crate o u v w, p ≠ s.location := fun p hp h => hc (h ▸ hp)
  exact crate_zero (fun p h => s.smooth_a (hp p h)) (fun p h => s.smooth_b (hp p h)) fun p h => dipole_flux_is_curl s p (hp p h)

end MagDipole

end Static

end Verif
