import Verif.Props.Wavenumber
import Verif.Lemmas.Spherical

/-! # C45, C46: harmonic electric and magnetic dipoles satisfy Maxwell's equations -/

namespace Verif.Fdem

open V3
open Complex (I)

/-! ## Electric dipole -/

namespace ElectricDipole

variable (s : ElectricDipole) (p : V3 ℝ)

/-- `I L / (4 π)` -/
noncomputable def strength : ℂ := s.current * s.length / (4 * Real.pi)

theorem vectorPotential_eq (q : V3 ℝ) :
    s.vectorPotential q = dipF s.orientation s.location (fun _ => 0) (sphP s.strength s.wavenumber) q := by
  ext <;> simp [vectorPotential, dipF, sphP, strength] <;> ring_nf

theorem magneticField_eq (q : V3 ℝ) (hq : q ≠ s.location) :
    s.magneticField q = dipX s.orientation s.location (sphG s.strength s.wavenumber) q := by
  have hr : ((q - s.location).len : ℂ) ≠ 0 := by exact_mod_cast len_sub_ne_zero hq
  ext <;> simp [magneticField, dipX, sphG, strength] <;> field_simp

theorem electricField_eq (q : V3 ℝ) (hq : q ≠ s.location) :
    s.electricField q = dipF s.orientation s.location (sphA (s.strength / s.sigma) s.wavenumber)
      (sphB (s.strength / s.sigma) s.wavenumber) q := by
  have hr : ((q - s.location).len : ℂ) ≠ 0 := by exact_mod_cast len_sub_ne_zero hq
  ext <;> simp [electricField, dipF, sphA, sphB, strength, V3.dot] <;> field_simp

/-- **C45.** `H = curl A` off the source. -/
theorem h_is_curl_a (hp : p ≠ s.location) : HasCurl s.vectorPotential (s.magneticField p) p := by
  rw [s.magneticField_eq p hp]
  exact (sph_curlP _ _ (len_sub_ne_zero hp)).congr_off hp (fun q _ => s.vectorPotential_eq q) rfl

/-- **C45.** Ampère's law: the current density returned by the code is `curl H`. -/
theorem j_is_curl_h (hs : 0 < s.sigma) (hp : p ≠ s.location) :
    HasCurl s.magneticField (s.currentDensity p) p := by
  have hs' : (s.sigma : ℂ) ≠ 0 := by exact_mod_cast hs.ne'
  refine (sph_curlG _ _ (len_sub_ne_zero hp)).congr_off hp (fun q hq => s.magneticField_eq q hq) ?_
  rw [currentDensity, s.electricField_eq p hp]
  ext <;> simp [dipF, sphA, sphB] <;> field_simp

/-- **C45.** `J = sigma E`. -/
theorem j_eq : s.currentDensity p = (s.sigma : ℂ) • s.electricField p := rfl

/-- **C45.** `B = mu H`. -/
theorem b_eq : s.magneticFluxDensity p = (s.mu : ℂ) • s.magneticField p := rfl

/-- **C45.** `div H = 0` off the source. -/
theorem div_h (hp : p ≠ s.location) : HasDiv s.magneticField 0 p :=
  (sph_divG _ _ (len_sub_ne_zero hp)).congr_off hp (fun q hq => s.magneticField_eq q hq) rfl

/-- **C45.** `div E = 0` off the source. -/
theorem div_e (hp : p ≠ s.location) : HasDiv s.electricField 0 p :=
  (sph_divAB _ _ (len_sub_ne_zero hp)).congr_off hp (fun q hq => s.electricField_eq q hq) rfl

/-- What the curl of the returned electric field is: `(k² / sigma) H`. -/
theorem curl_e (hs : 0 < s.sigma) (hp : p ≠ s.location) :
    HasCurl s.electricField ((s.wavenumber ^ 2 / s.sigma) • s.magneticField p) p := by
  have hs' : (s.sigma : ℂ) ≠ 0 := by exact_mod_cast hs.ne'
  refine (sph_curlAB _ _ (len_sub_ne_zero hp)).congr_off hp (fun q hq => s.electricField_eq q hq) ?_
  rw [s.magneticField_eq p hp]
  ext <;> simp [dipX, sphG] <;> field_simp

/-- **C45 (partial: quasistatic sources).** Faraday's law `curl E = - i w mu H`.  Missing: the full-wave setting, where
it is false of the code (`faraday_fails`). -/
theorem faraday_partial (hq : s.quasistatic = .bool true) (hs : 0 < s.sigma) (hp : p ≠ s.location) :
    HasCurl s.electricField ((-I * s.omega * s.mu) • s.magneticField p) p := by
  have hs' : (s.sigma : ℂ) ≠ 0 := by exact_mod_cast hs.ne'
  obtain ⟨J, hJ, e⟩ := s.curl_e p hs hp
  refine ⟨J, hJ, e.trans ?_⟩
  congr 1
  rw [Medium.wavenumber, wavenumber_sq_sigmaHat]
  simp [sigmaHat, hq, Flag.isTrue, Medium.omega]
  field_simp

/-- **C45 is false of the code in the full-wave setting**: `electric_field` divides by `sigma` where the total
conductivity `sigma_hat` is needed, so at every point off the source where the magnetic field is not zero Faraday's law
fails (for positive frequency, permeability and permittivity). -/
theorem faraday_fails (hq : s.quasistatic = .bool false) (hf : 0 < s.frequency) (hs : 0 < s.sigma)
    (hm : 0 < s.mu) (he : 0 < s.epsilon) (hp : p ≠ s.location) (hh : s.magneticField p ≠ 0) :
    ¬ HasCurl s.electricField ((-I * s.omega * s.mu) • s.magneticField p) p := by
  have hs' : (s.sigma : ℂ) ≠ 0 := by exact_mod_cast hs.ne'
  have hm' : (s.mu : ℂ) ≠ 0 := by exact_mod_cast hm.ne'
  have hw : 0 < s.omega := by unfold Medium.omega Fdem.omega; positivity
  have hw' : (s.omega : ℂ) ≠ 0 := by exact_mod_cast hw.ne'
  intro h
  have e := HasCurl.unique h (s.curl_e p hs hp)
  have e2 : (-I * s.omega * s.mu - s.wavenumber ^ 2 / s.sigma) • s.magneticField p = 0 := by
    rw [sub_smul, e, sub_self]
  have hk : -I * (s.omega : ℂ) * s.mu - s.wavenumber ^ 2 / s.sigma ≠ 0 := by
    rw [Medium.wavenumber, wavenumber_sq_sigmaHat]
    simp only [sigmaHat, hq, Flag.isTrue, if_false, Bool.false_eq_true]
    rw [show -I * (s.omega : ℂ) * s.mu - -I * (Fdem.omega s.frequency : ℂ) * s.mu *
      (s.sigma + I * (Fdem.omega s.frequency : ℂ) * s.epsilon) / s.sigma =
      I ^ 2 * (s.omega : ℂ) ^ 2 * s.mu * s.epsilon / s.sigma by
        simp only [Medium.omega]; field_simp; ring]
    have he' : (s.epsilon : ℂ) ≠ 0 := by exact_mod_cast he.ne'
    simp [*]
  apply hh
  generalize -I * (s.omega : ℂ) * s.mu - s.wavenumber ^ 2 / s.sigma = c at hk e2
  rw [← inv_smul_smul₀ hk (s.magneticField p), e2, smul_zero]

/-- Non-vacuity: a full-wave source and a point where the magnetic field is not zero. -/
example : ∃ (s : ElectricDipole) (p : V3 ℝ), s.quasistatic = .bool false ∧ 0 < s.frequency ∧ 0 < s.sigma ∧
    0 < s.mu ∧ 0 < s.epsilon ∧ p ≠ s.location ∧ s.magneticField p ≠ 0 := by
  refine ⟨⟨⟨1, 1, 1, 1, .bool false⟩, 0, ⟨1, 0, 0⟩, 1, 1⟩, ⟨0, 1, 0⟩, rfl, one_pos, one_pos, one_pos, one_pos,
    by simp [V3.ext_iff], ?_⟩
  intro h
  have hz := congrArg V3.z h
  have hlen : (⟨0, 1, 0⟩ : V3 ℝ).len = 1 := by simp [V3.len]
  have hq := (wavenumber_quadrant (f := 1) (sigma := 1) (mu := 1) (epsilon := 1) one_pos one_pos one_pos (.bool false)).2
  simp [magneticField, hlen, Complex.exp_ne_zero, Medium.wavenumber] at hz
  have := congrArg Complex.re hz
  simp at this
  linarith

end ElectricDipole

/-! ## Magnetic dipole -/

namespace MagneticDipole

variable (s : MagneticDipole) (p : V3 ℝ)

/-- `m / (4 π)` -/
noncomputable def strength : ℂ := s.moment / (4 * Real.pi)

theorem vectorPotential_eq (q : V3 ℝ) :
    s.vectorPotential q = dipF s.orientation s.location (fun _ => 0)
      (sphP (I * s.omega * s.mu * s.strength) s.wavenumber) q := by
  ext <;> simp [vectorPotential, dipF, sphP, strength] <;> ring_nf

theorem electricField_eq (q : V3 ℝ) (hq : q ≠ s.location) :
    s.electricField q = dipX s.orientation s.location
      (sphG (-(I * s.omega * s.mu * s.strength)) s.wavenumber) q := by
  have hr : ((q - s.location).len : ℂ) ≠ 0 := by exact_mod_cast len_sub_ne_zero hq
  ext <;> simp [electricField, dipX, sphG, strength] <;> field_simp <;> ring

theorem magneticField_eq (q : V3 ℝ) (hq : q ≠ s.location) :
    s.magneticField q = dipF s.orientation s.location (sphA s.strength s.wavenumber)
      (sphB s.strength s.wavenumber) q := by
  have hr : ((q - s.location).len : ℂ) ≠ 0 := by exact_mod_cast len_sub_ne_zero hq
  ext <;> simp [magneticField, dipF, sphA, sphB, strength, V3.dot] <;> field_simp

/-- **C46.** `E = - curl F` off the source. -/
theorem e_is_neg_curl_f (hp : p ≠ s.location) : HasCurl s.vectorPotential (-s.electricField p) p := by
  rw [s.electricField_eq p hp]
  refine (sph_curlP _ _ (len_sub_ne_zero hp)).congr_off hp (fun q _ => s.vectorPotential_eq q) ?_
  ext <;> simp [dipX, sphG] <;> ring

/-- **C46.** Faraday's law `curl E = - i w mu H` off the source, for every flag value. -/
theorem faraday (hp : p ≠ s.location) :
    HasCurl s.electricField ((-I * s.omega * s.mu) • s.magneticField p) p := by
  refine (sph_curlG _ _ (len_sub_ne_zero hp)).congr_off hp (fun q hq => s.electricField_eq q hq) ?_
  rw [s.magneticField_eq p hp]
  ext <;> simp [dipF, sphA, sphB] <;> ring

/-- **C46.** Ampère's law `curl H = sigma_hat E` off the source, for every flag value. -/
theorem ampere (hp : p ≠ s.location) :
    HasCurl s.magneticField (s.sigmaHat • s.electricField p) p := by
  refine (sph_curlAB _ _ (len_sub_ne_zero hp)).congr_off hp (fun q hq => s.magneticField_eq q hq) ?_
  rw [s.electricField_eq p hp]
  have hk : s.wavenumber ^ 2 = -I * s.omega * s.mu * s.sigmaHat := wavenumber_sq_sigmaHat _ _ _ _ _
  ext <;> simp [dipX, sphG, hk] <;> ring

/-- **C46.** `div H = 0` off the source. -/
theorem div_h (hp : p ≠ s.location) : HasDiv s.magneticField 0 p :=
  (sph_divAB _ _ (len_sub_ne_zero hp)).congr_off hp (fun q hq => s.magneticField_eq q hq) rfl

/-- **C46.** `div E = 0` off the source. -/
theorem div_e (hp : p ≠ s.location) : HasDiv s.electricField 0 p :=
  (sph_divG _ _ (len_sub_ne_zero hp)).congr_off hp (fun q hq => s.electricField_eq q hq) rfl

/-- **C46.** `B = mu H`. -/
theorem b_eq : s.magneticFluxDensity p = (s.mu : ℂ) • s.magneticField p := rfl

/-- **C46.** The current density is the conduction current `sigma E`. -/
theorem j_eq : s.currentDensity p = (s.sigma : ℂ) • s.electricField p := rfl

/-- **C46.** Normalisation: the magnetic dipole at zero frequency is the static dipole,
`H = m / (4 π r³) (3 (r̂·o) r̂ - o)`. -/
theorem static_limit (h0 : s.frequency = 0) (hp : p ≠ s.location) :
    s.magneticField p = ((s.moment / (4 * Real.pi * (p - s.location).len ^ 3) : ℝ) : ℂ) •
      ((3 * (s.orientation.dot (p - s.location)) / (p - s.location).len ^ 2) • (p - s.location) -
        s.orientation).map (fun c : ℝ => (c : ℂ)) := by
  have hr : ((p - s.location).len : ℂ) ≠ 0 := by exact_mod_cast len_sub_ne_zero hp
  have hk : s.wavenumber = 0 := by
    have : Fdem.omega 0 = 0 := by simp [Fdem.omega]
    simp [Medium.wavenumber, Fdem.wavenumber, h0, this]
  ext <;> simp [magneticField, hk, V3.dot] <;> field_simp <;> ring_nf <;> simp

end MagneticDipole

/-- **C45.** Normalisation: at zero frequency the magnetic field of the electric dipole is that of the Biot–Savart law for
a current element, `I L / (4 π r³) o × R`. -/
theorem ElectricDipole.static_limit (s : ElectricDipole) (p : V3 ℝ) (h0 : s.frequency = 0) (hp : p ≠ s.location) :
    s.magneticField p = ((s.current * s.length / (4 * Real.pi * (p - s.location).len ^ 3) : ℝ) : ℂ) •
      (s.orientation.cross (p - s.location)).map (fun c : ℝ => (c : ℂ)) := by
  have hr : ((p - s.location).len : ℂ) ≠ 0 := by exact_mod_cast len_sub_ne_zero hp
  have hk : s.wavenumber = 0 := by
    have : Fdem.omega 0 = 0 := by simp [Fdem.omega]
    simp [Medium.wavenumber, Fdem.wavenumber, h0, this]
  ext <;> simp [ElectricDipole.magneticField, hk] <;> field_simp

end Verif.Fdem
