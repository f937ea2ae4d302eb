import Verif.Spec.Units
import Verif.Model.Fdem
import Verif.Model.Tdem
import Verif.Lemmas.Rotation
import Verif.Lemmas.ComplexSqrt

/-!
# C111: the results do not depend on the system of units (dipoles and plane waves in a whole space)
-/

namespace Verif

/-- The product of dimensions. -/
theorem Units.conv_pos (u : Units) (l m t i : ℤ) : 0 < u.conv l m t i := by
  have := u.length_pos; have := u.mass_pos; have := u.time_pos; have := u.current_pos
  unfold Units.conv
  positivity

/-- The named dimensions as quotients. -/
theorem Units.frequency_eq (u : Units) : u.frequency = (u.time)⁻¹ := by simp [Units.frequency, Units.conv]
theorem Units.conductivity_eq (u : Units) : u.conductivity = (u.length ^ 3)⁻¹ * u.mass⁻¹ * u.time ^ 3 * u.current ^ 2 := by
  simp [Units.conductivity, Units.conv, zpow_neg, zpow_ofNat]
theorem Units.permeability_eq (u : Units) : u.permeability = u.length * u.mass * (u.time ^ 2)⁻¹ * (u.current ^ 2)⁻¹ := by
  simp [Units.permeability, Units.conv, zpow_neg, zpow_ofNat]
theorem Units.permittivity_eq (u : Units) : u.permittivity = (u.length ^ 3)⁻¹ * u.mass⁻¹ * u.time ^ 4 * u.current ^ 2 := by
  simp [Units.permittivity, Units.conv, zpow_neg, zpow_ofNat]
theorem Units.voltage_eq (u : Units) : u.voltage = u.length ^ 2 * u.mass * (u.time ^ 3)⁻¹ * u.current⁻¹ := by
  simp [Units.voltage, Units.conv, zpow_neg, zpow_ofNat]
theorem Units.electricField_eq (u : Units) : u.electricField = u.length * u.mass * (u.time ^ 3)⁻¹ * u.current⁻¹ := by
  simp [Units.electricField, Units.conv, zpow_neg, zpow_ofNat]
theorem Units.currentDensity_eq (u : Units) : u.currentDensity = (u.length ^ 2)⁻¹ * u.current := by
  simp [Units.currentDensity, Units.conv, zpow_neg, zpow_ofNat]
theorem Units.magneticField_eq (u : Units) : u.magneticField = u.length⁻¹ * u.current := by
  simp [Units.magneticField, Units.conv]
theorem Units.fluxDensity_eq (u : Units) : u.fluxDensity = u.mass * (u.time ^ 2)⁻¹ * u.current⁻¹ := by
  simp [Units.fluxDensity, Units.conv, zpow_neg, zpow_ofNat]
theorem Units.magneticMoment_eq (u : Units) : u.magneticMoment = u.length ^ 2 * u.current := by
  simp [Units.magneticMoment, Units.conv, zpow_ofNat]
theorem Units.chargeDensity_eq (u : Units) : u.chargeDensity = (u.length ^ 2)⁻¹ * u.time * u.current := by
  simp [Units.chargeDensity, Units.conv, zpow_neg, zpow_ofNat]

theorem V3.smul_sub_len {a : ℝ} (ha : 0 < a) (p q : V3 ℝ) : (a • p - a • q).len = a * (p - q).len := by
  rw [← smul_sub, V3.len_smul, abs_of_pos ha]

namespace Fdem

/-- The medium in other units. -/
noncomputable def Medium.inUnits (u : Units) (m : Medium) : Medium :=
  ⟨u.frequency * m.frequency, u.conductivity * m.sigma, u.permeability * m.mu, u.permittivity * m.epsilon, m.quasistatic⟩

/-- The electric dipole in other units. -/
noncomputable def ElectricDipole.inUnits (u : Units) (s : ElectricDipole) : ElectricDipole :=
  ⟨s.toMedium.inUnits u, u.length • s.location, s.orientation, u.length * s.length, u.current * s.current⟩

theorem csqrt_scale {a : ℝ} (ha : 0 < a) (z : ℂ) : Complex.sqrt ((a : ℂ) ^ 2 * z) = a * Complex.sqrt z := by
  rcases eq_or_ne z 0 with rfl | hz
  · simp [Complex.sqrt]
  · have ha2 : (0 : ℝ) < a ^ 2 := by positivity
    have hac : (a : ℂ) ≠ 0 := Complex.ofReal_ne_zero.2 ha.ne'
    have e : ((Real.log (a ^ 2) : ℝ) : ℂ) = 2 * Complex.log a := by
      rw [← Complex.ofReal_log ha.le, Real.log_pow]
      push_cast
      ring
    rw [Complex.sqrt, Complex.sqrt, Complex.cpow_def_of_ne_zero (mul_ne_zero (pow_ne_zero 2 hac) hz), Complex.cpow_def_of_ne_zero hz, ← Complex.ofReal_pow,
      Complex.log_ofReal_mul ha2 hz, e, add_mul, Complex.exp_add, mul_right_comm, mul_inv_cancel₀ two_ne_zero, one_mul, Complex.exp_log hac]

theorem Medium.wavenumber_units (u : Units) (m : Medium) : (m.inUnits u).wavenumber = ((u.length⁻¹ : ℝ) : ℂ) * m.wavenumber := by
  have hL := u.length_pos.ne'; have hM := u.mass_pos.ne'; have hT := u.time_pos.ne'; have hI := u.current_pos.ne'
  have hL' := Complex.ofReal_ne_zero.2 hL; have hM' := Complex.ofReal_ne_zero.2 hM; have hT' := Complex.ofReal_ne_zero.2 hT
  have hI' := Complex.ofReal_ne_zero.2 hI
  have h : (0 : ℝ) < u.length⁻¹ := inv_pos.2 u.length_pos
  have hw : Fdem.omega (u.frequency * m.frequency) = u.time⁻¹ * Fdem.omega m.frequency := by
    simp only [Fdem.omega, u.frequency_eq]
    ring
  simp only [Medium.wavenumber, Fdem.wavenumber, Medium.inUnits, hw, u.conductivity_eq, u.permeability_eq, u.permittivity_eq]
  split_ifs
  all_goals
    rw [← csqrt_scale h]
    refine congrArg Complex.sqrt ?_
    push_cast
    field_simp

/-- **C111.** Harmonic electric dipole. -/
theorem ElectricDipole.units (u : Units) (s : ElectricDipole) (q : V3 ℝ) :
    (s.inUnits u).vectorPotential (u.length • q) = u.current • s.vectorPotential q ∧
    (s.inUnits u).electricField (u.length • q) = u.electricField • s.electricField q ∧
    (s.inUnits u).magneticField (u.length • q) = u.magneticField • s.magneticField q := by
  have hL := u.length_pos; have hM := u.mass_pos; have hT := u.time_pos; have hI := u.current_pos
  have hL' := Complex.ofReal_ne_zero.2 hL.ne'; have hM' := Complex.ofReal_ne_zero.2 hM.ne'; have hT' := Complex.ofReal_ne_zero.2 hT.ne'
  have hI' := Complex.ofReal_ne_zero.2 hI.ne'
  have hd : (u.length • q - u.length • s.location) = u.length • (q - s.location) := (smul_sub _ _ _).symm
  have hl : (u.length • (q - s.location)).len = u.length * (q - s.location).len := by rw [V3.len_smul, abs_of_pos hL]
  have hh : (u.length • (q - s.location)).map (· / (u.length * (q - s.location).len)) = (q - s.location).map (· / (q - s.location).len) := by
    ext <;> simp only [V3.map, V3.smul_x, V3.smul_y, V3.smul_z, smul_eq_mul] <;> exact mul_div_mul_left _ _ hL.ne'
  have hk : (s.inUnits u).wavenumber = ((u.length⁻¹ : ℝ) : ℂ) * s.wavenumber := Medium.wavenumber_units u s.toMedium
  have hkr (r : ℝ) : ((u.length⁻¹ : ℝ) : ℂ) * s.wavenumber * ((u.length * r : ℝ) : ℂ) = s.wavenumber * r := by
    push_cast
    field_simp
  refine ⟨?_, ?_, ?_⟩
  · simp only [ElectricDipole.vectorPotential, hk]
    simp only [ElectricDipole.inUnits, hd, hl, mul_assoc (-Complex.I), hkr]
    generalize (q - s.location).len = r
    generalize Complex.exp _ = e
    ext <;> simp only [V3.map, V3.smul_x, V3.smul_y, V3.smul_z, Complex.real_smul] <;> push_cast <;> field_simp
  · simp only [ElectricDipole.electricField, hk]
    simp only [ElectricDipole.inUnits, Medium.inUnits, hd, hl, hh, hkr, u.conductivity_eq, u.electricField_eq]
    generalize (q - s.location).len = r
    generalize Complex.exp _ = e
    ext <;> simp only [V3.map, V3.smul_x, V3.smul_y, V3.smul_z, Complex.real_smul] <;> push_cast <;> field_simp
  · simp only [ElectricDipole.magneticField, hk]
    simp only [ElectricDipole.inUnits, Medium.inUnits, hd, hl, hh, hkr, u.magneticField_eq]
    generalize (q - s.location).len = r
    generalize Complex.exp _ = e
    ext <;> simp only [V3.map, V3.smul_x, V3.smul_y, V3.smul_z, Complex.real_smul] <;> push_cast <;> field_simp

/-- **C111.** Current density and flux density of the harmonic electric dipole. -/
theorem ElectricDipole.units_media (u : Units) (s : ElectricDipole) (q : V3 ℝ) :
    (s.inUnits u).currentDensity (u.length • q) = u.currentDensity • s.currentDensity q ∧
    (s.inUnits u).magneticFluxDensity (u.length • q) = u.fluxDensity • s.magneticFluxDensity q := by
  have hL := u.length_pos; have hM := u.mass_pos; have hT := u.time_pos; have hI := u.current_pos
  have hL' := Complex.ofReal_ne_zero.2 hL.ne'; have hM' := Complex.ofReal_ne_zero.2 hM.ne'; have hT' := Complex.ofReal_ne_zero.2 hT.ne'
  have hI' := Complex.ofReal_ne_zero.2 hI.ne'
  obtain ⟨-, h1, h2⟩ := s.units u q
  constructor
  · simp only [ElectricDipole.currentDensity, h1]
    simp only [ElectricDipole.inUnits, Medium.inUnits, u.conductivity_eq, u.electricField_eq, u.currentDensity_eq]
    ext <;> simp only [V3.map, V3.smul_x, V3.smul_y, V3.smul_z, Complex.real_smul] <;> push_cast <;> field_simp
  · simp only [ElectricDipole.magneticFluxDensity, h2]
    simp only [ElectricDipole.inUnits, Medium.inUnits, u.permeability_eq, u.magneticField_eq, u.fluxDensity_eq]
    ext <;> simp only [V3.map, V3.smul_x, V3.smul_y, V3.smul_z, Complex.real_smul] <;> push_cast <;> field_simp

/-- The magnetic dipole in other units. -/
noncomputable def MagneticDipole.inUnits (u : Units) (s : MagneticDipole) : MagneticDipole :=
  ⟨s.toMedium.inUnits u, u.length • s.location, s.orientation, u.magneticMoment * s.moment⟩

theorem Medium.omega_units (u : Units) (m : Medium) : (m.inUnits u).omega = u.time⁻¹ * m.omega := by
  simp only [Medium.omega, Fdem.omega, Medium.inUnits, u.frequency_eq]
  ring

/-- **C111.** Harmonic magnetic dipole; its vector potential is measured in volts. -/
theorem MagneticDipole.units (u : Units) (s : MagneticDipole) (q : V3 ℝ) :
    (s.inUnits u).vectorPotential (u.length • q) = u.voltage • s.vectorPotential q ∧
    (s.inUnits u).electricField (u.length • q) = u.electricField • s.electricField q ∧
    (s.inUnits u).magneticField (u.length • q) = u.magneticField • s.magneticField q := by
  have hL := u.length_pos; have hM := u.mass_pos; have hT := u.time_pos; have hI := u.current_pos
  have hL' := Complex.ofReal_ne_zero.2 hL.ne'; have hM' := Complex.ofReal_ne_zero.2 hM.ne'; have hT' := Complex.ofReal_ne_zero.2 hT.ne'
  have hI' := Complex.ofReal_ne_zero.2 hI.ne'
  have hd : (u.length • q - u.length • s.location) = u.length • (q - s.location) := (smul_sub _ _ _).symm
  have hl : (u.length • (q - s.location)).len = u.length * (q - s.location).len := by rw [V3.len_smul, abs_of_pos hL]
  have hh : (u.length • (q - s.location)).map (· / (u.length * (q - s.location).len)) = (q - s.location).map (· / (q - s.location).len) := by
    ext <;> simp only [V3.map, V3.smul_x, V3.smul_y, V3.smul_z, smul_eq_mul] <;> exact mul_div_mul_left _ _ hL.ne'
  have hk : (s.inUnits u).wavenumber = ((u.length⁻¹ : ℝ) : ℂ) * s.wavenumber := Medium.wavenumber_units u s.toMedium
  have hkr (r : ℝ) : ((u.length⁻¹ : ℝ) : ℂ) * s.wavenumber * ((u.length * r : ℝ) : ℂ) = s.wavenumber * r := by
    push_cast
    field_simp
  have hw : (s.inUnits u).omega = u.time⁻¹ * s.omega := Medium.omega_units u s.toMedium
  refine ⟨?_, ?_, ?_⟩
  · simp only [MagneticDipole.vectorPotential, hk, hw]
    simp only [MagneticDipole.inUnits, Medium.inUnits, hd, hl, mul_assoc (-Complex.I), hkr, u.permeability_eq, u.magneticMoment_eq, u.voltage_eq]
    generalize (q - s.location).len = r
    generalize Complex.exp _ = e
    ext <;> simp only [V3.map, V3.smul_x, V3.smul_y, V3.smul_z, Complex.real_smul] <;> push_cast <;> field_simp
  · simp only [MagneticDipole.electricField, hk, hw]
    simp only [MagneticDipole.inUnits, Medium.inUnits, hd, hl, hh, hkr, u.permeability_eq, u.magneticMoment_eq, u.electricField_eq]
    generalize (q - s.location).len = r
    generalize Complex.exp _ = e
    ext <;> simp only [V3.map, V3.smul_x, V3.smul_y, V3.smul_z, Complex.real_smul] <;> push_cast <;> field_simp
  · simp only [MagneticDipole.magneticField, hk]
    simp only [MagneticDipole.inUnits, hd, hl, hh, hkr, u.magneticMoment_eq, u.magneticField_eq]
    generalize (q - s.location).len = r
    generalize Complex.exp _ = e
    ext <;> simp only [V3.map, V3.smul_x, V3.smul_y, V3.smul_z, Complex.real_smul] <;> push_cast <;> field_simp

/-- **C111.** Current density and flux density of the harmonic magnetic dipole. -/
theorem MagneticDipole.units_media (u : Units) (s : MagneticDipole) (q : V3 ℝ) :
    (s.inUnits u).currentDensity (u.length • q) = u.currentDensity • s.currentDensity q ∧
    (s.inUnits u).magneticFluxDensity (u.length • q) = u.fluxDensity • s.magneticFluxDensity q := by
  have hL := u.length_pos; have hM := u.mass_pos; have hT := u.time_pos; have hI := u.current_pos
  have hL' := Complex.ofReal_ne_zero.2 hL.ne'; have hM' := Complex.ofReal_ne_zero.2 hM.ne'; have hT' := Complex.ofReal_ne_zero.2 hT.ne'
  have hI' := Complex.ofReal_ne_zero.2 hI.ne'
  obtain ⟨-, h1, h2⟩ := s.units u q
  constructor
  · simp only [MagneticDipole.currentDensity, h1]
    simp only [MagneticDipole.inUnits, Medium.inUnits, u.conductivity_eq, u.electricField_eq, u.currentDensity_eq]
    ext <;> simp only [V3.map, V3.smul_x, V3.smul_y, V3.smul_z, Complex.real_smul] <;> push_cast <;> field_simp
  · simp only [MagneticDipole.magneticFluxDensity, h2]
    simp only [MagneticDipole.inUnits, Medium.inUnits, u.permeability_eq, u.magneticField_eq, u.fluxDensity_eq]
    ext <;> simp only [V3.map, V3.smul_x, V3.smul_y, V3.smul_z, Complex.real_smul] <;> push_cast <;> field_simp

/-- The plane wave in other units. -/
noncomputable def PlaneWave.inUnits (u : Units) (s : PlaneWave) : PlaneWave :=
  ⟨s.toMedium.inUnits u, u.electricField * s.amplitude, s.orientation⟩

/-- **C111.** Harmonic plane wave. -/
theorem PlaneWave.units (u : Units) (s : PlaneWave) (q : V3 ℝ) :
    (s.inUnits u).electricField (u.length • q) = u.electricField • s.electricField q ∧
    (s.inUnits u).currentDensity (u.length • q) = u.currentDensity • s.currentDensity q ∧
    (s.inUnits u).magneticFluxDensity (u.length • q) = u.fluxDensity • s.magneticFluxDensity q ∧
    (s.inUnits u).magneticField (u.length • q) = u.magneticField • s.magneticField q := by
  have hL := u.length_pos; have hM := u.mass_pos; have hT := u.time_pos; have hI := u.current_pos
  have hL' := Complex.ofReal_ne_zero.2 hL.ne'; have hM' := Complex.ofReal_ne_zero.2 hM.ne'; have hT' := Complex.ofReal_ne_zero.2 hT.ne'
  have hI' := Complex.ofReal_ne_zero.2 hI.ne'
  have hk : (s.inUnits u).wavenumber = ((u.length⁻¹ : ℝ) : ℂ) * s.wavenumber := Medium.wavenumber_units u s.toMedium
  have hkr (r : ℝ) : ((u.length⁻¹ : ℝ) : ℂ) * s.wavenumber * ((u.length * r : ℝ) : ℂ) = s.wavenumber * r := by
    push_cast
    field_simp
  have hw : (s.inUnits u).omega = u.time⁻¹ * s.omega := Medium.omega_units u s.toMedium
  have h1 : (s.inUnits u).electricField (u.length • q) = u.electricField • s.electricField q := by
    simp only [PlaneWave.electricField, hk, V3.smul_z, smul_eq_mul, mul_assoc Complex.I, hkr]
    simp only [PlaneWave.inUnits, u.electricField_eq]
    generalize Complex.exp _ = e
    ext <;> simp only [V3.map, V3.smul_x, V3.smul_y, V3.smul_z, Complex.real_smul] <;> push_cast <;> field_simp
  have h2 : (s.inUnits u).magneticFluxDensity (u.length • q) = u.fluxDensity • s.magneticFluxDensity q := by
    simp only [PlaneWave.magneticFluxDensity, hk, hw, V3.smul_z, smul_eq_mul, hkr]
    simp only [PlaneWave.inUnits, u.electricField_eq, u.fluxDensity_eq]
    generalize Complex.exp _ = e
    ext <;> simp only [V3.map, V3.smul_x, V3.smul_y, V3.smul_z, Complex.real_smul] <;> push_cast <;> field_simp
  refine ⟨h1, ?_, h2, ?_⟩
  · simp only [PlaneWave.currentDensity, h1]
    simp only [PlaneWave.inUnits, Medium.inUnits, u.conductivity_eq, u.electricField_eq, u.currentDensity_eq]
    ext <;> simp only [V3.map, V3.smul_x, V3.smul_y, V3.smul_z, Complex.real_smul] <;> push_cast <;> field_simp
  · simp only [PlaneWave.magneticField, h2]
    simp only [PlaneWave.inUnits, Medium.inUnits, u.permeability_eq, u.magneticField_eq, u.fluxDensity_eq]
    ext <;> simp only [V3.map, V3.smul_x, V3.smul_y, V3.smul_z, Complex.real_smul] <;> push_cast <;> field_simp

theorem sqrt_scale {a : ℝ} (ha : 0 < a) (x : ℝ) : Real.sqrt (a ^ 2 * x) = a * Real.sqrt x := by
  rw [Real.sqrt_mul (sq_nonneg a), Real.sqrt_sq ha.le]

/-- **C111.** The wave number is measured per metre, the skin depth in quasi-static mode in metres, the complex conductivity in siemens per metre. -/
theorem Medium.units_partial (u : Units) (m : Medium) :
    (m.inUnits u).omega = u.frequency * m.omega ∧ (m.inUnits u).wavenumber = ((u.length⁻¹ : ℝ) : ℂ) * m.wavenumber ∧
    (m.quasistatic.truthy → (m.inUnits u).skinDepth = u.length * m.skinDepth) ∧ (m.inUnits u).sigmaHat = (u.conductivity : ℂ) * m.sigmaHat := by
  have hL := u.length_pos; have hM := u.mass_pos; have hT := u.time_pos; have hI := u.current_pos
  have hL' := Complex.ofReal_ne_zero.2 hL.ne'; have hM' := Complex.ofReal_ne_zero.2 hM.ne'; have hT' := Complex.ofReal_ne_zero.2 hT.ne'
  have hI' := Complex.ofReal_ne_zero.2 hI.ne'
  refine ⟨by rw [Medium.omega_units, u.frequency_eq], Medium.wavenumber_units u m, fun h => ?_, ?_⟩
  · have hw : Fdem.omega (u.frequency * m.frequency) = u.time⁻¹ * Fdem.omega m.frequency := by
      simp only [Fdem.omega, u.frequency_eq]
      ring
    simp only [Medium.skinDepth, Fdem.skinDepth, Medium.inUnits, hw, u.conductivity_eq, u.permeability_eq, u.permittivity_eq]
    rw [if_pos h, if_pos h, ← sqrt_scale hL]
    refine congrArg Real.sqrt ?_
    field_simp
  · simp only [Medium.sigmaHat, Fdem.sigmaHat, Medium.inUnits, Fdem.omega, u.frequency_eq, u.conductivity_eq, u.permittivity_eq]
    split_ifs <;> push_cast <;> field_simp

/-- In the other mode the number that `skin_depth` returns is not a length: it has the dimension of a time squared over a length. -/
theorem Medium.skinDepth_not_length (u : Units) (m : Medium) (h : ¬ m.quasistatic.truthy) :
    (m.inUnits u).skinDepth = u.time ^ 2 / u.length * m.skinDepth := by
  have hL := u.length_pos; have hM := u.mass_pos; have hT := u.time_pos; have hI := u.current_pos
  have hL' := Complex.ofReal_ne_zero.2 hL.ne'; have hM' := Complex.ofReal_ne_zero.2 hM.ne'; have hT' := Complex.ofReal_ne_zero.2 hT.ne'
  have hI' := Complex.ofReal_ne_zero.2 hI.ne'
  have hw : Fdem.omega (u.frequency * m.frequency) = u.time⁻¹ * Fdem.omega m.frequency := by
    simp only [Fdem.omega, u.frequency_eq]
    ring
  simp only [Medium.skinDepth, Fdem.skinDepth, Medium.inUnits, hw, u.conductivity_eq, u.permeability_eq, u.permittivity_eq]
  rw [if_neg h, if_neg h]
  have e1 : ((u.length ^ 3)⁻¹ * u.mass⁻¹ * u.time ^ 3 * u.current ^ 2 * m.sigma) ^ 2 /
      (u.time⁻¹ * Fdem.omega m.frequency * ((u.length ^ 3)⁻¹ * u.mass⁻¹ * u.time ^ 4 * u.current ^ 2 * m.epsilon)) ^ 2 =
      m.sigma ^ 2 / (Fdem.omega m.frequency * m.epsilon) ^ 2 := by
    field_simp
  rw [e1]
  generalize Real.sqrt (1 + m.sigma ^ 2 / (Fdem.omega m.frequency * m.epsilon) ^ 2) - 1 = x
  have e2 : u.length * u.mass * (u.time ^ 2)⁻¹ * (u.current ^ 2)⁻¹ * m.mu * ((u.length ^ 3)⁻¹ * u.mass⁻¹ * u.time ^ 4 * u.current ^ 2 * m.epsilon) / 2 * x =
      (u.time / u.length) ^ 2 * (m.mu * m.epsilon / 2 * x) := by
    field_simp
  rw [e2, sqrt_scale (by positivity)]
  field_simp

/-- A change of the unit of time, which should leave a length as it is. -/
theorem Medium.skinDepth_depends_on_units : ∃ (u : Units) (m : Medium), 0 < m.frequency ∧ 0 < m.sigma ∧ 0 < m.mu ∧ 0 < m.epsilon ∧ u.length = 1 ∧
    (m.inUnits u).skinDepth ≠ m.skinDepth := by
  refine ⟨⟨1, 1, 2, 1, by norm_num, by norm_num, by norm_num, by norm_num⟩, ⟨1, 1, 1, 1, .bool false⟩, one_pos, one_pos, one_pos, one_pos, rfl, ?_⟩
  rw [Medium.skinDepth_not_length _ _ (by simp [Flag.truthy])]
  have : 0 < Medium.skinDepth ⟨1, 1, 1, 1, .bool false⟩ := by
    have hw : 0 < Fdem.omega 1 := by simp only [Fdem.omega]; positivity
    simp only [Medium.skinDepth, Fdem.skinDepth, Flag.truthy, Bool.false_eq_true, if_false]
    refine div_pos (Real.sqrt_pos.2 (mul_pos (by norm_num) (sub_pos.2 ?_))) hw
    rw [Real.lt_sqrt (by norm_num)]
    have : (0 : ℝ) < 1 ^ 2 / (Fdem.omega 1 * 1) ^ 2 := by positivity
    linarith
  norm_num
  linarith

end Fdem

end Verif
