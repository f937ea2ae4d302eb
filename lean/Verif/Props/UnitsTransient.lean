import Verif.Props.UnitsDipoles
import Verif.Model.TdemSimple

/-!
# C111: the results do not depend on the system of units (transient sources)
-/

namespace Verif.Tdem

/-- The medium in other units. -/
noncomputable def Medium.inUnits (u : Units) (m : Medium) : Medium :=
  ⟨u.time * m.time, u.conductivity * m.sigma, u.permeability * m.mu⟩

/-- The electric dipole in other units. -/
noncomputable def ElectricDipole.inUnits (u : Units) (s : ElectricDipole) : ElectricDipole :=
  ⟨s.toMedium.inUnits u, u.length • s.location, s.orientation, u.length * s.length, u.current * s.current⟩

/-- The plane wave in other units.  Its amplitude is the time integral of an electric field. -/
noncomputable def PlaneWave.inUnits (u : Units) (s : PlaneWave) : PlaneWave :=
  ⟨s.toMedium.inUnits u, u.electricField * u.time * s.amplitude, s.orientation⟩

theorem muSigma_units (u : Units) (sigma mu : ℝ) :
    u.permeability * mu * (u.conductivity * sigma) = u.time / u.length ^ 2 * (mu * sigma) := by
  have hL := u.length_pos; have hM := u.mass_pos; have hT := u.time_pos; have hI := u.current_pos
  rw [u.permeability_eq, u.conductivity_eq]
  field_simp

/-- **C111.** The peak time is a time, the diffusion distance a length and `theta` the inverse of a length. -/
theorem times_units (u : Units) (z t sigma mu : ℝ) :
    peakTime (u.length * z) (u.conductivity * sigma) (u.permeability * mu) = u.time * peakTime z sigma mu ∧
    diffusionDistance (u.time * t) (u.conductivity * sigma) (u.permeability * mu) = u.length * diffusionDistance t sigma mu ∧
    theta (u.time * t) (u.conductivity * sigma) (u.permeability * mu) = u.length⁻¹ * theta t sigma mu := by
  have hL := u.length_pos; have hM := u.mass_pos; have hT := u.time_pos; have hI := u.current_pos
  refine ⟨?_, ?_, ?_⟩
  · simp only [peakTime, muSigma_units]
    field_simp
  · simp only [diffusionDistance, muSigma_units]
    rw [← Fdem.sqrt_scale hL]
    refine congrArg Real.sqrt ?_
    field_simp
  · simp only [theta, muSigma_units]
    rw [← Fdem.sqrt_scale (inv_pos.2 hL)]
    refine congrArg Real.sqrt ?_
    field_simp

set_option maxHeartbeats 1000000 in
/-- **C111.** Transient electric dipole. -/
theorem ElectricDipole.units (u : Units) (s : ElectricDipole) (q : V3 ℝ) :
    (s.inUnits u).vectorPotential (u.length • q) = u.current • s.vectorPotential q ∧
    (s.inUnits u).electricField (u.length • q) = u.electricField • s.electricField q ∧
    (s.inUnits u).magneticField (u.length • q) = u.magneticField • s.magneticField q ∧
    (s.inUnits u).magneticFieldTimeDeriv (u.length • q) = (u.magneticField / u.time) • s.magneticFieldTimeDeriv q := by
  have hL := u.length_pos; have hM := u.mass_pos; have hT := u.time_pos; have hI := u.current_pos
  have hd : (u.length • q - u.length • s.location) = u.length • (q - s.location) := (smul_sub _ _ _).symm
  have hl : (u.length • (q - s.location)).len = u.length * (q - s.location).len := by rw [V3.len_smul, abs_of_pos hL]
  have hh : (u.length • (q - s.location)).map (· / (u.length * (q - s.location).len)) = (q - s.location).map (· / (q - s.location).len) := by
    ext <;> simp only [V3.map, V3.smul_x, V3.smul_y, V3.smul_z, smul_eq_mul] <;> exact mul_div_mul_left _ _ hL.ne'
  have hk : (s.inUnits u).theta = u.length⁻¹ * s.theta := (times_units u 0 s.time s.sigma s.mu).2.2
  have hkr (r : ℝ) : u.length⁻¹ * s.theta * (u.length * r) = s.theta * r := by field_simp
  refine ⟨?_, ?_, ?_, ?_⟩
  · simp only [ElectricDipole.vectorPotential, hk]
    simp only [ElectricDipole.inUnits, hd, hl, hkr]
    generalize (q - s.location).len = r
    generalize erf _ = e
    ext <;> simp only [V3.map, V3.smul_x, V3.smul_y, V3.smul_z, smul_eq_mul] <;> field_simp
  · simp only [ElectricDipole.electricField, hk]
    simp only [ElectricDipole.inUnits, Medium.inUnits, hd, hl, hh, hkr, u.conductivity_eq, u.electricField_eq]
    generalize (q - s.location).len = r
    generalize s.theta * r = x
    generalize erf _ = e
    generalize Real.exp _ = f
    generalize Real.sqrt _ = g
    ext <;> simp only [V3.map, V3.smul_x, V3.smul_y, V3.smul_z, V3.sub_x, V3.sub_y, V3.sub_z, smul_eq_mul] <;> field_simp
  · simp only [ElectricDipole.magneticField, hk]
    simp only [ElectricDipole.inUnits, Medium.inUnits, hd, hl, hh, hkr, u.magneticField_eq]
    generalize (q - s.location).len = r
    generalize s.theta * r = x
    generalize erf _ = e
    generalize Real.exp _ = f
    generalize Real.sqrt _ = g
    generalize V3.cross (α := ℝ) _ _ = v
    generalize e - 2 / g * x * f = y
    ext <;> simp only [V3.map, V3.smul_x, V3.smul_y, V3.smul_z, smul_eq_mul] <;> field_simp
  · simp only [ElectricDipole.magneticFieldTimeDeriv, hk]
    simp only [ElectricDipole.inUnits, Medium.inUnits, hd, hl, hh, hkr, u.magneticField_eq]
    generalize (q - s.location).len = r
    generalize s.theta * r = x
    generalize Real.exp _ = f
    generalize Real.sqrt _ = g
    generalize V3.cross (α := ℝ) _ _ = v
    ext <;> simp only [V3.map, V3.smul_x, V3.smul_y, V3.smul_z, smul_eq_mul] <;> field_simp

/-- **C111.** Current density and flux density of the transient electric dipole. -/
theorem ElectricDipole.units_media (u : Units) (s : ElectricDipole) (q : V3 ℝ) :
    (s.inUnits u).currentDensity (u.length • q) = u.currentDensity • s.currentDensity q ∧
    (s.inUnits u).magneticFluxDensity (u.length • q) = u.fluxDensity • s.magneticFluxDensity q ∧
    (s.inUnits u).magneticFluxDensityTimeDeriv (u.length • q) = (u.fluxDensity / u.time) • s.magneticFluxDensityTimeDeriv q := by
  have hL := u.length_pos; have hM := u.mass_pos; have hT := u.time_pos; have hI := u.current_pos
  obtain ⟨-, h1, h2, h3⟩ := s.units u q
  refine ⟨?_, ?_, ?_⟩
  · simp only [ElectricDipole.currentDensity, h1]
    simp only [ElectricDipole.inUnits, Medium.inUnits, u.conductivity_eq, u.electricField_eq, u.currentDensity_eq]
    ext <;> simp only [V3.map, V3.smul_x, V3.smul_y, V3.smul_z, smul_eq_mul] <;> field_simp
  · simp only [ElectricDipole.magneticFluxDensity, h2]
    simp only [ElectricDipole.inUnits, Medium.inUnits, u.permeability_eq, u.magneticField_eq, u.fluxDensity_eq]
    ext <;> simp only [V3.map, V3.smul_x, V3.smul_y, V3.smul_z, smul_eq_mul] <;> field_simp
  · simp only [ElectricDipole.magneticFluxDensityTimeDeriv, h3]
    simp only [ElectricDipole.inUnits, Medium.inUnits, u.permeability_eq, u.magneticField_eq, u.fluxDensity_eq]
    ext <;> simp only [V3.map, V3.smul_x, V3.smul_y, V3.smul_z, smul_eq_mul] <;> field_simp

/-- **C111.** Transient plane wave. -/
theorem PlaneWave.units (u : Units) (s : PlaneWave) (hs : 0 ≤ s.mu * s.sigma) (ht : 0 < s.time) (q : V3 ℝ) :
    (s.inUnits u).electricField (u.length • q) = u.electricField • s.electricField q ∧
    (s.inUnits u).currentDensity (u.length • q) = u.currentDensity • s.currentDensity q ∧
    (s.inUnits u).magneticFluxDensity (u.length • q) = u.fluxDensity • s.magneticFluxDensity q ∧
    (s.inUnits u).magneticField (u.length • q) = u.magneticField • s.magneticField q := by
  have hL := u.length_pos; have hM := u.mass_pos; have hT := u.time_pos; have hI := u.current_pos
  have hms := muSigma_units u s.sigma s.mu
  have hsm : u.conductivity * s.sigma * (u.permeability * s.mu) = u.time / u.length ^ 2 * (s.mu * s.sigma) := by rw [← hms]; ring
  have hx : -(u.time / u.length ^ 2 * (s.mu * s.sigma) * (u.length * q.z) ^ 2) / (4 * (u.time * s.time)) =
      -(s.mu * s.sigma * q.z ^ 2) / (4 * s.time) := by field_simp
  have hx' : -(u.permeability * s.mu) * (u.conductivity * s.sigma) * (u.length * q.z) ^ 2 / (4 * (u.time * s.time)) =
      -s.mu * s.sigma * q.z ^ 2 / (4 * s.time) := by
    rw [neg_mul, hms]
    field_simp
  have h1 : (s.inUnits u).electricField (u.length • q) = u.electricField • s.electricField q := by
    simp only [PlaneWave.electricField, V3.smul_z, smul_eq_mul]
    simp only [PlaneWave.inUnits, Medium.inUnits, hms, hx]
    have e1 : (u.time / u.length ^ 2 * (s.mu * s.sigma)) ^ (0.5 : ℝ) = u.time ^ (0.5 : ℝ) / u.length * (s.mu * s.sigma) ^ (0.5 : ℝ) := by
      rw [Real.mul_rpow (by positivity) hs, Real.div_rpow hT.le (by positivity), ← Real.rpow_natCast, ← Real.rpow_mul hL.le]
      norm_num
    have e2 : (u.time * s.time) ^ (1.5 : ℝ) = u.time * u.time ^ (0.5 : ℝ) * s.time ^ (1.5 : ℝ) := by
      rw [Real.mul_rpow hT.le ht.le]
      congr 1
      rw [show (1.5 : ℝ) = 1 + 0.5 by norm_num, Real.rpow_add hT, Real.rpow_one]
    rw [e1, e2]
    have h5 : u.time ^ (0.5 : ℝ) ≠ 0 := (Real.rpow_pos_of_pos hT _).ne'
    generalize u.time ^ (0.5 : ℝ) = a at *
    generalize Real.exp _ = e
    generalize (s.mu * s.sigma) ^ (0.5 : ℝ) = b
    generalize s.time ^ (1.5 : ℝ) = d
    generalize Real.pi ^ (0.5 : ℝ) = f
    ext <;> simp only [V3.map, V3.smul_x, V3.smul_y, V3.smul_z, smul_eq_mul] <;> field_simp
  have h2 : (s.inUnits u).magneticFluxDensity (u.length • q) = u.fluxDensity • s.magneticFluxDensity q := by
    simp only [PlaneWave.magneticFluxDensity, V3.smul_z, smul_eq_mul]
    simp only [PlaneWave.inUnits, Medium.inUnits, hsm, hx']
    have e1 : u.time / u.length ^ 2 * (s.mu * s.sigma) / (Real.pi * (u.time * s.time)) = (u.length⁻¹) ^ 2 * (s.sigma * s.mu / (Real.pi * s.time)) := by
      field_simp
    rw [e1, Fdem.sqrt_scale (inv_pos.2 hL), u.electricField_eq, u.fluxDensity_eq]
    generalize Real.exp _ = e
    generalize Real.sqrt _ = b
    ext <;> simp only [V3.map, V3.smul_x, V3.smul_y, V3.smul_z, smul_eq_mul] <;> field_simp
  refine ⟨h1, ?_, h2, ?_⟩
  · simp only [PlaneWave.currentDensity, h1]
    simp only [PlaneWave.inUnits, Medium.inUnits, u.conductivity_eq, u.electricField_eq, u.currentDensity_eq]
    ext <;> simp only [V3.map, V3.smul_x, V3.smul_y, V3.smul_z, smul_eq_mul] <;> field_simp
  · simp only [PlaneWave.magneticField, h2]
    simp only [PlaneWave.inUnits, Medium.inUnits, u.permeability_eq, u.magneticField_eq, u.fluxDensity_eq]
    ext <;> simp only [V3.map, V3.smul_x, V3.smul_y, V3.smul_z, smul_eq_mul] <;> field_simp

example (u : Units) (q : V3 ℝ) := PlaneWave.units u ⟨⟨1, 1, 1⟩, 1, ⟨1, 0, 0⟩⟩ (by norm_num) (by norm_num) q

/-- **C111.** Horizontal loop at the surface of the half-space. -/
theorem loop_units (u : Units) (t sigma mu radius current turns : ℝ) :
    loopField (u.time * t) (u.conductivity * sigma) (u.permeability * mu) (u.length * radius) (u.current * current) turns =
      u.magneticField * loopField t sigma mu radius current turns ∧
    loopFlux (u.time * t) (u.conductivity * sigma) (u.permeability * mu) (u.length * radius) (u.current * current) turns =
      u.fluxDensity * loopFlux t sigma mu radius current turns ∧
    loopFluxTimeDeriv (u.time * t) (u.conductivity * sigma) (u.permeability * mu) (u.length * radius) (u.current * current) turns =
      u.fluxDensity / u.time * loopFluxTimeDeriv t sigma mu radius current turns ∧
    loopFieldTimeDeriv (u.time * t) (u.conductivity * sigma) (u.permeability * mu) (u.length * radius) (u.current * current) turns =
      u.magneticField / u.time * loopFieldTimeDeriv t sigma mu radius current turns := by
  have hL := u.length_pos; have hM := u.mass_pos; have hT := u.time_pos; have hI := u.current_pos
  have hk := (times_units u 0 t sigma mu).2.2
  have hkr : u.length⁻¹ * theta t sigma mu * (u.length * radius) = theta t sigma mu * radius := by field_simp
  have h1 : loopField (u.time * t) (u.conductivity * sigma) (u.permeability * mu) (u.length * radius) (u.current * current) turns =
      u.magneticField * loopField t sigma mu radius current turns := by
    simp only [loopField, hk, hkr, u.magneticField_eq]
    generalize theta t sigma mu * radius = x
    generalize erf _ = e
    generalize Real.exp _ = f
    generalize Real.sqrt _ = g
    generalize 3 / (g * x) * f + (1 - 3 / (2 * x ^ 2)) * e = y
    field_simp
  have h2 : loopFluxTimeDeriv (u.time * t) (u.conductivity * sigma) (u.permeability * mu) (u.length * radius) (u.current * current) turns =
      u.fluxDensity / u.time * loopFluxTimeDeriv t sigma mu radius current turns := by
    simp only [loopFluxTimeDeriv, hk, hkr]
    simp only [u.conductivity_eq, u.fluxDensity_eq]
    generalize theta t sigma mu * radius = x
    generalize erf _ = e
    generalize Real.exp _ = f
    generalize Real.sqrt _ = g
    field_simp
  refine ⟨h1, ?_, h2, ?_⟩
  · simp only [loopFlux, h1]
    simp only [u.permeability_eq, u.magneticField_eq, u.fluxDensity_eq]
    field_simp
  · simp only [loopFieldTimeDeriv, h2]
    simp only [u.permeability_eq, u.magneticField_eq, u.fluxDensity_eq]
    field_simp

theorem arctan2_scale {a : ℝ} (ha : 0 < a) (x y : ℝ) : Spatial.arctan2 (a * y) (a * x) = Spatial.arctan2 y x := by
  have h : (⟨a * x, a * y⟩ : ℂ) = a * ⟨x, y⟩ := by
    apply Complex.ext <;> simp
  rw [Spatial.arctan2, Spatial.arctan2, h, Complex.arg_real_mul _ ha]

/-- **C111.** Vertical magnetic dipole at the surface of the half-space. -/
theorem surfaceDipole_units (u : Units) (t x y sigma mu moment : ℝ) :
    dipoleField (u.time * t) (u.length * x) (u.length * y) (u.conductivity * sigma) (u.permeability * mu) (u.magneticMoment * moment) =
      u.magneticField • dipoleField t x y sigma mu moment ∧
    dipoleFieldTimeDeriv (u.time * t) (u.length * x) (u.length * y) (u.conductivity * sigma) (u.permeability * mu) (u.magneticMoment * moment) =
      (u.magneticField / u.time) • dipoleFieldTimeDeriv t x y sigma mu moment ∧
    dipoleFlux (u.time * t) (u.length * x) (u.length * y) (u.conductivity * sigma) (u.permeability * mu) (u.magneticMoment * moment) =
      u.fluxDensity • dipoleFlux t x y sigma mu moment ∧
    dipoleFluxTimeDeriv (u.time * t) (u.length * x) (u.length * y) (u.conductivity * sigma) (u.permeability * mu) (u.magneticMoment * moment) =
      (u.fluxDensity / u.time) • dipoleFluxTimeDeriv t x y sigma mu moment := by
  have hL := u.length_pos; have hM := u.mass_pos; have hT := u.time_pos; have hI := u.current_pos
  have hk := (times_units u 0 t sigma mu).2.2
  have hr : √((u.length * x) ^ 2 + (u.length * y) ^ 2) = u.length * √(x ^ 2 + y ^ 2) := by
    rw [← Fdem.sqrt_scale hL]
    refine congrArg Real.sqrt ?_
    ring
  have hkr (r : ℝ) : u.length⁻¹ * theta t sigma mu * (u.length * r) = theta t sigma mu * r := by field_simp
  have h1 : dipoleField (u.time * t) (u.length * x) (u.length * y) (u.conductivity * sigma) (u.permeability * mu) (u.magneticMoment * moment) =
      u.magneticField • dipoleField t x y sigma mu moment := by
    simp only [dipoleField, hk, hr, hkr, arctan2_scale hL, u.magneticField_eq, u.magneticMoment_eq]
    generalize √(x ^ 2 + y ^ 2) = r
    generalize theta t sigma mu * r = w
    generalize Real.cos _ = c
    generalize Real.sin _ = s
    generalize (9 / (2 * w ^ 2) - 1) * erf w - (9 / w + 4 * w) / √Real.pi * Real.exp (-w ^ 2) = e
    generalize besselIe 1 (w ^ 2 / 2) - besselIe 2 (w ^ 2 / 2) = f
    ext <;> simp only [V3.smul_x, V3.smul_y, V3.smul_z, smul_eq_mul] <;> field_simp
  have h2 : dipoleFieldTimeDeriv (u.time * t) (u.length * x) (u.length * y) (u.conductivity * sigma) (u.permeability * mu) (u.magneticMoment * moment) =
      (u.magneticField / u.time) • dipoleFieldTimeDeriv t x y sigma mu moment := by
    simp only [dipoleFieldTimeDeriv, hk, hr, hkr, arctan2_scale hL, u.magneticField_eq, u.magneticMoment_eq]
    generalize √(x ^ 2 + y ^ 2) = r
    generalize theta t sigma mu * r = w
    generalize Real.cos _ = c
    generalize Real.sin _ = s
    generalize 9 / (2 * w ^ 2) * erf w - (4 * w ^ 3 + 6 * w + 9 / w) / √Real.pi * Real.exp (-w ^ 2) = e
    generalize (1 + w ^ 2) * besselIe 0 (w ^ 2 / 2) - (2 + w ^ 2 + 4 / w ^ 2) * besselIe 1 (w ^ 2 / 2) = f
    ext <;> simp only [V3.smul_x, V3.smul_y, V3.smul_z, smul_eq_mul] <;> field_simp
  refine ⟨h1, h2, ?_, ?_⟩
  · simp only [dipoleFlux, h1]
    simp only [u.permeability_eq, u.magneticField_eq, u.fluxDensity_eq]
    ext <;> simp only [V3.smul_x, V3.smul_y, V3.smul_z, smul_eq_mul] <;> field_simp
  · simp only [dipoleFluxTimeDeriv, h2]
    simp only [u.permeability_eq, u.magneticField_eq, u.fluxDensity_eq]
    ext <;> simp only [V3.smul_x, V3.smul_y, V3.smul_z, smul_eq_mul] <;> field_simp

end Verif.Tdem
