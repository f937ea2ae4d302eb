import Verif.Spec.Vec
import Verif.Spec.Erf
import Mathlib.Analysis.SpecialFunctions.Pow.Real

/-!
# Model of `geoana/em/tdem/base.py` and `geoana/em/tdem/wholespace.py` at one time and one point

Exact real arithmetic; attributes hold finite values.  The arrays over points and times are handled by
`check_xyz_dim` and `append_ndim`, modelled in `Verif.Model.Utils`.
-/

namespace Verif.Tdem

/-- `peak_time`: em/tdem/base.py:59. -/
noncomputable def peakTime (z sigma mu : ℝ) : ℝ := (mu * sigma * z ^ 2) / 6

/-- `diffusion_distance`: em/tdem/base.py:102. -/
noncomputable def diffusionDistance (time sigma mu : ℝ) : ℝ := Real.sqrt (2 * time / (mu * sigma))

/-- `theta`: em/tdem/base.py:129. -/
noncomputable def theta (time sigma mu : ℝ) : ℝ := Real.sqrt (mu * sigma / (4 * time))

/-- The attributes of `BaseTDEM` (em/tdem/base.py:132-178, em/base.py:36-136), with one time. -/
structure Medium where
  time : ℝ
  sigma : ℝ
  mu : ℝ

/-- `BaseTDEM.peak_time`: em/tdem/base.py:207. -/
noncomputable def Medium.peakTime (m : Medium) (z : ℝ) : ℝ := Tdem.peakTime z m.sigma m.mu

/-- `BaseTDEM.diffusion_distance`: em/tdem/base.py:232. -/
noncomputable def Medium.diffusionDistance (m : Medium) : ℝ := Tdem.diffusionDistance m.time m.sigma m.mu

/-- `BaseTDEM.theta`: em/tdem/base.py:259. -/
noncomputable def Medium.theta (m : Medium) : ℝ := Tdem.theta m.time m.sigma m.mu

/-! ## Electric dipole -/

/-- Attributes of `ElectricDipoleWholeSpace` (em/base.py:139-224, 325-396). -/
structure ElectricDipole extends Medium where
  location : V3 ℝ
  orientation : V3 ℝ
  length : ℝ
  current : ℝ

/-- `vector_potential`: em/tdem/wholespace.py:98-106. -/
noncomputable def ElectricDipole.vectorPotential (s : ElectricDipole) (xyz : V3 ℝ) : V3 ℝ :=
  let rVec := xyz - s.location
  let r := rVec.len
  let thetaR := s.theta * r
  s.orientation.map (fun c => s.current * s.length / (4 * Real.pi * r) * erf thetaR * c)

/-- `electric_field`: em/tdem/wholespace.py:180-200. -/
noncomputable def ElectricDipole.electricField (s : ElectricDipole) (xyz : V3 ℝ) : V3 ℝ :=
  let rVec := xyz - s.location
  let r := rVec.len
  let rHat := rVec.map (· / r)
  let thetaR := s.theta * r
  let rootPi := Real.sqrt Real.pi
  let front := s.current * s.length / (4 * Real.pi * s.sigma * r ^ 3)
  let commonPart := thetaR / rootPi * Real.exp (-thetaR ^ 2)
  let symTerm := 3 * erf thetaR - (4 * thetaR ^ 2 + 6) * commonPart
  let symDirection := rHat.map (fun c => rHat.dot s.orientation * c)
  let orientTerm := erf thetaR - (4 * thetaR ^ 2 + 2) * commonPart
  let orientDir := s.orientation
  (symDirection.map (symTerm * ·) - orientDir.map (orientTerm * ·)).map (front * ·)

/-- `current_density`: em/tdem/wholespace.py:274. -/
noncomputable def ElectricDipole.currentDensity (s : ElectricDipole) (xyz : V3 ℝ) : V3 ℝ :=
  (s.electricField xyz).map (s.sigma * ·)

/-- `magnetic_field`: em/tdem/wholespace.py:347-361. -/
noncomputable def ElectricDipole.magneticField (s : ElectricDipole) (xyz : V3 ℝ) : V3 ℝ :=
  let rVec := xyz - s.location
  let r := rVec.len
  let rHat := rVec.map (· / r)
  let thetaR := s.theta * r
  let term1 := (s.current * s.length) / (4 * Real.pi * r ^ 2)
  let term2 := erf thetaR - 2 / Real.sqrt Real.pi * thetaR * Real.exp (-thetaR ^ 2)
  (s.orientation.cross rHat).map (term1 * term2 * ·)

/-- `magnetic_field_time_deriv`: em/tdem/wholespace.py:434-449. -/
noncomputable def ElectricDipole.magneticFieldTimeDeriv (s : ElectricDipole) (xyz : V3 ℝ) : V3 ℝ :=
  let rVec := xyz - s.location
  let r := rVec.len
  let rHat := rVec.map (· / r)
  let thetaR := s.theta * r
  let term1 := (s.current * s.length) / (4 * Real.pi * r ^ 2)
  let term2dt := -2 * thetaR ^ 3 / (Real.sqrt Real.pi * s.time) * Real.exp (-thetaR ^ 2)
  (s.orientation.cross rHat).map (term1 * term2dt * ·)

/-- `magnetic_flux_density`: em/tdem/wholespace.py:523. -/
noncomputable def ElectricDipole.magneticFluxDensity (s : ElectricDipole) (xyz : V3 ℝ) : V3 ℝ :=
  (s.magneticField xyz).map (s.mu * ·)

/-- `magnetic_flux_density_time_deriv`: em/tdem/wholespace.py:597. -/
noncomputable def ElectricDipole.magneticFluxDensityTimeDeriv (s : ElectricDipole) (xyz : V3 ℝ) : V3 ℝ :=
  (s.magneticFieldTimeDeriv xyz).map (s.mu * ·)

/-! ## Plane wave -/

/-- Attributes of `TransientPlaneWave` (em/tdem/wholespace.py:616-680), with a vector orientation. -/
structure PlaneWave extends Medium where
  amplitude : ℝ
  orientation : V3 ℝ

/-- `electric_field`: em/tdem/wholespace.py:733-745. -/
noncomputable def PlaneWave.electricField (s : PlaneWave) (xyz : V3 ℝ) : V3 ℝ :=
  let e0 := s.amplitude
  let z := xyz.z
  let t := s.time
  let bunja := -e0 * (s.mu * s.sigma) ^ (0.5 : ℝ) * z * Real.exp (-(s.mu * s.sigma * z ^ 2) / (4 * t))
  let bunmo := 2 * Real.pi ^ (0.5 : ℝ) * t ^ (1.5 : ℝ)
  s.orientation.map (· * (bunja / bunmo))

/-- `current_density`: em/tdem/wholespace.py:798. -/
noncomputable def PlaneWave.currentDensity (s : PlaneWave) (xyz : V3 ℝ) : V3 ℝ :=
  (s.electricField xyz).map (s.sigma * ·)

/-- `magnetic_flux_density`: em/tdem/wholespace.py:904-921. -/
noncomputable def PlaneWave.magneticFluxDensity (s : PlaneWave) (xyz : V3 ℝ) : V3 ℝ :=
  let e0 := s.amplitude
  let z := xyz.z
  let t := s.time
  let bAmp := -e0 * Real.sqrt (s.sigma * s.mu / (Real.pi * t)) * Real.exp ((-s.mu * s.sigma * z ^ 2) / (4 * t))
  let bDir := s.orientation.cross ⟨0, 0, -1⟩
  bDir.map (· * bAmp)

/-- `magnetic_field`: em/tdem/wholespace.py:851. -/
noncomputable def PlaneWave.magneticField (s : PlaneWave) (xyz : V3 ℝ) : V3 ℝ :=
  (s.magneticFluxDensity xyz).map (· / s.mu)

end Verif.Tdem
