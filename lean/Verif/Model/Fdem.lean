import Verif.Spec.Vec
import Verif.Py.Flag
import Mathlib.Analysis.RCLike.Sqrt
import Mathlib.Analysis.SpecialFunctions.Trigonometric.Basic

/-!
# Model of `geoana/em/fdem/base.py` and `geoana/em/fdem/wholespace.py` at one frequency and one point

Exact complex arithmetic; attributes hold finite values.  `np.sqrt` on complex input is the principal root
(`Complex.sqrt`).  The arrays over points and frequencies are handled by `check_xyz_dim` and `append_ndim`, modelled
in `Verif.Model.Utils`.
-/

namespace Verif.Fdem

open Complex (I)

/-- `omega`: em/fdem/base.py:39. -/
noncomputable def omega (frequency : ℝ) : ℝ := 2 * Real.pi * frequency

/-- `wavenumber`: em/fdem/base.py:79-82. -/
noncomputable def wavenumber (frequency sigma mu epsilon : ℝ) (quasistatic : Flag) : ℂ :=
  let w := omega frequency
  if quasistatic.isTrue then Complex.sqrt (-I * w * mu * sigma)
  else Complex.sqrt (w ^ 2 * mu * epsilon - I * w * mu * sigma)

/-- `skin_depth`: em/fdem/base.py:127-130. -/
noncomputable def skinDepth (frequency sigma mu epsilon : ℝ) (quasistatic : Flag) : ℝ :=
  let w := omega frequency
  if quasistatic.truthy then Real.sqrt (2 / (w * sigma * mu))
  else Real.sqrt ((mu * epsilon / 2) * (Real.sqrt (1 + sigma ^ 2 / (w * epsilon) ^ 2) - 1)) / w

/-- `sigma_hat`: em/fdem/base.py:161-163. -/
noncomputable def sigmaHat (frequency sigma epsilon : ℝ) (quasistatic : Flag) : ℂ :=
  if quasistatic.isTrue then sigma
  else sigma + I * omega frequency * epsilon

/-- The attributes of `BaseFDEM` (em/fdem/base.py:172-219, em/base.py:36-136), with one frequency. -/
structure Medium where
  frequency : ℝ
  sigma : ℝ
  mu : ℝ
  epsilon : ℝ
  quasistatic : Flag

/-- `BaseFDEM.omega`: em/fdem/base.py:236. -/
noncomputable def Medium.omega (m : Medium) : ℝ := Fdem.omega m.frequency

/-- `BaseFDEM.sigma_hat`: em/fdem/base.py:256-262.  The final `np.real` only changes the dtype: it is applied when
all imaginary parts are zero. -/
noncomputable def Medium.sigmaHat (m : Medium) : ℂ :=
  Fdem.sigmaHat m.frequency m.sigma m.epsilon m.quasistatic

/-- `BaseFDEM.wavenumber`: em/fdem/base.py:288-290. -/
noncomputable def Medium.wavenumber (m : Medium) : ℂ :=
  Fdem.wavenumber m.frequency m.sigma m.mu m.epsilon m.quasistatic

/-- `BaseFDEM.skin_depth`: em/fdem/base.py:324-326. -/
noncomputable def Medium.skinDepth (m : Medium) : ℝ :=
  Fdem.skinDepth m.frequency m.sigma m.mu m.epsilon m.quasistatic

/-! ## Electric dipole -/

/-- Attributes of `ElectricDipoleWholeSpace` (em/base.py:139-224, 325-396). -/
structure ElectricDipole extends Medium where
  location : V3 ℝ
  orientation : V3 ℝ
  length : ℝ
  current : ℝ

/-- `vector_potential`: em/fdem/wholespace.py:98-106. -/
noncomputable def ElectricDipole.vectorPotential (s : ElectricDipole) (xyz : V3 ℝ) : V3 ℂ :=
  let rVec := xyz - s.location
  let r := rVec.len
  let k := s.wavenumber
  let a := s.current * s.length / (4 * Real.pi * r) * Complex.exp (-I * k * r)
  s.orientation.map (fun c : ℝ => a * c)

/-- `electric_field`: em/fdem/wholespace.py:190-207. -/
noncomputable def ElectricDipole.electricField (s : ElectricDipole) (xyz : V3 ℝ) : V3 ℂ :=
  let rVec := xyz - s.location
  let r := rVec.len
  let rHat := rVec.map (· / r)
  let k := s.wavenumber
  let kr := k * r
  let ikr := I * kr
  let front := (s.current * s.length) / (4 * Real.pi * s.sigma * r ^ 3) * Complex.exp (-ikr)
  let d := rHat.dot s.orientation
  let symmetric := rHat.map (fun c : ℝ => d * (-kr ^ 2 + 3 * ikr + 3) * c)
  let oriented := s.orientation.map (fun c : ℝ => (kr ^ 2 - ikr - 1) * c)
  (symmetric + oriented).map (fun c => front * c)

/-- `current_density`: em/fdem/wholespace.py:291. -/
noncomputable def ElectricDipole.currentDensity (s : ElectricDipole) (xyz : V3 ℝ) : V3 ℂ :=
  (s.electricField xyz).map (fun c => s.sigma * c)

/-- `magnetic_field`: em/fdem/wholespace.py:373-387. -/
noncomputable def ElectricDipole.magneticField (s : ElectricDipole) (xyz : V3 ℝ) : V3 ℂ :=
  let rVec := xyz - s.location
  let r := rVec.len
  let rHat := rVec.map (· / r)
  let k := s.wavenumber
  let kr := k * r
  let ikr := I * kr
  let front := s.current * s.length / (4 * Real.pi * r ^ 2) * (ikr + 1) * Complex.exp (-ikr)
  (s.orientation.cross rHat).map (fun c : ℝ => front * c)

/-- `magnetic_flux_density`: em/fdem/wholespace.py:470. -/
noncomputable def ElectricDipole.magneticFluxDensity (s : ElectricDipole) (xyz : V3 ℝ) : V3 ℂ :=
  (s.magneticField xyz).map (fun c => s.mu * c)

/-! ## Magnetic dipole -/

/-- Attributes of `MagneticDipoleWholeSpace` (em/base.py:139-224, 399-443). -/
structure MagneticDipole extends Medium where
  location : V3 ℝ
  orientation : V3 ℝ
  moment : ℝ

/-- `vector_potential`: em/fdem/wholespace.py:551-559. -/
noncomputable def MagneticDipole.vectorPotential (s : MagneticDipole) (xyz : V3 ℝ) : V3 ℂ :=
  let rVec := xyz - s.location
  let r := rVec.len
  let k := s.wavenumber
  let w := s.omega
  let f := I * w * s.mu * s.moment / (4 * Real.pi * r) * Complex.exp (-I * k * r)
  s.orientation.map (fun c : ℝ => f * c)

/-- `electric_field`: em/fdem/wholespace.py:641-655. -/
noncomputable def MagneticDipole.electricField (s : MagneticDipole) (xyz : V3 ℝ) : V3 ℂ :=
  let rVec := xyz - s.location
  let r := rVec.len
  let rHat := rVec.map (· / r)
  let k := s.wavenumber
  let w := s.omega
  let kr := k * r
  let ikr := I * kr
  let front := (I * w * s.mu * s.moment) / (4 * Real.pi * r ^ 2) * (ikr + 1) * Complex.exp (-ikr)
  (rHat.cross s.orientation).map (fun c : ℝ => front * c)

/-- `current_density`: em/fdem/wholespace.py:738. -/
noncomputable def MagneticDipole.currentDensity (s : MagneticDipole) (xyz : V3 ℝ) : V3 ℂ :=
  (s.electricField xyz).map (fun c => s.sigma * c)

/-- `magnetic_field`: em/fdem/wholespace.py:822-837. -/
noncomputable def MagneticDipole.magneticField (s : MagneticDipole) (xyz : V3 ℝ) : V3 ℂ :=
  let rVec := xyz - s.location
  let r := rVec.len
  let rHat := rVec.map (· / r)
  let k := s.wavenumber
  let kr := k * r
  let ikr := I * kr
  let front := s.moment / (4 * Real.pi * r ^ 3) * Complex.exp (-ikr)
  let d := rHat.dot s.orientation
  let symmetric := rHat.map (fun c : ℝ => d * (-kr ^ 2 + 3 * ikr + 3) * c)
  let oriented := s.orientation.map (fun c : ℝ => (kr ^ 2 - ikr - 1) * c)
  (symmetric + oriented).map (fun c => front * c)

/-- `magnetic_flux_density`: em/fdem/wholespace.py:921. -/
noncomputable def MagneticDipole.magneticFluxDensity (s : MagneticDipole) (xyz : V3 ℝ) : V3 ℂ :=
  (s.magneticField xyz).map (fun c => s.mu * c)

/-! ## Plane wave -/

/-- Attributes of `HarmonicPlaneWave` (em/fdem/wholespace.py:939-1003), with a vector orientation. -/
structure PlaneWave extends Medium where
  amplitude : ℝ
  orientation : V3 ℝ

/-- `electric_field`: em/fdem/wholespace.py:1072-1079. -/
noncomputable def PlaneWave.electricField (s : PlaneWave) (xyz : V3 ℝ) : V3 ℂ :=
  let z := xyz.z
  let k := s.wavenumber
  let e0 := s.amplitude
  let ikz := I * k * z
  s.orientation.map (fun c : ℝ => e0 * c * Complex.exp ikz)

/-- `current_density`: em/fdem/wholespace.py:1140. -/
noncomputable def PlaneWave.currentDensity (s : PlaneWave) (xyz : V3 ℝ) : V3 ℂ :=
  (s.electricField xyz).map (fun c => s.sigma * c)

/-- `magnetic_flux_density`: em/fdem/wholespace.py:1270-1287. -/
noncomputable def PlaneWave.magneticFluxDensity (s : PlaneWave) (xyz : V3 ℝ) : V3 ℂ :=
  let z := xyz.z
  let k := s.wavenumber
  let w := s.omega
  let e0 := s.amplitude
  let kz := k * z
  let ikz := I * kz
  let b := -(e0 : ℂ) * k / w * Complex.exp ikz
  let bDir := s.orientation.cross ⟨0, 0, -1⟩
  bDir.map (fun c : ℝ => c * b)

/-- `magnetic_field`: em/fdem/wholespace.py:1209. -/
noncomputable def PlaneWave.magneticField (s : PlaneWave) (xyz : V3 ℝ) : V3 ℂ :=
  (s.magneticFluxDensity xyz).map (fun c => c / s.mu)

end Verif.Fdem
