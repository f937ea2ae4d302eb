import Verif.Py.FloatOps
import Verif.Model.TdemSimple

/-!
# Model of the transient fields in floating point with infinities and NaN

The same lines as in `Verif.Model.Tdem` and `Verif.Model.TdemSimple`, in numpy's arithmetic.  The setter of `time` and the functions accept zero,
where `theta` is infinite.  The functions are modelled for times in a numpy array; for a Python float zero `theta` raises `ZeroDivisionError`.
-/

namespace Verif.Tdem

open PyFloat

/-- `theta`: em/tdem/base.py:129. -/
noncomputable def thetaF (time sigma mu : ℝ) : PyFloat := PyFloat.sqrt (fin mu * fin sigma / (fin 4 * fin time))

/-- `scipy.special.ive(n, x)`; zero at infinity. -/
noncomputable def iveF (n : ℕ) : PyFloat → PyFloat
  | fin x => fin (besselIe n x)
  | pinf => fin 0
  | ninf => fin 0
  | nan => nan

/-- `vector_potential`: em/tdem/wholespace.py:98-106. -/
noncomputable def ElectricDipole.vectorPotentialF (s : ElectricDipole) (xyz : V3 ℝ) : V3 PyFloat :=
  let rVec := fl xyz - fl s.location
  let r := rVec.norm
  let thetaR := thetaF s.time s.sigma s.mu * r
  (fl s.orientation).map (fun c => fin s.current * fin s.length / (fin 4 * fin Real.pi * r) * PyFloat.erf thetaR * c)

/-- `electric_field`: em/tdem/wholespace.py:180-200. -/
noncomputable def ElectricDipole.electricFieldF (s : ElectricDipole) (xyz : V3 ℝ) : V3 PyFloat :=
  let rVec := fl xyz - fl s.location
  let r := rVec.norm
  let rHat := rVec.map (· / r)
  let thetaR := thetaF s.time s.sigma s.mu * r
  let rootPi := fin (Real.sqrt Real.pi)
  let front := fin s.current * fin s.length / (fin 4 * fin Real.pi * fin s.sigma * r ^ 3)
  let commonPart := thetaR / rootPi * PyFloat.exp (-thetaR ^ 2)
  let symTerm := fin 3 * PyFloat.erf thetaR - (fin 4 * thetaR ^ 2 + fin 6) * commonPart
  let symDirection := rHat.map (fun c => rHat.dot (fl s.orientation) * c)
  let orientTerm := PyFloat.erf thetaR - (fin 4 * thetaR ^ 2 + fin 2) * commonPart
  let orientDir := fl s.orientation
  (symDirection.map (symTerm * ·) - orientDir.map (orientTerm * ·)).map (front * ·)

/-- `magnetic_field`: em/tdem/wholespace.py:347-361. -/
noncomputable def ElectricDipole.magneticFieldF (s : ElectricDipole) (xyz : V3 ℝ) : V3 PyFloat :=
  let rVec := fl xyz - fl s.location
  let r := rVec.norm
  let rHat := rVec.map (· / r)
  let thetaR := thetaF s.time s.sigma s.mu * r
  let term1 := (fin s.current * fin s.length) / (fin 4 * fin Real.pi * r ^ 2)
  let term2 := PyFloat.erf thetaR - fin 2 / fin (Real.sqrt Real.pi) * thetaR * PyFloat.exp (-thetaR ^ 2)
  ((fl s.orientation).cross rHat).map (term1 * term2 * ·)

/-- `magnetic_field_time_deriv`: em/tdem/wholespace.py:434-449. -/
noncomputable def ElectricDipole.magneticFieldTimeDerivF (s : ElectricDipole) (xyz : V3 ℝ) : V3 PyFloat :=
  let rVec := fl xyz - fl s.location
  let r := rVec.norm
  let rHat := rVec.map (· / r)
  let thetaR := thetaF s.time s.sigma s.mu * r
  let term1 := (fin s.current * fin s.length) / (fin 4 * fin Real.pi * r ^ 2)
  let term2dt := fin (-2) * thetaR ^ 3 / (fin (Real.sqrt Real.pi) * fin s.time) * PyFloat.exp (-thetaR ^ 2)
  ((fl s.orientation).cross rHat).map (term1 * term2dt * ·)

/-- `TransientPlaneWave.electric_field`: em/tdem/wholespace.py:733-745.  The powers with exponents 0.5 and 1.5 are of finite numbers. -/
noncomputable def PlaneWave.electricFieldF (s : PlaneWave) (xyz : V3 ℝ) : V3 PyFloat :=
  let e0 := fin s.amplitude
  let z := fin xyz.z
  let t := fin s.time
  let bunja := -e0 * fin ((s.mu * s.sigma) ^ (0.5 : ℝ)) * z * PyFloat.exp (-(fin s.mu * fin s.sigma * z ^ 2) / (fin 4 * t))
  let bunmo := fin 2 * fin (Real.pi ^ (0.5 : ℝ)) * fin (s.time ^ (1.5 : ℝ))
  (fl s.orientation).map (· * (bunja / bunmo))

/-- `TransientPlaneWave.magnetic_flux_density`: em/tdem/wholespace.py:904-921. -/
noncomputable def PlaneWave.magneticFluxDensityF (s : PlaneWave) (xyz : V3 ℝ) : V3 PyFloat :=
  let e0 := fin s.amplitude
  let z := fin xyz.z
  let t := fin s.time
  let bAmp := -e0 * PyFloat.sqrt (fin s.sigma * fin s.mu / (fin Real.pi * t)) * PyFloat.exp ((-fin s.mu * fin s.sigma * z ^ 2) / (fin 4 * t))
  let bDir := (fl s.orientation).cross (fl ⟨0, 0, -1⟩)
  bDir.map (· * bAmp)

/-- `vertical_magnetic_field_horizontal_loop`: em/tdem/simple_functions.py:79-83. -/
noncomputable def loopFieldF (t sigma mu radius current turns : ℝ) : PyFloat :=
  let ta := thetaF t sigma mu * fin radius
  let t1 := fin 3 / (fin (Real.sqrt Real.pi) * ta) * PyFloat.exp (-(ta ^ 2))
  let t2 := (1 - fin 3 / (fin 2 * ta ^ 2)) * PyFloat.erf ta
  let hz := (t1 + t2) / (fin 2 * fin radius)
  fin turns * fin current * hz

/-- `vertical_magnetic_flux_time_deriv_horizontal_loop`: em/tdem/simple_functions.py:241-244. -/
noncomputable def loopFluxTimeDerivF (t sigma mu radius current turns : ℝ) : PyFloat :=
  let a := fin radius
  let ta := thetaF t sigma mu * a
  let term := fin 3 * PyFloat.erf ta - fin 2 * ta / fin (Real.sqrt Real.pi) * (fin 3 + fin 2 * ta ^ 2) * PyFloat.exp (-ta ^ 2)
  (-fin turns) * fin current / (fin sigma * a ^ 3) * term

/-- `magnetic_field_vertical_magnetic_dipole`: em/tdem/simple_functions.py:315-340. -/
noncomputable def dipoleFieldF (t x y sigma mu moment : ℝ) : V3 PyFloat :=
  let r := PyFloat.sqrt (fin x ^ 2 + fin y ^ 2)
  let thr := thetaF t sigma mu * r
  let hz := 1 / r ^ 3 * ((fin 9 / (fin 2 * thr ^ 2) - 1) * PyFloat.erf thr -
    (fin 9 / thr + fin 4 * thr) / fin (Real.sqrt Real.pi) * PyFloat.exp (-thr ^ 2))
  let hr := fin 2 * thr ^ 2 / r ^ 3 * (iveF 1 (thr ^ 2 / fin 2) - iveF 2 (thr ^ 2 / fin 2))
  let angle := Spatial.arctan2 y x
  V3.map (fin moment / (fin 4 * fin Real.pi) * ·) ⟨fin (Real.cos angle) * hr, fin (Real.sin angle) * hr, hz⟩

/-- `magnetic_field_time_deriv_magnetic_dipole`: em/tdem/simple_functions.py:414-437. -/
noncomputable def dipoleFieldTimeDerivF (t x y sigma mu moment : ℝ) : V3 PyFloat :=
  let r := PyFloat.sqrt (fin x ^ 2 + fin y ^ 2)
  let tr := thetaF t sigma mu * r
  let dhz := 1 / (r ^ 3 * fin t) * (fin 9 / (fin 2 * tr ^ 2) * PyFloat.erf tr -
    (fin 4 * tr ^ 3 + fin 6 * tr + fin 9 / tr) / fin (Real.sqrt Real.pi) * PyFloat.exp (-tr ^ 2))
  let dhr := fin (-2) * tr ^ 2 / (r ^ 3 * fin t) *
    ((1 + tr ^ 2) * iveF 0 (tr ^ 2 / fin 2) - (fin 2 + tr ^ 2 + fin 4 / tr ^ 2) * iveF 1 (tr ^ 2 / fin 2))
  let angle := Spatial.arctan2 y x
  V3.map (fin moment / (fin 4 * fin Real.pi) * ·) ⟨fin (Real.cos angle) * dhr, fin (Real.sin angle) * dhr, dhz⟩

end Verif.Tdem
