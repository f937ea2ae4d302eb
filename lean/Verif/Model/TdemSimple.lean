import Verif.Model.Tdem
import Verif.Spec.Bessel
import Verif.Model.Spatial

/-!
# Model of `geoana/em/tdem/simple_functions.py` and `geoana/em/tdem/halfspace.py`, at one time and one location

Exact real arithmetic.  `scipy.special.erf` and `ive` are the functions of `Verif.Spec.Erf` and `Verif.Spec.Bessel`.
-/

namespace Verif.Tdem

open Real Spatial

/-- `vertical_magnetic_field_horizontal_loop`: em/tdem/simple_functions.py:79-83. -/
noncomputable def loopField (t sigma mu radius current turns : ℝ) : ℝ :=
  let ta := theta t sigma mu * radius
  let t1 := 3 / (√π * ta) * exp (-(ta ^ 2))
  let t2 := (1 - 3 / (2 * ta ^ 2)) * erf ta
  let hz := (t1 + t2) / (2 * radius)
  turns * current * hz

/-- `vertical_magnetic_flux_horizontal_loop`: em/tdem/simple_functions.py:118-120. -/
noncomputable def loopFlux (t sigma mu radius current turns : ℝ) : ℝ := mu * loopField t sigma mu radius current turns

/-- `vertical_magnetic_flux_time_deriv_horizontal_loop`: em/tdem/simple_functions.py:241-244. -/
noncomputable def loopFluxTimeDeriv (t sigma mu radius current turns : ℝ) : ℝ :=
  let a := radius
  let ta := theta t sigma mu * a
  let term := 3 * erf ta - 2 * ta / √π * (3 + 2 * ta ^ 2) * exp (-ta ^ 2)
  (-turns) * current / (sigma * a ^ 3) * term

/-- `vertical_magnetic_field_time_deriv_horizontal_loop`: em/tdem/simple_functions.py:181-184. -/
noncomputable def loopFieldTimeDeriv (t sigma mu radius current turns : ℝ) : ℝ :=
  loopFluxTimeDeriv t sigma mu radius current turns / mu

/-- `magnetic_field_vertical_magnetic_dipole`: em/tdem/simple_functions.py:315-340, at one location `(x, y)` of the surface. -/
noncomputable def dipoleField (t x y sigma mu moment : ℝ) : V3 ℝ :=
  let r := √(x ^ 2 + y ^ 2)
  let thr := theta t sigma mu * r
  let hz := 1 / r ^ 3 * ((9 / (2 * thr ^ 2) - 1) * erf thr - (9 / thr + 4 * thr) / √π * exp (-thr ^ 2))
  let hr := 2 * thr ^ 2 / r ^ 3 * (besselIe 1 (thr ^ 2 / 2) - besselIe 2 (thr ^ 2 / 2))
  let angle := arctan2 y x
  (moment / (4 * π)) • ⟨cos angle * hr, sin angle * hr, hz⟩

/-- `magnetic_field_time_deriv_magnetic_dipole`: em/tdem/simple_functions.py:414-437. -/
noncomputable def dipoleFieldTimeDeriv (t x y sigma mu moment : ℝ) : V3 ℝ :=
  let r := √(x ^ 2 + y ^ 2)
  let tr := theta t sigma mu * r
  let dhz := 1 / (r ^ 3 * t) * (9 / (2 * tr ^ 2) * erf tr - (4 * tr ^ 3 + 6 * tr + 9 / tr) / √π * exp (-tr ^ 2))
  let dhr := -2 * tr ^ 2 / (r ^ 3 * t) *
    ((1 + tr ^ 2) * besselIe 0 (tr ^ 2 / 2) - (2 + tr ^ 2 + 4 / tr ^ 2) * besselIe 1 (tr ^ 2 / 2))
  let angle := arctan2 y x
  (moment / (4 * π)) • ⟨cos angle * dhr, sin angle * dhr, dhz⟩

/-- `magnetic_flux_vertical_magnetic_dipole`: em/tdem/simple_functions.py:468-470. -/
noncomputable def dipoleFlux (t x y sigma mu moment : ℝ) : V3 ℝ := mu • dipoleField t x y sigma mu moment

/-- `magnetic_flux_time_deriv_magnetic_dipole`: em/tdem/simple_functions.py:501-503. -/
noncomputable def dipoleFluxTimeDeriv (t x y sigma mu moment : ℝ) : V3 ℝ := mu • dipoleFieldTimeDeriv t x y sigma mu moment

/-- Attributes of `VerticalMagneticDipoleHalfSpace` (em/tdem/halfspace.py:13; em/base.py:36-136, 139-224, 399-443) that its
methods read; `orientation` and the vertical coordinate of `location` are not among them. -/
structure HalfspaceDipole extends Medium where
  moment : ℝ
  location : V3 ℝ

/-- `magnetic_field`: em/tdem/halfspace.py:38-46. -/
noncomputable def HalfspaceDipole.magneticField (s : HalfspaceDipole) (x y : ℝ) : V3 ℝ :=
  dipoleField s.time (x - s.location.x) (y - s.location.y) s.sigma s.mu s.moment

/-- `magnetic_flux_density`: em/tdem/halfspace.py:64. -/
noncomputable def HalfspaceDipole.magneticFluxDensity (s : HalfspaceDipole) (x y : ℝ) : V3 ℝ := s.mu • s.magneticField x y

/-- `magnetic_field_time_derivative`: em/tdem/halfspace.py:82-90. -/
noncomputable def HalfspaceDipole.magneticFieldTimeDerivative (s : HalfspaceDipole) (x y : ℝ) : V3 ℝ :=
  dipoleFieldTimeDeriv s.time (x - s.location.x) (y - s.location.y) s.sigma s.mu s.moment

/-- `magnetic_flux_time_derivative`: em/tdem/halfspace.py:108. -/
noncomputable def HalfspaceDipole.magneticFluxTimeDerivative (s : HalfspaceDipole) (x y : ℝ) : V3 ℝ :=
  s.mu • s.magneticFieldTimeDerivative x y

end Verif.Tdem
