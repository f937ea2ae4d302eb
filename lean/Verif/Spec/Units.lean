import Verif.Spec.Vec

/-!
# Changing the system of units

A change of the base units metre, kilogram, second and ampere multiplies the number that stands for a quantity by a product of powers of four
factors, its dimension.  Nothing in this file depends on the modelled code.
-/

namespace Verif

/-- How many new units make one old unit of length, mass, time and current. -/
structure Units where
  length : ℝ
  mass : ℝ
  time : ℝ
  current : ℝ
  length_pos : 0 < length
  mass_pos : 0 < mass
  time_pos : 0 < time
  current_pos : 0 < current

namespace Units

variable (u : Units)

/-- The factor of a quantity measured in `m^l kg^m s^t A^i`. -/
noncomputable def conv (l m t i : ℤ) : ℝ := u.length ^ l * u.mass ^ m * u.time ^ t * u.current ^ i

/-- Hertz. -/
noncomputable def frequency : ℝ := u.conv 0 0 (-1) 0
/-- Siemens per metre. -/
noncomputable def conductivity : ℝ := u.conv (-3) (-1) 3 2
/-- Henry per metre. -/
noncomputable def permeability : ℝ := u.conv 1 1 (-2) (-2)
/-- Farad per metre. -/
noncomputable def permittivity : ℝ := u.conv (-3) (-1) 4 2
/-- Volt. -/
noncomputable def voltage : ℝ := u.conv 2 1 (-3) (-1)
/-- Volt per metre. -/
noncomputable def electricField : ℝ := u.conv 1 1 (-3) (-1)
/-- Ampere per square metre. -/
noncomputable def currentDensity : ℝ := u.conv (-2) 0 0 1
/-- Ampere per metre. -/
noncomputable def magneticField : ℝ := u.conv (-1) 0 0 1
/-- Tesla. -/
noncomputable def fluxDensity : ℝ := u.conv 0 1 (-2) (-1)
/-- Ampere square metre. -/
noncomputable def magneticMoment : ℝ := u.conv 2 0 0 1
/-- Coulomb per square metre. -/
noncomputable def chargeDensity : ℝ := u.conv (-2) 0 1 1

end Units

end Verif
