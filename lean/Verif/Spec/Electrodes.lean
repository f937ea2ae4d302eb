import Verif.Spec.Vec
import Mathlib.Analysis.SpecialFunctions.Trigonometric.Basic

/-! # Arrays of electrodes -/

namespace Verif

/-- `1/AM - 1/BM - 1/AN + 1/BN` for current electrodes `a`, `b` and potential electrodes `m`, `n`. -/
noncomputable def arrayFactor (a b m n : V3 ℝ) : ℝ := 1 / (m - a).len - 1 / (m - b).len - 1 / (n - a).len + 1 / (n - b).len

/-- The apparent resistivity of a voltage per current measured with electrodes on the ground. -/
noncomputable def apparentResistivity (a b m n : V3 ℝ) (resistance : ℝ) : ℝ := 2 * Real.pi / arrayFactor a b m n * resistance

/-- The same for electrodes in boreholes, which uses the distances from the mirror images above the ground too. -/
noncomputable def apparentResistivityBuried (a b m n : V3 ℝ) (resistance : ℝ) : ℝ :=
  4 * Real.pi / (arrayFactor a b m n + arrayFactor ⟨a.x, a.y, -a.z⟩ ⟨b.x, b.y, -b.z⟩ m n) * resistance

/-- The point at the distance `s` from `o` in the direction `u`. -/
def alongLine (o u : V3 ℝ) (s : ℝ) : V3 ℝ := o + s • u

end Verif
