import Verif.Spec.Elastic
import Mathlib.Analysis.SpecialFunctions.Trigonometric.Basic

/-!
# Specification: orientation of a fault

The usual convention of seismology: `x` east, `y` north, `z` up; the strike is measured clockwise from north, the fault dips to the right
of the strike direction, and the rake is the angle in the fault plane from the strike direction to the motion of the upper side.
-/

namespace Verif.Elastic

open Real

/-- The horizontal direction along the fault for the strike `φ`. -/
noncomputable def strikeDir (φ : ℝ) : V3 ℝ := ⟨sin φ, cos φ, 0⟩

/-- The direction down the fault for the dip `δ`. -/
noncomputable def downDip (φ δ : ℝ) : V3 ℝ := ⟨cos δ * cos φ, -(cos δ * sin φ), -sin δ⟩

/-- The upward normal of the fault. -/
noncomputable def faultNormal (φ δ : ℝ) : V3 ℝ := ⟨sin δ * cos φ, -(sin δ * sin φ), cos δ⟩

/-- The motion of the upper side relative to the lower one for the rake `ρ`. -/
noncomputable def slipVector (φ δ ρ slip : ℝ) : V3 ℝ := slip • (cos ρ • strikeDir φ - sin ρ • downDip φ δ)

/-- The displacement of the surface point `o` for a fault whose trace has its middle at `center`, of the given length along the strike and
between the given depths. -/
noncomputable def eventDisplacement (lam mu φ δ ρ slip length depthTop depthBottom : ℝ) (center o : V3 ℝ) : V3 ℝ :=
  faultDisplacement lam mu (slipVector φ δ ρ slip) (faultNormal φ δ) (fun a w => center + a • strikeDir φ + w • downDip φ δ)
    (-(length / 2)) (length / 2) (depthTop / sin δ) (depthBottom / sin δ) o

end Verif.Elastic
