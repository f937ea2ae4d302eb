import Verif.Spec.Vec
import Mathlib.Analysis.SpecialFunctions.Trigonometric.Basic

/-! # Local orthonormal frames of cylindrical and spherical coordinates (specification) -/

namespace Verif.Frames

/-- Outward radial direction of cylindrical coordinates at azimuth `t`. -/
noncomputable def cylR (t : ℝ) : V3 ℝ := ⟨Real.cos t, Real.sin t, 0⟩
/-- Azimuthal direction at azimuth `t`. -/
noncomputable def azimuth (t : ℝ) : V3 ℝ := ⟨-Real.sin t, Real.cos t, 0⟩
/-- Vertical direction. -/
def up : V3 ℝ := ⟨0, 0, 1⟩
/-- Outward radial direction of spherical coordinates at azimuth `phi`, polar angle `theta`. -/
noncomputable def sphR (phi theta : ℝ) : V3 ℝ :=
  ⟨Real.sin theta * Real.cos phi, Real.sin theta * Real.sin phi, Real.cos theta⟩
/-- Polar direction (increasing `theta`). -/
noncomputable def polar (phi theta : ℝ) : V3 ℝ :=
  ⟨Real.cos theta * Real.cos phi, Real.cos theta * Real.sin phi, -Real.sin theta⟩

end Verif.Frames
