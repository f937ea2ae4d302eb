import Verif.Spec.Vec
import Mathlib.Analysis.Complex.Basic

/-! # Rigid motions of space (specification) -/

namespace Verif

/-- A rotation followed by a shift. -/
structure Motion where
  rot : M3 ℝ
  shift : V3 ℝ
  isRot : rot.IsRotation

namespace Motion

variable (g : Motion)

/-- Where a point goes. -/
def act (p : V3 ℝ) : V3 ℝ := g.rot.mulVec p + g.shift

/-- What a direction or a field becomes. -/
def turn (v : V3 ℝ) : V3 ℝ := g.rot.mulVec v

/-- The same for complex amplitudes. -/
noncomputable def turnC (v : V3 ℂ) : V3 ℂ :=
  M3.mulVec (g.rot.map fun row : V3 ℝ => row.map Complex.ofReal) v

/-- What a tensor becomes. -/
def turnT (T : M3 ℝ) : M3 ℝ := g.rot.mul (T.mul g.rot.transpose)

/-- The motion keeps the vertical: a turn about a vertical axis and a horizontal shift. -/
def Horizontal : Prop := g.rot.mulVec ⟨0, 0, 1⟩ = ⟨0, 0, 1⟩ ∧ g.shift.z = 0

end Motion

end Verif
