import Verif.Spec.Vec
import Mathlib.Analysis.SpecialFunctions.Trigonometric.Basic

/-! # What small sources are compared with; independent of the model -/

namespace Verif

namespace Wire

/-- The vector area `½ ∮ r × dl` of a wire through `nodes`. -/
noncomputable def vectorArea : List (V3 ℝ) → V3 ℝ
  | p :: p' :: rest => (1 / 2 : ℝ) • p.cross p' + vectorArea (p' :: rest)
  | _ => 0

/-- The length of the wire. -/
noncomputable def length : List (V3 ℝ) → ℝ
  | p :: p' :: rest => (p' - p).len + length (p' :: rest)
  | _ => 0

end Wire

/-- A unit square, run through counterclockwise about `z`: its vector area is `z` and its length is 4. -/
example : Wire.vectorArea [⟨0, 0, 5⟩, ⟨1, 0, 5⟩, ⟨1, 1, 5⟩, ⟨0, 1, 5⟩, ⟨0, 0, 5⟩] = ⟨0, 0, 1⟩ ∧
    Wire.length [⟨0, 0, 5⟩, ⟨1, 0, 5⟩, ⟨1, 1, 5⟩, ⟨0, 1, 5⟩, ⟨0, 0, 5⟩] = 4 := by
  constructor
  · ext <;> norm_num [Wire.vectorArea, V3.cross]
  · norm_num [Wire.length, V3.len]

/-- The potential, in a medium of conductivity `sigma`, of a steady current element of moment `m` at the displacement `d` from it. -/
noncomputable def CurrentElement.potential (sigma : ℝ) (m d : V3 ℝ) : ℝ := m.dot d / (4 * Real.pi * sigma * d.len ^ 3)

end Verif
