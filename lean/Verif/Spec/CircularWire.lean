import Verif.Spec.Vec
import Mathlib.MeasureTheory.Integral.IntervalIntegral.Basic
import Mathlib.Analysis.SpecialFunctions.Trigonometric.Basic

/-! # Vector potential and Biot–Savart law of a circular wire (specification) -/

namespace Verif.CircularWire

open Real

/-- `(e1, e2, n)` is a right-handed orthonormal frame. -/
def IsFrame (e1 e2 n : V3 ℝ) : Prop := e1.dot e1 = 1 ∧ e2.dot e2 = 1 ∧ e1.dot e2 = 0 ∧ e1.cross e2 = n

/-- The point at angle `t` on the circle of radius `a` about `c` in the plane of `e1` and `e2`. -/
noncomputable def point (c e1 e2 : V3 ℝ) (a t : ℝ) : V3 ℝ := c + (a * cos t) • e1 + (a * sin t) • e2

/-- Its derivative in `t`: the line element per unit angle. -/
noncomputable def tangent (e1 e2 : V3 ℝ) (a t : ℝ) : V3 ℝ := (-(a * sin t)) • e1 + (a * cos t) • e2

/-- The integral of a vector function, component by component. -/
noncomputable def integral (f : ℝ → V3 ℝ) : V3 ℝ :=
  ⟨∫ t in (0 : ℝ)..(2 * π), (f t).x, ∫ t in (0 : ℝ)..(2 * π), (f t).y, ∫ t in (0 : ℝ)..(2 * π), (f t).z⟩

/-- `∮ dl / |q - s|` -/
noncomputable def potential (c e1 e2 : V3 ℝ) (a : ℝ) (q : V3 ℝ) : V3 ℝ :=
  integral fun t => (tangent e1 e2 a t).map (· / (q - point c e1 e2 a t).len)

/-- `∮ dl × (q - s) / |q - s|³` -/
noncomputable def flux (c e1 e2 : V3 ℝ) (a : ℝ) (q : V3 ℝ) : V3 ℝ :=
  integral fun t => ((tangent e1 e2 a t).cross (q - point c e1 e2 a t)).map (· / (q - point c e1 e2 a t).len ^ 3)

end Verif.CircularWire
