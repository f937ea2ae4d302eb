import Verif.Spec.Vec
import Verif.Spec.CircularWire
import Mathlib.MeasureTheory.Integral.IntervalIntegral.Basic

/-! # Line integrals along wires (specification) -/

namespace Verif.WireIntegral

open Real

/-- `∫ F · dl` along the straight line from `p0` to `p1`. -/
noncomputable def alongSegment (F : V3 ℝ → V3 ℝ) (p0 p1 : V3 ℝ) : ℝ :=
  ∫ t in (0 : ℝ)..1, (p1 - p0).dot (F (p0 + t • (p1 - p0)))

/-- `∫ F · dl` along the wire through the given nodes. -/
noncomputable def alongWire (F : V3 ℝ → V3 ℝ) : List (V3 ℝ) → ℝ
  | p0 :: p1 :: rest => alongSegment F p0 p1 + alongWire F (p1 :: rest)
  | _ => 0

/-- `∮ F · dl` once around the circle of radius `a` about `c`, counterclockwise in the plane of `e1` and `e2`. -/
noncomputable def alongCircle (F : V3 ℝ → V3 ℝ) (c e1 e2 : V3 ℝ) (a : ℝ) : ℝ :=
  ∫ t in (0 : ℝ)..(2 * π), (CircularWire.tangent e1 e2 a t).dot (F (CircularWire.point c e1 e2 a t))

/-- `∫ dl / |q - s|` along the straight line from `p0` to `p1`. -/
noncomputable def segmentPotential (p0 p1 q : V3 ℝ) : V3 ℝ :=
  (∫ t in (0 : ℝ)..1, 1 / (q - (p0 + t • (p1 - p0))).len) • (p1 - p0)

/-- `∫ dl / |q - s|` along a wire. -/
noncomputable def wirePotential (q : V3 ℝ) : List (V3 ℝ) → V3 ℝ
  | p0 :: p1 :: rest => segmentPotential p0 p1 q + wirePotential q (p1 :: rest)
  | _ => 0

/-- The points of a wire: those on one of its segments. -/
def OnWire : List (V3 ℝ) → V3 ℝ → Prop
  | p0 :: p1 :: rest, q => (∃ t : ℝ, 0 ≤ t ∧ t ≤ 1 ∧ q = p0 + t • (p1 - p0)) ∨ OnWire (p1 :: rest) q
  | _, _ => False

end Verif.WireIntegral
