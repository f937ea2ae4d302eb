import Verif.Spec.AlongWire

/-! # Forces and torques on wires in a flux density (specification) -/

namespace Verif.WireForce

open Real

/-- The component along `d` of `∫ dl × B` over the straight line from `p0` to `p1`. -/
noncomputable def segmentForce (B : V3 ℝ → V3 ℝ) (d p0 p1 : V3 ℝ) : ℝ :=
  ∫ t in (0 : ℝ)..1, d.dot ((p1 - p0).cross (B (p0 + t • (p1 - p0))))

/-- The component along `d` of `∫ (s - c) × (dl × B)` over the straight line from `p0` to `p1`. -/
noncomputable def segmentTorque (B : V3 ℝ → V3 ℝ) (c d p0 p1 : V3 ℝ) : ℝ :=
  ∫ t in (0 : ℝ)..1, d.dot ((p0 + t • (p1 - p0) - c).cross ((p1 - p0).cross (B (p0 + t • (p1 - p0)))))

/-- The force along `d`, per unit of current, on the wire through the given nodes. -/
noncomputable def wireForce (B : V3 ℝ → V3 ℝ) (d : V3 ℝ) : List (V3 ℝ) → ℝ
  | p0 :: p1 :: rest => segmentForce B d p0 p1 + wireForce B d (p1 :: rest)
  | _ => 0

/-- The torque about `c` and the axis `d`, per unit of current, on the wire through the given nodes. -/
noncomputable def wireTorque (B : V3 ℝ → V3 ℝ) (c d : V3 ℝ) : List (V3 ℝ) → ℝ
  | p0 :: p1 :: rest => segmentTorque B c d p0 p1 + wireTorque B c d (p1 :: rest)
  | _ => 0

/-- The force along `d`, per unit of current, on the circle of radius `a` about `o` in the plane of `e1` and `e2`. -/
noncomputable def circleForce (B : V3 ℝ → V3 ℝ) (d o e1 e2 : V3 ℝ) (a : ℝ) : ℝ :=
  ∫ t in (0 : ℝ)..(2 * π), d.dot ((CircularWire.tangent e1 e2 a t).cross (B (CircularWire.point o e1 e2 a t)))

/-- The torque about `c` and the axis `d`, per unit of current, on that circle. -/
noncomputable def circleTorque (B : V3 ℝ → V3 ℝ) (c d o e1 e2 : V3 ℝ) (a : ℝ) : ℝ :=
  ∫ t in (0 : ℝ)..(2 * π), d.dot ((CircularWire.point o e1 e2 a t - c).cross
    ((CircularWire.tangent e1 e2 a t).cross (B (CircularWire.point o e1 e2 a t))))

end Verif.WireForce
