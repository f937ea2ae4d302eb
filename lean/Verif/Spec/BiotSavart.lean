import Verif.Spec.Vec
import Mathlib.MeasureTheory.Integral.IntervalIntegral.Basic

/-! # The Biot–Savart law for a polygonal wire (specification) -/

namespace Verif.BiotSavart

/-- The integrand of Biot–Savart along the segment from `p0` to `p1`, at parameter `t ∈ [0,1]`:
`dl × (q - s) / |q - s|³` with `s = p0 + t (p1 - p0)` and `dl = (p1 - p0) dt`. -/
noncomputable def integrand (p0 p1 q : V3 ℝ) (t : ℝ) : V3 ℝ :=
  let d := q - (p0 + t • (p1 - p0))
  ((p1 - p0).cross d).map (· / d.len ^ 3)

/-- The line integral over one segment, component by component. -/
noncomputable def segment (p0 p1 q : V3 ℝ) : V3 ℝ :=
  ⟨∫ t in (0:ℝ)..1, (integrand p0 p1 q t).x, ∫ t in (0:ℝ)..1, (integrand p0 p1 q t).y,
   ∫ t in (0:ℝ)..1, (integrand p0 p1 q t).z⟩

/-- The sum over the consecutive pairs of a node list of a contribution per segment. -/
def segSum (g : V3 ℝ → V3 ℝ → V3 ℝ) : List (V3 ℝ) → V3 ℝ
  | p0 :: p1 :: rest => g p0 p1 + segSum g (p1 :: rest)
  | _ => 0

/-- Biot–Savart for the polyline through `nodes`, without the factor `mu I / (4 π)`. -/
noncomputable def polyline (nodes : List (V3 ℝ)) (q : V3 ℝ) : V3 ℝ :=
  segSum (fun p0 p1 => segment p0 p1 q) nodes

end Verif.BiotSavart
