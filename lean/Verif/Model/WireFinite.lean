import Verif.Model.StaticWholeSpace

/-!
# Model of the flux density of a wire where the code divides by zero

As `segmentFlux` and `LineCurrent.magneticFluxDensity`, with `none` for a row that is not finite.  numpy divides by zero without an
exception; the quotient is NaN or infinite, and every product and sum it enters afterwards is NaN or infinite.
-/

namespace Verif.Static

open Spatial

open Classical in
/-- One pass of the loop body of `magnetic_flux_density`: wholespace.py:998-1022.  The divisions are those of lines 1013, 1014 and 1018. -/
noncomputable def segmentFluxFinite (p0 p1 xyz : V3 ℝ) : Py (Option (V3 ℝ)) := do
  let lVec := p1 - p0
  let l := lVec.len
  let lHat := lVec.map (· / l)
  let rot ← rotationMatrixFromNormals (arr3 lHat) (arr3 ⟨1, 0, 0⟩) defaultTol
  let r0 := rot.mulVec (xyz - p0)
  let r1 := r0 - ⟨l, 0, 0⟩
  let cyl := cartToCyl2 ⟨r0.y, r0.z⟩
  if r0.len = 0 ∨ r1.len = 0 ∨ cyl.x = 0 then pure none
  else
    let r0Hat := r0.map (· / r0.len)
    let r1Hat := r1.map (· / r1.len)
    let v := (r1Hat.x - r0Hat.x) / cyl.x
    let w := cylToCartVec2 cyl ⟨0, v⟩
    pure (some (rot.transpose.mulVec ⟨0, w.x, w.y⟩))

/-- The loop over the segments, `out += …`: wholespace.py:997-1022. -/
noncomputable def sumFinite (seg : V3 ℝ → V3 ℝ → Py (Option (V3 ℝ))) : List (V3 ℝ) → Option (V3 ℝ) → Py (Option (V3 ℝ))
  | p0 :: p1 :: rest, out => do
    let c ← seg p0 p1
    sumFinite seg (p1 :: rest) (do pure ((← out) + (← c)))
  | _, out => pure out

/-- `magnetic_flux_density`: wholespace.py:993-1025. -/
noncomputable def LineCurrent.fluxFinite (s : LineCurrent) (xyz : V3 ℝ) : Py (Option (V3 ℝ)) := do
  let out ← sumFinite (fun p0 p1 => segmentFluxFinite p0 p1 xyz) s.nodes (some 0)
  pure (out.map fun v => v.map (fun c => c * (-s.mu * s.current / (4 * Real.pi))))

end Verif.Static
