import Verif.Model.Spatial
import Verif.Model.PrismKernels

/-!
# Model of `geoana/em/static/wholespace.py` (all classes but the circular loop) at one observation point

Exact real arithmetic; attributes hold finite values.
-/

namespace Verif.Static

open Spatial

/-! ## The `coordinates` flag -/

/-- wholespace.py:99-110, 118-121 (and the same lines in every method of the dipole and the pole): the flag is lower-cased
and must be one of two words; cylindrical points are converted, and the result is converted back at the *Cartesian* point. -/
noncomputable def withCoordinates (f : V3 ℝ → V3 ℝ) (coordinates : String) (xyz : V3 ℝ) : Py (V3 ℝ) :=
  if ¬ (coordinates.toLower = "cartesian" ∨ coordinates.toLower = "cylindrical") then
    .error .assertionError
  else
    let xyz := if coordinates.toLower = "cylindrical" then cylToCart xyz else xyz
    let a := f xyz
    let a := if coordinates.toLower = "cylindrical" then cartToCylVec xyz a else a
    .ok a

/-! ## Magnetic dipole and pole -/

/-- Attributes of `MagneticDipoleWholeSpace` and `MagneticPoleWholeSpace` (em/base.py:17-136, 139-224, 399-443). -/
structure MagDipole where
  mu : ℝ
  moment : ℝ
  location : V3 ℝ
  orientation : V3 ℝ

/-- `MagneticDipoleWholeSpace.vector_potential`, Cartesian part: wholespace.py:112-116. -/
noncomputable def MagDipole.vectorPotential (s : MagDipole) (xyz : V3 ℝ) : V3 ℝ :=
  let rVec := xyz - s.location
  let r := rVec.len
  let rHat := rVec.map (· / r)
  (s.orientation.cross rHat).map (fun c => s.moment * s.mu / (4 * Real.pi * r ^ 2) * c)

/-- `MagneticDipoleWholeSpace.magnetic_flux_density`, Cartesian part: wholespace.py:209-215. -/
noncomputable def MagDipole.magneticFluxDensity (s : MagDipole) (xyz : V3 ℝ) : V3 ℝ :=
  let rVec := xyz - s.location
  let r := rVec.len
  let rHat := rVec.map (· / r)
  let k := s.moment * s.mu / (4 * Real.pi * r ^ 3)
  let d := rHat.dot s.orientation
  ⟨k * (3 * d * rHat.x - s.orientation.x), k * (3 * d * rHat.y - s.orientation.y),
    k * (3 * d * rHat.z - s.orientation.z)⟩

/-- `MagneticDipoleWholeSpace.magnetic_field`: wholespace.py:294. -/
noncomputable def MagDipole.magneticField (s : MagDipole) (xyz : V3 ℝ) : V3 ℝ :=
  (s.magneticFluxDensity xyz).map (· / s.mu)

/-- `MagneticPoleWholeSpace.magnetic_flux_density`, Cartesian part: wholespace.py:353-357. -/
noncomputable def MagDipole.poleFluxDensity (s : MagDipole) (xyz : V3 ℝ) : V3 ℝ :=
  let rVec := xyz - s.location
  let r := rVec.len
  let rHat := rVec.map (· / r)
  rHat.map (fun c => s.moment * s.mu / (4 * Real.pi * r ^ 2) * c)

/-- `MagneticPoleWholeSpace.magnetic_field`: wholespace.py:400. -/
noncomputable def MagDipole.poleField (s : MagDipole) (xyz : V3 ℝ) : V3 ℝ :=
  (s.poleFluxDensity xyz).map (· / s.mu)

/-! ## Line current -/

/-- Attributes of `LineCurrentWholeSpace` (em/base.py:446-521, 17-136). -/
structure LineCurrent where
  mu : ℝ
  sigma : ℝ
  current : ℝ
  nodes : List (V3 ℝ)

open Classical in
/-- `scalar_potential`: wholespace.py:844-856.  `nodes[0]` of an empty node array raises `IndexError`. -/
noncomputable def LineCurrent.scalarPotential (s : LineCurrent) (xyz : V3 ℝ) : Py ℝ :=
  match s.nodes with
  | [] => .error .indexError
  | [n0] =>
    let r := (xyz - n0).len
    .ok (s.current / (4 * Real.pi * s.sigma * r))
  | n0 :: n1 :: rest =>
    let last := (n1 :: rest).getLast (by simp)
    if last = n0 then .ok 0
    else
      let rA := (xyz - last).len
      let rB := (xyz - n0).len
      .ok (s.current / (4 * Real.pi * s.sigma) * (1 / rA - 1 / rB))

open Classical in
/-- `electric_field`: wholespace.py:1044-1059. -/
noncomputable def LineCurrent.electricField (s : LineCurrent) (xyz : V3 ℝ) : Py (V3 ℝ) :=
  match s.nodes with
  | [] => .error .indexError
  | [n0] =>
    let rVec := xyz - n0
    let r := rVec.len
    .ok (rVec.map (fun c => s.current / (4 * Real.pi * s.sigma) * (c / r ^ 3)))
  | n0 :: n1 :: rest =>
    let last := (n1 :: rest).getLast (by simp)
    if last = n0 then .ok 0
    else
      let rVecA := xyz - last
      let rVecB := xyz - n0
      let rA := rVecA.len
      let rB := rVecB.len
      let k := s.current / (4 * Real.pi * s.sigma)
      .ok ⟨k * (rVecA.x / rA ^ 3 - rVecB.x / rB ^ 3), k * (rVecA.y / rA ^ 3 - rVecB.y / rB ^ 3),
        k * (rVecA.z / rA ^ 3 - rVecB.z / rB ^ 3)⟩

/-- `current_density`: wholespace.py:1078. -/
noncomputable def LineCurrent.currentDensity (s : LineCurrent) (xyz : V3 ℝ) : Py (V3 ℝ) := do
  let e ← s.electricField xyz
  pure (e.map (s.sigma * ·))

/-- One pass of the loop body of `vector_potential`: wholespace.py:865-885, before the final factor.  The kernel
`prism_fzy` is the Python one (equal to the compiled one, see `Verif.Props.PrismParity`). -/
noncomputable def segmentPotential (p0 p1 xyz : V3 ℝ) : Py (V3 ℝ) := do
  let lVec := p1 - p0
  let l := lVec.len
  let lHat := lVec.map (· / l)
  let rot ← rotationMatrixFromNormals (arr3 lHat) (arr3 ⟨1, 0, 0⟩) defaultTol
  let r0 := rot.mulVec (xyz - p0)
  let r1 := r0 - ⟨l, 0, 0⟩
  let v0 := -Prism.Py.prismFzy r0.x r0.y r0.z
  let v1 := -Prism.Py.prismFzy r1.x r1.y r1.z
  pure (rot.transpose.mulVec ⟨v1 - v0, 0, 0⟩)

/-- One pass of the loop body of `magnetic_flux_density`: wholespace.py:998-1022, before the final factor. -/
noncomputable def segmentFlux (p0 p1 xyz : V3 ℝ) : Py (V3 ℝ) := do
  let lVec := p1 - p0
  let l := lVec.len
  let lHat := lVec.map (· / l)
  let rot ← rotationMatrixFromNormals (arr3 lHat) (arr3 ⟨1, 0, 0⟩) defaultTol
  let r0 := rot.mulVec (xyz - p0)
  let r1 := r0 - ⟨l, 0, 0⟩
  let r0Hat := r0.map (· / r0.len)
  let r1Hat := r1.map (· / r1.len)
  let cyl := cartToCyl2 ⟨r0.y, r0.z⟩
  let v := (r1Hat.x - r0Hat.x) / cyl.x
  let w := cylToCartVec2 cyl ⟨0, v⟩
  pure (rot.transpose.mulVec ⟨0, w.x, w.y⟩)

/-- The loop over segments, `zip(nodes[:-1], nodes[1:])`, accumulating into `out`: wholespace.py:862-885,
995-1022. -/
noncomputable def sumSegments (seg : V3 ℝ → V3 ℝ → Py (V3 ℝ)) : List (V3 ℝ) → V3 ℝ → Py (V3 ℝ)
  | p0 :: p1 :: rest, out => do
    let c ← seg p0 p1
    sumSegments seg (p1 :: rest) (out + c)
  | _, out => pure out

/-- `vector_potential`: wholespace.py:858-892. -/
noncomputable def LineCurrent.vectorPotential (s : LineCurrent) (xyz : V3 ℝ) : Py (V3 ℝ) := do
  let out ← sumSegments (fun p0 p1 => segmentPotential p0 p1 xyz) s.nodes 0
  pure (out.map (fun c => c * (-s.mu * s.current / (4 * Real.pi))))

/-- `magnetic_flux_density`: wholespace.py:993-1025. -/
noncomputable def LineCurrent.magneticFluxDensity (s : LineCurrent) (xyz : V3 ℝ) : Py (V3 ℝ) := do
  let out ← sumSegments (fun p0 p1 => segmentFlux p0 p1 xyz) s.nodes 0
  pure (out.map (fun c => c * (-s.mu * s.current / (4 * Real.pi))))

/-- `magnetic_field`: wholespace.py:942. -/
noncomputable def LineCurrent.magneticField (s : LineCurrent) (xyz : V3 ℝ) : Py (V3 ℝ) := do
  let b ← s.magneticFluxDensity xyz
  pure (b.map (· / s.mu))

end Verif.Static
