import Verif.Spec.Rows
import Verif.Model.FieldArrays
import Verif.Model.StaticHalfspace
import Verif.Model.Masks

/-!
# Model of the array operations of the static sources, the point mass and the prisms

The same methods as in `Verif.Model.StaticWholeSpace`, `StaticHalfspace`, `CircularLoop`, `StaticSphere`, `Gravity` and `Prism`,
but for arrays of points with any number of axes: every operation is an operation on whole arrays, with broadcasting, as in
the code.  Exact arithmetic.  Methods with boolean masks go through the rows in row-major order, which is the order in
which numpy reads and writes through a mask (`Verif.Model.Masks`).
-/

namespace Verif

open Spatial (arr3 arctan2 rotationMatrixFromNormals defaultTol)
open Utils (XyzArg checkXyzDim stackLast)

namespace NArr

variable {α β : Type}

/-- Entry `c` of a vector. -/
def entry (v : V3 α) : ℕ → α
  | 0 => v.x
  | 1 => v.y
  | _ => v.z

/-- `a[..., k]` -/
def col (k : ℕ) (a : NArr α) : NArr α := ⟨a.shape.dropLast, fun i => a.get (i ++ [k])⟩

/-- `a[..., 1:]` for an array with a last axis of length three. -/
def lastTwo (a : NArr α) : NArr α := ⟨a.shape.dropLast ++ [2], fun i => a.get (i.dropLast ++ [i.getLastD 0 + 1])⟩

/-- `np.zeros_like(a)` -/
def zerosLike [Zero β] (a : NArr α) : NArr β := ⟨a.shape, fun _ => 0⟩

/-- `a[..., k] = b` for `b` of the shape of `a[..., k]`. -/
def setCol (k : ℕ) (a b : NArr α) : NArr α := ⟨a.shape, fun i => if i.getLastD 0 = k then b.get i.dropLast else a.get i⟩

/-- `a[..., 1:] = b` for `a` with three columns and `b` with two. -/
def setLastTwo (a b : NArr α) : NArr α :=
  ⟨a.shape, fun i => if i.getLastD 0 = 0 then a.get i else b.get (i.dropLast ++ [i.getLastD 0 - 1])⟩

/-- Position of a multi-index in row-major order. -/
def ravelC : List ℕ → List ℕ → ℕ
  | _ :: s, k :: i => k * s.prod + ravelC s i
  | _, _ => 0

/-- Multi-index of a position in row-major order. -/
def unravelC : List ℕ → ℕ → List ℕ
  | [], _ => []
  | _ :: s, k => (k / s.prod) :: unravelC s (k % s.prod)

/-- `a.reshape(t)` for a shape of the same size. -/
def reshape (a : NArr α) (t : List ℕ) : NArr α := ⟨t, fun i => a.get (unravelC a.shape (ravelC t i))⟩

/-- `a.reshape(-1, 3)` for an array with a last axis of length three: as many rows as there are points. -/
def toRows (a : NArr α) : NArr α := a.reshape [a.shape.dropLast.prod, 3]

/-- `rot.apply(a)` for `a` of shape `(n, 3)`, with the matrix of the rotation; `inverse=True` is the transposed matrix. -/
def applyRows (m : M3 ℝ) (a : NArr ℝ) : NArr ℝ :=
  ⟨a.shape, fun i => entry (m.mulVec ⟨a.get (i.dropLast ++ [0]), a.get (i.dropLast ++ [1]), a.get (i.dropLast ++ [2])⟩) (i.getLastD 0)⟩

/-- The rows of an array of points, in row-major order. -/
def rows (a : NArr α) : List (V3 α) := (List.range a.shape.dropLast.prod).map fun k => vecAt a.toRows [k]

/-- The array of shape `sh` with the given entries in row-major order. -/
def ofRows (sh : List ℕ) (l : List β) (d : β) : NArr β := ⟨sh, fun i => l.getD (ravelC sh i) d⟩

/-- `np.linalg.norm(a, axis=-1)` -/
noncomputable def norm (a : NArr ℝ) : NArr ℝ := Dipole.normLast a

end NArr

open NArr

/-! ## Change of coordinates -/

namespace SpatialArr

/-- `cylindrical_to_cartesian(grid)`: spatial.py:115-123, 133. -/
noncomputable def cylToCart (grid : NArr ℝ) : Py (NArr ℝ) := do
  let x ← zipWith (· * ·) (grid.col 0) ((grid.col 1).mapA Real.cos)
  let y ← zipWith (· * ·) (grid.col 0) ((grid.col 1).mapA Real.sin)
  stackLast (if grid.shape.getLastD 0 = 3 then [x, y, grid.col 2] else [x, y])

/-- `cylindrical_to_cartesian(grid, vec)`: spatial.py:115, 124-133. -/
noncomputable def cylToCartVec (grid vec : NArr ℝ) : Py (NArr ℝ) := do
  let a ← zipWith (· * ·) (vec.col 0) ((grid.col 1).mapA Real.cos)
  let b ← zipWith (· * ·) (vec.col 1) ((grid.col 1).mapA Real.sin)
  let x ← zipWith (· - ·) a b
  let c ← zipWith (· * ·) (vec.col 0) ((grid.col 1).mapA Real.sin)
  let d ← zipWith (· * ·) (vec.col 1) ((grid.col 1).mapA Real.cos)
  let y ← zipWith (· + ·) c d
  stackLast (if grid.shape.getLastD 0 = 3 then [x, y, vec.col 2] else [x, y])

/-- `cartesian_to_cylindrical(grid)`: spatial.py:199-209, 220. -/
noncomputable def cartToCyl (grid : NArr ℝ) : Py (NArr ℝ) := do
  let sq ← zipWith (· + ·) ((grid.col 0).mapA (· ^ 2)) ((grid.col 1).mapA (· ^ 2))
  let theta ← zipWith arctan2 (grid.col 1) (grid.col 0)
  stackLast (if grid.shape.getLastD 0 = 3 then [sq.mapA Real.sqrt, theta, grid.col 2] else [sq.mapA Real.sqrt, theta])

/-- `cartesian_to_cylindrical(grid, vec)`: spatial.py:199, 210-220. -/
noncomputable def cartToCylVec (grid vec : NArr ℝ) : Py (NArr ℝ) := do
  let theta ← zipWith arctan2 (grid.col 1) (grid.col 0)
  let a ← zipWith (· * ·) (theta.mapA Real.cos) (vec.col 0)
  let b ← zipWith (· * ·) (theta.mapA Real.sin) (vec.col 1)
  let x ← zipWith (· + ·) a b
  let c ← zipWith (· * ·) (theta.mapA fun t => -Real.sin t) (vec.col 0)
  let d ← zipWith (· * ·) (theta.mapA Real.cos) (vec.col 1)
  let y ← zipWith (· + ·) c d
  stackLast (if grid.shape.getLastD 0 = 3 then [x, y, vec.col 2] else [x, y])

end SpatialArr

namespace StaticArr

open Static SpatialArr

/-- The `coordinates` flag around the computation `f`: wholespace.py:99-110, 118-121 and the same lines in every method of the
dipole and the pole. -/
noncomputable def withCoordinates (f : NArr ℝ → Py (NArr ℝ)) (coordinates : String) (xyz : XyzArg ℝ) : Py (NArr ℝ) :=
  if ¬ (coordinates.toLower = "cartesian" ∨ coordinates.toLower = "cylindrical") then .error .assertionError
  else do
    let xyz ← checkXyzDim xyz 3
    let xyz ← if coordinates.toLower = "cylindrical" then cylToCart xyz else pure xyz
    let a ← f xyz
    if coordinates.toLower = "cylindrical" then cartToCylVec xyz a else pure a

/-! ## Dipole and pole -/

/-- `MagneticDipoleWholeSpace.vector_potential`: wholespace.py:112-116. -/
noncomputable def dipolePotential (s : MagDipole) (xyz : NArr ℝ) : Py (NArr ℝ) := do
  let rVec ← zipWith (· - ·) xyz (arr3 s.location)
  let r := normKeep rVec
  let rHat ← zipWith (· / ·) rVec r
  zipWith (· * ·) (r.mapA fun r => s.moment * s.mu / (4 * Real.pi * r ^ 2)) (crossLeft s.orientation rHat)

/-- `MagneticDipoleWholeSpace.magnetic_flux_density`: wholespace.py:209-215. -/
noncomputable def dipoleFlux (s : MagDipole) (xyz : NArr ℝ) : Py (NArr ℝ) := do
  let rVec ← zipWith (· - ·) xyz (arr3 s.location)
  let r := normKeep rVec
  let rHat ← zipWith (· / ·) rVec r
  let a ← zipWith (· * ·) ((rHat.dotRight s.orientation).newLast.mapA (3 * ·)) rHat
  let b ← zipWith (· - ·) a (arr3 s.orientation)
  zipWith (· * ·) (r.mapA fun r => s.moment * s.mu / (4 * Real.pi * r ^ 3)) b

/-- `MagneticPoleWholeSpace.magnetic_flux_density`: wholespace.py:353-357. -/
noncomputable def poleFlux (s : MagDipole) (xyz : NArr ℝ) : Py (NArr ℝ) := do
  let rVec ← zipWith (· - ·) xyz (arr3 s.location)
  let r := normKeep rVec
  let rHat ← zipWith (· / ·) rVec r
  zipWith (· * ·) (r.mapA fun r => s.moment * s.mu / (4 * Real.pi * r ^ 2)) rHat

/-- `MagneticDipoleWholeSpace.vector_potential(xyz, coordinates)`: wholespace.py:99-121. -/
noncomputable def MagDipole.vectorPotential (s : MagDipole) (coordinates : String) (xyz : XyzArg ℝ) : Py (NArr ℝ) :=
  withCoordinates (dipolePotential s) coordinates xyz

/-- `MagneticDipoleWholeSpace.magnetic_flux_density(xyz, coordinates)`: wholespace.py:197-220. -/
noncomputable def MagDipole.magneticFluxDensity (s : MagDipole) (coordinates : String) (xyz : XyzArg ℝ) : Py (NArr ℝ) :=
  withCoordinates (dipoleFlux s) coordinates xyz

/-- `MagneticDipoleWholeSpace.magnetic_field(xyz, coordinates)`: wholespace.py:294. -/
noncomputable def MagDipole.magneticField (s : MagDipole) (coordinates : String) (xyz : XyzArg ℝ) : Py (NArr ℝ) := do
  let b ← MagDipole.magneticFluxDensity s coordinates xyz
  pure (b.mapA (· / s.mu))

/-- `MagneticPoleWholeSpace.magnetic_flux_density(xyz, coordinates)`: wholespace.py:341-362. -/
noncomputable def MagDipole.poleFluxDensity (s : MagDipole) (coordinates : String) (xyz : XyzArg ℝ) : Py (NArr ℝ) :=
  withCoordinates (poleFlux s) coordinates xyz

/-- `MagneticPoleWholeSpace.magnetic_field(xyz, coordinates)`: wholespace.py:400. -/
noncomputable def MagDipole.poleField (s : MagDipole) (coordinates : String) (xyz : XyzArg ℝ) : Py (NArr ℝ) := do
  let b ← MagDipole.poleFluxDensity s coordinates xyz
  pure (b.mapA (· / s.mu))

/-! ## Line current -/

open Classical in
/-- `LineCurrentWholeSpace.scalar_potential`: wholespace.py:844-856.  `nodes[0]` of an empty node array raises `IndexError`. -/
noncomputable def LineCurrent.scalarPotential (s : LineCurrent) (xyz : XyzArg ℝ) : Py (NArr ℝ) := do
  let xyz ← checkXyzDim xyz 3
  match s.nodes with
  | [] => .error .indexError
  | [n0] =>
    let rVec ← zipWith (· - ·) xyz (arr3 n0)
    pure (rVec.norm.mapA fun r => s.current / (4 * Real.pi * s.sigma * r))
  | n0 :: n1 :: rest =>
    let last := (n1 :: rest).getLast (by simp)
    if last = n0 then pure (xyz.col 0).zerosLike
    else
      let rVecA ← zipWith (· - ·) xyz (arr3 last)
      let rVecB ← zipWith (· - ·) xyz (arr3 n0)
      let d ← zipWith (· - ·) (rVecA.norm.mapA (1 / ·)) (rVecB.norm.mapA (1 / ·))
      pure (d.mapA (s.current / (4 * Real.pi * s.sigma) * ·))

open Classical in
/-- `LineCurrentWholeSpace.electric_field`: wholespace.py:1044-1059. -/
noncomputable def LineCurrent.electricField (s : LineCurrent) (xyz : XyzArg ℝ) : Py (NArr ℝ) := do
  let xyz ← checkXyzDim xyz 3
  match s.nodes with
  | [] => .error .indexError
  | [n0] =>
    let rVec ← zipWith (· - ·) xyz (arr3 n0)
    let q ← zipWith (· / ·) rVec ((normKeep rVec).mapA (· ^ 3))
    pure (q.mapA (s.current / (4 * Real.pi * s.sigma) * ·))
  | n0 :: n1 :: rest =>
    let last := (n1 :: rest).getLast (by simp)
    if last = n0 then pure xyz.zerosLike
    else
      let rVecA ← zipWith (· - ·) xyz (arr3 last)
      let rVecB ← zipWith (· - ·) xyz (arr3 n0)
      let a ← zipWith (· / ·) rVecA ((normKeep rVecA).mapA (· ^ 3))
      let b ← zipWith (· / ·) rVecB ((normKeep rVecB).mapA (· ^ 3))
      let d ← zipWith (· - ·) a b
      pure (d.mapA (s.current / (4 * Real.pi * s.sigma) * ·))

/-- `LineCurrentWholeSpace.current_density`: wholespace.py:1078. -/
noncomputable def LineCurrent.currentDensity (s : LineCurrent) (xyz : XyzArg ℝ) : Py (NArr ℝ) := do
  let e ← LineCurrent.electricField s xyz
  pure (e.mapA (s.sigma * ·))

/-- The kernel `prism_fzy` on three arrays of one shape, negated: wholespace.py:880-881. -/
noncomputable def negFzy (v : NArr ℝ) : NArr ℝ :=
  ⟨v.shape.dropLast, fun i => -Prism.Py.prismFzy ((v.col 0).get i) ((v.col 1).get i) ((v.col 2).get i)⟩

/-- The loop of `vector_potential`, with the arrays `out` and `temp_storage`: wholespace.py:864-885. -/
noncomputable def potentialLoop (xyz : NArr ℝ) : List (V3 ℝ) → NArr ℝ → NArr ℝ → Py (NArr ℝ)
  | p0 :: p1 :: rest, out, temp => do
    let lVec := p1 - p0
    let l := lVec.len
    let lHat := lVec.map (· / l)
    let rot ← rotationMatrixFromNormals (arr3 lHat) (arr3 ⟨1, 0, 0⟩) defaultTol
    let shifted ← zipWith (· - ·) xyz.toRows (arr3 p0)
    let r0Vec := (applyRows rot shifted).reshape xyz.shape
    let r1Vec ← zipWith (· - ·) r0Vec (arr3 ⟨l, 0, 0⟩)
    let d ← zipWith (· - ·) (negFzy r1Vec) (negFzy r0Vec)
    let temp := temp.setCol 0 d
    let out ← zipWith (· + ·) out ((applyRows rot.transpose temp.toRows).reshape xyz.shape)
    potentialLoop xyz (p1 :: rest) out temp
  | _, out, _ => pure out

/-- `LineCurrentWholeSpace.vector_potential`: wholespace.py:860-892. -/
noncomputable def LineCurrent.vectorPotential (s : LineCurrent) (xyz : XyzArg ℝ) : Py (NArr ℝ) := do
  let xyz ← checkXyzDim xyz 3
  let out ← potentialLoop xyz s.nodes xyz.zerosLike xyz.zerosLike
  pure (out.mapA (· * (-s.mu * s.current / (4 * Real.pi))))

/-- The loop of `magnetic_flux_density`, with the arrays `out` and `temp_storage`: wholespace.py:997-1022. -/
noncomputable def fluxLoop (xyz : NArr ℝ) : List (V3 ℝ) → NArr ℝ → NArr ℝ → Py (NArr ℝ)
  | p0 :: p1 :: rest, out, temp => do
    let lVec := p1 - p0
    let l := lVec.len
    let lHat := lVec.map (· / l)
    let rot ← rotationMatrixFromNormals (arr3 lHat) (arr3 ⟨1, 0, 0⟩) defaultTol
    let shifted ← zipWith (· - ·) xyz.toRows (arr3 p0)
    let r0Vec := (applyRows rot shifted).reshape xyz.shape
    let r1Vec ← zipWith (· - ·) r0Vec (arr3 ⟨l, 0, 0⟩)
    let r0 := normKeep r0Vec
    let r1 := normKeep r1Vec
    let r0Hat ← zipWith (· / ·) r0Vec r0
    let r1Hat ← zipWith (· / ·) r1Vec r1
    let cyl ← cartToCyl r0Vec.lastTwo
    let d ← zipWith (· - ·) (r1Hat.col 0) (r0Hat.col 0)
    let v ← zipWith (· / ·) d (cyl.col 0)
    let temp := temp.setCol 1 v
    let w ← cylToCartVec cyl temp
    let temp := temp.setLastTwo w
    let out ← zipWith (· + ·) out ((applyRows rot.transpose temp.toRows).reshape xyz.shape)
    fluxLoop xyz (p1 :: rest) out temp
  | _, out, _ => pure out

/-- `LineCurrentWholeSpace.magnetic_flux_density`: wholespace.py:993-1025. -/
noncomputable def LineCurrent.magneticFluxDensity (s : LineCurrent) (xyz : XyzArg ℝ) : Py (NArr ℝ) := do
  let xyz ← checkXyzDim xyz 3
  let out ← fluxLoop xyz s.nodes xyz.zerosLike xyz.zerosLike
  pure (out.mapA (· * (-s.mu * s.current / (4 * Real.pi))))

/-- `LineCurrentWholeSpace.magnetic_field`: wholespace.py:942. -/
noncomputable def LineCurrent.magneticField (s : LineCurrent) (xyz : XyzArg ℝ) : Py (NArr ℝ) := do
  let b ← LineCurrent.magneticFluxDensity s xyz
  pure (b.mapA (· / s.mu))

/-! ## Half-space -/

/-- `np.any(xyz[..., -1] > 0)` -/
def anyAbove (xyz : NArr ℝ) : Prop := ∃ i, InShape (xyz.col 2).shape i ∧ (xyz.col 2).get i > 0

open Classical in
/-- `PointCurrentHalfSpace.potential`: halfspace.py:185-192 (and `PointCurrentWholeSpace.potential`, wholespace.py:1184). -/
noncomputable def PointHalf.potential (s : PointHalf) (xyz : XyzArg ℝ) : Py (NArr ℝ) := do
  let xyz ← checkXyzDim xyz 3
  if anyAbove xyz then .error .valueError
  else
    let v ← LineCurrent.scalarPotential s.primary (.array xyz)
    let w ← LineCurrent.scalarPotential s.image (.array xyz)
    zipWith (· + ·) v w

open Classical in
/-- `PointCurrentHalfSpace.electric_field`: halfspace.py:253-260 (and wholespace.py:1244). -/
noncomputable def PointHalf.electricField (s : PointHalf) (xyz : XyzArg ℝ) : Py (NArr ℝ) := do
  let xyz ← checkXyzDim xyz 3
  if anyAbove xyz then .error .valueError
  else
    let v ← LineCurrent.electricField s.primary (.array xyz)
    let w ← LineCurrent.electricField s.image (.array xyz)
    zipWith (· + ·) v w

/-- `PointCurrentHalfSpace.current_density`: halfspace.py:320-321. -/
noncomputable def PointHalf.currentDensity (s : PointHalf) (xyz : XyzArg ℝ) : Py (NArr ℝ) := do
  let e ← PointHalf.electricField s xyz
  pure (e.mapA (· / s.rho))

open Classical in
/-- The common frame of `DipoleHalfSpace.potential` and `DipoleHalfSpace.electric_field`: halfspace.py:537-557, 643-663.  `f` is
the method of the two point currents. -/
noncomputable def dipoleHalf (f : PointHalf → XyzArg ℝ → Py (NArr ℝ)) (s : DipoleHalf) (xyzM : XyzArg ℝ) (xyzN : Option (XyzArg ℝ)) :
    Py (NArr ℝ) := do
  let xyzM ← checkXyzDim xyzM 3
  if anyAbove xyzM then .error .valueError
  else
    match xyzN with
    | none =>
      let a ← f s.a (.array xyzM)
      let b ← f s.b (.array xyzM)
      zipWith (· - ·) a b
    | some xyzN =>
      let xyzN ← checkXyzDim xyzN 3
      if anyAbove xyzN then .error .valueError
      else
        let a ← f s.a (.array xyzM)
        let b ← f s.b (.array xyzM)
        let m ← zipWith (· - ·) a b
        let a ← f s.a (.array xyzN)
        let b ← f s.b (.array xyzN)
        let n ← zipWith (· - ·) a b
        zipWith (· - ·) m n

/-- `DipoleHalfSpace.potential`: halfspace.py:537-557. -/
noncomputable def DipoleHalf.potential (s : DipoleHalf) (xyzM : XyzArg ℝ) (xyzN : Option (XyzArg ℝ)) : Py (NArr ℝ) :=
  dipoleHalf PointHalf.potential s xyzM xyzN

/-- `DipoleHalfSpace.electric_field`: halfspace.py:643-663. -/
noncomputable def DipoleHalf.electricField (s : DipoleHalf) (xyzM : XyzArg ℝ) (xyzN : Option (XyzArg ℝ)) : Py (NArr ℝ) :=
  dipoleHalf PointHalf.electricField s xyzM xyzN

/-- `DipoleHalfSpace.current_density`: halfspace.py:748-749. -/
noncomputable def DipoleHalf.currentDensity (s : DipoleHalf) (xyzM : XyzArg ℝ) (xyzN : Option (XyzArg ℝ)) : Py (NArr ℝ) := do
  let e ← DipoleHalf.electricField s xyzM xyzN
  pure (e.mapA (· / s.rho))

/-! ## Methods that go through the rows -/

/-- A method that treats the rows of its argument in row-major order and returns one entry for each row; `d` is never read. -/
noncomputable def byRows {β : Type} (p : List (V3 ℝ) → Py (List β)) (d : β) (xyz : XyzArg ℝ) : Py (NArr β) := do
  let xyz ← checkXyzDim xyz 3
  let l ← p xyz.rows
  pure (ofRows xyz.shape.dropLast l d)

/-- `CircularLoopWholeSpace.vector_potential(xyz)` in Cartesian coordinates: wholespace.py:570-629.  The entries are the rows. -/
noncomputable def Loop.vectorPotential (s : Loop) : XyzArg ℝ → Py (NArr (Option (V3 ℝ))) := byRows s.vectorPotentials none

/-- `CircularLoopWholeSpace.magnetic_flux_density(xyz)` in Cartesian coordinates: wholespace.py:700-761.  The entries are the rows. -/
noncomputable def Loop.magneticFluxDensity (s : Loop) : XyzArg ℝ → Py (NArr (Option (V3 ℝ))) := byRows s.magneticFluxDensities none

/-- The `coordinates` flag around both methods, after the check of the points: wholespace.py:573-574, 631-634 and 703-704, 763-766.
The final change of coordinates is elementwise. -/
noncomputable def Loop.converted (f : XyzArg ℝ → Py (NArr (Option (V3 ℝ)))) (coordinates : String) (xyz : NArr ℝ) :
    Py (NArr (Option (V3 ℝ))) := do
  let xyz ← if coordinates.toLower = "cylindrical" then cylToCart xyz else pure xyz
  let a ← f (.array xyz)
  pure (if coordinates.toLower = "cylindrical" then ⟨a.shape, fun i => (a.get i).map (Spatial.cartToCylVec (vecAt xyz i))⟩ else a)

/-- `CircularLoopWholeSpace.vector_potential(xyz, coordinates)`: wholespace.py:563-634. -/
noncomputable def Loop.vectorPotentialIn (s : Loop) (coordinates : String) (xyz : XyzArg ℝ) : Py (NArr (Option (V3 ℝ))) :=
  if ¬ (coordinates.toLower = "cartesian" ∨ coordinates.toLower = "cylindrical") then .error .assertionError
  else do
    let xyz ← checkXyzDim xyz 3
    Loop.converted (Loop.vectorPotential s) coordinates xyz

/-- `CircularLoopWholeSpace.magnetic_flux_density(xyz, coordinates)`: wholespace.py:700-766. -/
noncomputable def Loop.magneticFluxDensityIn (s : Loop) (coordinates : String) (xyz : XyzArg ℝ) : Py (NArr (Option (V3 ℝ))) := do
  let xyz ← checkXyzDim xyz 3
  if ¬ (coordinates.toLower = "cartesian" ∨ coordinates.toLower = "cylindrical") then .error .typeError
  else Loop.converted (Loop.magneticFluxDensity s) coordinates xyz

/-- `CircularLoopWholeSpace.magnetic_field(xyz, coordinates)`: wholespace.py:832. -/
noncomputable def Loop.magneticFieldIn (s : Loop) (coordinates : String) (xyz : XyzArg ℝ) : Py (NArr (Option (V3 ℝ))) := do
  let b ← Loop.magneticFluxDensityIn s coordinates xyz
  pure (b.mapA fun b => b.map fun v => v.map (· / s.mu))

open Sphere (Parts)

/-- The arrays of shape `sh` with the given entries in row-major order, for every part of a result. -/
def partsOfRows {β : Type} (sh : List ℕ) (d : β) : Parts (List β) → Parts (NArr β)
  | .one l => .one (ofRows sh l d)
  | .triple a b c => .triple (ofRows sh a d) (ofRows sh b d) (ofRows sh c d)

/-- As `byRows`, for the methods that return one array or three. -/
noncomputable def byRowsParts {β : Type} (p : List (V3 ℝ) → Py (Parts (List β))) (d : β) (xyz : XyzArg ℝ) : Py (Parts (NArr β)) := do
  let xyz ← checkXyzDim xyz 3
  let l ← p xyz.rows
  pure (partsOfRows xyz.shape.dropLast d l)

/-- `ElectrostaticSphere.potential`: sphere.py:222-255. -/
noncomputable def Electro.potential (s : Sphere.Electro) (field : String) : XyzArg ℝ → Py (Parts (NArr ℝ)) :=
  byRowsParts (s.potentials · field) 0

/-- `ElectrostaticSphere.electric_field`: sphere.py:325-359.  The entries are the rows. -/
noncomputable def Electro.electricField (s : Sphere.Electro) (field : String) : XyzArg ℝ → Py (Parts (NArr (V3 ℝ))) :=
  byRowsParts (s.electricFields · field) 0

/-- `ElectrostaticSphere.current_density`: sphere.py:425-446.  The entries are the rows. -/
noncomputable def Electro.currentDensity (s : Sphere.Electro) (field : String) : XyzArg ℝ → Py (Parts (NArr (V3 ℝ))) :=
  byRowsParts (s.currentDensities · field) 0

/-- `MagnetostaticSphere.potential`: sphere.py:721-754. -/
noncomputable def Magneto.potential (s : Sphere.Magneto) (field : String) : XyzArg ℝ → Py (Parts (NArr ℝ)) :=
  byRowsParts (s.potentials · field) 0

/-- `MagnetostaticSphere.magnetic_field`: sphere.py:825-857.  The entries are the rows. -/
noncomputable def Magneto.magneticField (s : Sphere.Magneto) (field : String) : XyzArg ℝ → Py (Parts (NArr (V3 ℝ))) :=
  byRowsParts (s.magneticFields · field) 0

/-- `MagnetostaticSphere.magnetic_flux_density`: sphere.py:928-949.  The entries are the rows. -/
noncomputable def Magneto.magneticFluxDensity (s : Sphere.Magneto) (field : String) : XyzArg ℝ → Py (Parts (NArr (V3 ℝ))) :=
  byRowsParts (s.magneticFluxDensities · field) 0

/-- `ElectrostaticSphere.charge_density`: sphere.py:500-517. -/
noncomputable def Electro.chargeDensity (eps0 : ℝ) (s : Sphere.Electro) (dr : Option ℝ) : XyzArg ℝ → Py (NArr ℝ) :=
  byRows (Sphere.Electro.chargeDensities eps0 s · dr) 0

end StaticArr

/-! ## Point mass and sphere -/

namespace GravityArr

open Gravity

/-- `gravitational_potential`: gravity.py:154-158. -/
noncomputable def PointMass.gravitationalPotential (s : PointMass) (xyz : XyzArg ℝ) : Py (NArr ℝ) := do
  let xyz ← checkXyzDim xyz 3
  let rVec ← zipWith (· - ·) xyz (arr3 s.location)
  pure (rVec.norm.mapA fun r => (G * s.mass) / r)

/-- `gravitational_field`: gravity.py:211-216. -/
noncomputable def PointMass.gravitationalField (s : PointMass) (xyz : XyzArg ℝ) : Py (NArr ℝ) := do
  let xyz ← checkXyzDim xyz 3
  let rVec ← zipWith (· - ·) xyz (arr3 s.location)
  let r := normKeep rVec
  let rHat ← zipWith (· / ·) rVec r
  zipWith (· / ·) (rHat.mapA (-G * s.mass * ·)) (r.mapA (· ^ 2))

/-- `np.eye(3)` -/
def eye3 : NArr ℝ := ⟨[3, 3], fun i => if i.headD 0 = i.getLastD 0 then 1 else 0⟩

/-- `a[..., None, :]`: a new axis before the last one. -/
def newBeforeLast (a : NArr ℝ) : NArr ℝ :=
  ⟨a.shape.dropLast ++ [1, a.shape.getLastD 0], fun i => a.get (i.dropLast.dropLast ++ [i.getLastD 0])⟩

/-- `gravitational_gradient`: gravity.py:273-280. -/
noncomputable def PointMass.gravitationalGradient (s : PointMass) (xyz : XyzArg ℝ) : Py (NArr ℝ) := do
  let xyz ← checkXyzDim xyz 3
  let rVec ← zipWith (· - ·) xyz (arr3 s.location)
  let r := normKeep rVec
  let rHat ← zipWith (· / ·) rVec r
  let p ← zipWith (· * ·) (rHat.newLast.mapA (3 * ·)) (newBeforeLast rHat)
  let d ← zipWith (· - ·) eye3 p
  zipWith (· / ·) (d.mapA (-G * s.mass * ·)) (r.newLast.mapA (· ^ 3))

/-- `gravitational_potential` of a sphere: gravity.py:421-428. -/
noncomputable def Sphere.gravitationalPotential (s : Sphere) : XyzArg ℝ → Py (NArr ℝ) := StaticArr.byRows s.potentials 0

/-- `gravitational_field` of a sphere: gravity.py:487-494.  The entries are the rows. -/
noncomputable def Sphere.gravitationalField (s : Sphere) : XyzArg ℝ → Py (NArr (V3 ℝ)) := StaticArr.byRows s.fields 0

/-- `gravitational_gradient` of a sphere: gravity.py:558-567.  The entries are the tensors. -/
noncomputable def Sphere.gravitationalGradient (s : Sphere) : XyzArg ℝ → Py (NArr (Option (M3 ℝ))) := StaticArr.byRows s.gradients none

end GravityArr

/-! ## Prisms -/

namespace PrismArr

open Prism
open Gravity (G)

/-- A kernel on three arrays of one shape. -/
def kernel3 (func : ℝ → ℝ → ℝ → ℝ) (x y z : NArr ℝ) : NArr ℝ := ⟨x.shape, fun i => func (x.get i) (y.get i) (z.get i)⟩

/-- The loop shapes.py:133-135 on arrays. -/
def cycleArr : ℕ → NArr ℝ × NArr ℝ × NArr ℝ → NArr ℝ × NArr ℝ × NArr ℝ
  | 0, v => v
  | n + 1, v => cycleArr n (v.2.1, v.2.2, v.1)

/-- `BasePrism._eval_def_int`: shapes.py:119-147. -/
noncomputable def evalDefInt (b : Box) (func : ℝ → ℝ → ℝ → ℝ) (xyz : NArr ℝ) (cycle : ℕ) : Py (NArr ℝ) := do
  let x := xyz.col 0
  let y := xyz.col 1
  let z := xyz.col 2
  let mn := cycleArr cycle (x.mapA (b.min.x - ·), y.mapA (b.min.y - ·), z.mapA (b.min.z - ·))
  let mx := cycleArr cycle (x.mapA (b.max.x - ·), y.mapA (b.max.y - ·), z.mapA (b.max.z - ·))
  let v000 := kernel3 func mn.1 mn.2.1 mn.2.2
  let v001 := kernel3 func mn.1 mn.2.1 mx.2.2
  let v010 := kernel3 func mn.1 mx.2.1 mn.2.2
  let v011 := kernel3 func mn.1 mx.2.1 mx.2.2
  let v100 := kernel3 func mx.1 mn.2.1 mn.2.2
  let v101 := kernel3 func mx.1 mn.2.1 mx.2.2
  let v110 := kernel3 func mx.1 mx.2.1 mn.2.2
  let v111 := kernel3 func mx.1 mx.2.1 mx.2.2
  let s ← zipWith (· - ·) v111 v110
  let s ← zipWith (· - ·) s v101
  let s ← zipWith (· + ·) s v100
  let s ← zipWith (· - ·) s v011
  let s ← zipWith (· + ·) s v010
  let s ← zipWith (· + ·) s v001
  zipWith (· - ·) s v000

/-- Gravity `gravitational_potential`: gravity.py:636-638. -/
noncomputable def GravPrism.gravitationalPotential (s : GravPrism) (xyz : XyzArg ℝ) : Py (NArr ℝ) := do
  let xyz ← checkXyzDim xyz 3
  let g ← evalDefInt s.box Py.prismF xyz 0
  pure (g.mapA (-G * s.rho * ·))

/-- Gravity `gravitational_field`: gravity.py:655-660. -/
noncomputable def GravPrism.gravitationalField (s : GravPrism) (xyz : XyzArg ℝ) : Py (NArr ℝ) := do
  let xyz ← checkXyzDim xyz 3
  let gx ← evalDefInt s.box Py.prismFz xyz 1
  let gy ← evalDefInt s.box Py.prismFz xyz 2
  let gz ← evalDefInt s.box Py.prismFz xyz 0
  let g ← stackLast [gx, gy, gz]
  pure (g.mapA (-G * s.rho * ·))

/-- Gravity `gravitational_gradient`: gravity.py:676-694. -/
noncomputable def GravPrism.gravitationalGradient (s : GravPrism) (xyz : XyzArg ℝ) : Py (NArr ℝ) := do
  let xyz ← checkXyzDim xyz 3
  let gxx ← evalDefInt s.box Py.prismFzz xyz 1
  let gxy ← evalDefInt s.box Py.prismFzx xyz 1
  let gxz ← evalDefInt s.box Py.prismFzx xyz 0
  let gyy ← evalDefInt s.box Py.prismFzz xyz 2
  let gyz ← evalDefInt s.box Py.prismFzy xyz 0
  let gzz ← evalDefInt s.box Py.prismFzz xyz 0
  let first ← stackLast [gxx, gxy, gxz]
  let second ← stackLast [gxy, gyy, gyz]
  let third ← stackLast [gxz, gyz, gzz]
  let g ← stackLast [first, second, third]
  pure (g.mapA (-G * s.rho * ·))

/-- `a * m_x + b * m_y + c * m_z`, as in freespace.py:92, 126-128 and 188-193. -/
noncomputable def combine (m : V3 ℝ) (a b c : NArr ℝ) : Py (NArr ℝ) := do
  let s ← zipWith (· + ·) (a.mapA (· * m.x)) (b.mapA (· * m.y))
  zipWith (· + ·) s (c.mapA (· * m.z))

/-- `MagneticPrism.scalar_potential`: freespace.py:85-92. -/
noncomputable def MagPrism.scalarPotential (s : MagPrism) (xyz : XyzArg ℝ) : Py (NArr ℝ) := do
  let xyz ← checkXyzDim xyz 3
  let gx ← evalDefInt s.box Py.prismFz xyz 1
  let gy ← evalDefInt s.box Py.prismFz xyz 2
  let gz ← evalDefInt s.box Py.prismFz xyz 0
  let g ← combine s.magnetization gx gy gz
  pure (g.mapA (-1.0 / (4 * Real.pi) * ·))

/-- `MagneticPrism.magnetic_field`: freespace.py:109-132. -/
noncomputable def MagPrism.magneticField (s : MagPrism) (xyz : XyzArg ℝ) : Py (NArr ℝ) := do
  let xyz ← checkXyzDim xyz 3
  let gxx ← evalDefInt s.box Py.prismFzz xyz 1
  let gxy ← evalDefInt s.box Py.prismFzx xyz 1
  let gxz ← evalDefInt s.box Py.prismFzx xyz 0
  let gyy ← evalDefInt s.box Py.prismFzz xyz 2
  let gyz ← evalDefInt s.box Py.prismFzy xyz 0
  let gzz ← evalDefInt s.box Py.prismFzz xyz 0
  let hx ← combine s.magnetization gxx gxy gxz
  let hy ← combine s.magnetization gxy gyy gyz
  let hz ← combine s.magnetization gxz gyz gzz
  let h ← stackLast [hx, hy, hz]
  pure (h.mapA (-1.0 / (4 * Real.pi) * ·))

/-- `MagneticPrism.magnetic_flux_density`: freespace.py:148-156.  The entries are the rows. -/
noncomputable def MagPrism.magneticFluxDensity (s : MagPrism) : XyzArg ℝ → Py (NArr (V3 ℝ)) :=
  StaticArr.byRows s.magneticFluxDensities 0

/-- `MagneticPrism.magnetic_field_gradient`: freespace.py:173-200. -/
noncomputable def MagPrism.magneticFieldGradient (s : MagPrism) (xyz : XyzArg ℝ) : Py (NArr ℝ) := do
  let xyz ← checkXyzDim xyz 3
  let m := s.magnetization
  let gxxx ← evalDefInt s.box Py.prismFzzz xyz 1
  let gxxy ← evalDefInt s.box Py.prismFxxy xyz 0
  let gxxz ← evalDefInt s.box Py.prismFxxz xyz 0
  let gyyx ← evalDefInt s.box Py.prismFxxz xyz 1
  let gxyz ← evalDefInt s.box Py.prismFxyz xyz 0
  let gzzx ← evalDefInt s.box Py.prismFxxy xyz 2
  let gyyy ← evalDefInt s.box Py.prismFzzz xyz 2
  let gyyz ← evalDefInt s.box Py.prismFxxy xyz 1
  let gzzy ← evalDefInt s.box Py.prismFxxz xyz 2
  let gzzz ← evalDefInt s.box Py.prismFzzz xyz 0
  let hxx ← combine m gxxx gxxy gxxz
  let hxy ← combine m gxxy gyyx gxyz
  let hxz ← combine m gxxz gxyz gzzx
  let hyy ← combine m gyyx gyyy gyyz
  let hyz ← combine m gxyz gyyz gzzy
  let hzz ← combine m gzzx gzzy gzzz
  let first ← stackLast [hxx, hxy, hxz]
  let second ← stackLast [hxy, hyy, hyz]
  let third ← stackLast [hxz, hyz, hzz]
  let h ← stackLast [first, second, third]
  pure (h.mapA (-1.0 / (4 * Real.pi) * ·))

end PrismArr

end Verif
