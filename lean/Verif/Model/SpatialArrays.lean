import Verif.Model.StaticArrays
import Verif.Model.Spatial

/-!
# Model of the array operations in `geoana/spatial.py`

The conversions of `Verif.Model.Spatial` for whole arrays of points and vectors, with the indexing, broadcasting and stacking of the
code.  Exact arithmetic; `np.asarray` of the arguments is outside the model.
-/

namespace Verif.ConvArr

open NArr Utils Spatial

/-- `a[..., k]`: `IndexError` without axes or with a last axis that is too short. -/
def item (a : NArr ℝ) (k : ℕ) : Py (NArr ℝ) :=
  match a.shape.getLast? with
  | none => .error .indexError
  | some n => if k < n then .ok (a.col k) else .error .indexError

/-- `np.stack(out, axis=-1)` after `if grid.shape[-1] == 3: out.append(third)`: spatial.py:122-123, 131-133, 206-209, 218-220. -/
noncomputable def stackOut (grid x y : NArr ℝ) (third : Py (NArr ℝ)) : Py (NArr ℝ) :=
  if grid.shape.getLast? = some 3 then do
    let z ← third
    stackLast [x, y, z]
  else stackLast [x, y]

/-- `cylindrical_to_cartesian(grid, vec)`: spatial.py:115-133. -/
noncomputable def cylToCart (grid : NArr ℝ) (vec : Option (NArr ℝ)) : Py (NArr ℝ) :=
  match vec with
  | none => do
    let r ← item grid 0
    let phi ← item grid 1
    let x ← zipWith (· * ·) r (phi.mapA Real.cos)
    let y ← zipWith (· * ·) r (phi.mapA Real.sin)
    stackOut grid x y (item grid 2)
  | some vec => do
    let v0 ← item vec 0
    let phi ← item grid 1
    let v1 ← item vec 1
    let a ← zipWith (· * ·) v0 (phi.mapA Real.cos)
    let b ← zipWith (· * ·) v1 (phi.mapA Real.sin)
    let x ← zipWith (· - ·) a b
    let c ← zipWith (· * ·) v0 (phi.mapA Real.sin)
    let d ← zipWith (· * ·) v1 (phi.mapA Real.cos)
    let y ← zipWith (· + ·) c d
    stackOut grid x y (item vec 2)

/-- `cartesian_to_cylindrical(grid, vec)`: spatial.py:199-220. -/
noncomputable def cartToCyl (grid : NArr ℝ) (vec : Option (NArr ℝ)) : Py (NArr ℝ) :=
  match vec with
  | none => do
    let x ← item grid 0
    let y ← item grid 1
    let s ← zipWith (fun a b => a ^ 2 + b ^ 2) x y
    let phi ← zipWith arctan2 y x
    stackOut grid (s.mapA Real.sqrt) phi (item grid 2)
  | some vec => do
    let gy ← item grid 1
    let gx ← item grid 0
    let theta ← zipWith arctan2 gy gx
    let v0 ← item vec 0
    let v1 ← item vec 1
    let a ← zipWith (· * ·) (theta.mapA Real.cos) v0
    let b ← zipWith (· * ·) (theta.mapA Real.sin) v1
    let x ← zipWith (· + ·) a b
    let c ← zipWith (· * ·) (theta.mapA fun t => -Real.sin t) v0
    let d ← zipWith (· * ·) (theta.mapA Real.cos) v1
    let y ← zipWith (· + ·) c d
    stackOut grid x y (item vec 2)

/-- The expression for `x` of `spherical_to_cartesian`: spatial.py:298-302. -/
noncomputable def sphToCartX (phi theta v0 v1 v2 : NArr ℝ) : Py (NArr ℝ) := do
  let a ← zipWith (· * ·) (← zipWith (· * ·) v0 (theta.mapA Real.sin)) (phi.mapA Real.cos)
  let b ← zipWith (· * ·) v1 (phi.mapA Real.sin)
  let c ← zipWith (· * ·) (← zipWith (· * ·) v2 (theta.mapA Real.cos)) (phi.mapA Real.cos)
  zipWith (· + ·) (← zipWith (· - ·) a b) c

/-- The expression for `y` of `spherical_to_cartesian`: spatial.py:304-308. -/
noncomputable def sphToCartY (phi theta v0 v1 v2 : NArr ℝ) : Py (NArr ℝ) := do
  let a ← zipWith (· * ·) (← zipWith (· * ·) v0 (theta.mapA Real.sin)) (phi.mapA Real.sin)
  let b ← zipWith (· * ·) v1 (theta.mapA Real.cos)
  let c ← zipWith (· * ·) (← zipWith (· * ·) v2 (theta.mapA Real.cos)) (phi.mapA Real.sin)
  zipWith (· + ·) (← zipWith (· + ·) a b) c

/-- The expression for `z` of `spherical_to_cartesian`: spatial.py:310. -/
noncomputable def sphToCartZ (theta v0 v2 : NArr ℝ) : Py (NArr ℝ) := do
  zipWith (· - ·) (← zipWith (· * ·) v0 (theta.mapA Real.cos)) (← zipWith (· * ·) v2 (theta.mapA Real.sin))

/-- `spherical_to_cartesian(grid, vec)`: spatial.py:284-312. -/
noncomputable def sphToCart (grid : NArr ℝ) (vec : Option (NArr ℝ)) : Py (NArr ℝ) :=
  match vec with
  | none => do
    let r ← item grid 0
    let theta ← item grid 2
    let z ← zipWith (· * ·) r (theta.mapA Real.cos)
    let rho ← zipWith (· * ·) r (theta.mapA Real.sin)
    let phi ← item grid 1
    let x ← zipWith (· * ·) rho (phi.mapA Real.cos)
    let y ← zipWith (· * ·) rho (phi.mapA Real.sin)
    stackLast [x, y, z]
  | some vec => do
    let phi ← item grid 1
    let theta ← item grid 2
    let v0 ← item vec 0
    let v1 ← item vec 1
    let v2 ← item vec 2
    let x ← sphToCartX phi theta v0 v1 v2
    let y ← sphToCartY phi theta v0 v1 v2
    let z ← sphToCartZ theta v0 v2
    stackLast [x, y, z]

/-- `np.linalg.norm(grid[..., :2], axis=-1)`: spatial.py:384.  A last axis of length one leaves one column. -/
noncomputable def rhoOf (grid : NArr ℝ) : Py (NArr ℝ) :=
  match grid.shape.getLast? with
  | none => .error .indexError
  | some n => .ok (Dipole.normLast ⟨grid.shape.dropLast ++ [min n 2], grid.get⟩)

/-- The expression for `r` of `cartesian_to_spherical`: spatial.py:394-398. -/
noncomputable def cartToSphR (phi theta v0 v1 v2 : NArr ℝ) : Py (NArr ℝ) := do
  let a ← zipWith (· * ·) (← zipWith (· * ·) v0 (theta.mapA Real.sin)) (phi.mapA Real.cos)
  let b ← zipWith (· * ·) (← zipWith (· * ·) v1 (theta.mapA Real.sin)) (phi.mapA Real.sin)
  let c ← zipWith (· * ·) v2 (theta.mapA Real.cos)
  zipWith (· + ·) (← zipWith (· + ·) a b) c

/-- The expression for the second component of `cartesian_to_spherical`: spatial.py:400. -/
noncomputable def cartToSphPhi (phi v0 v1 : NArr ℝ) : Py (NArr ℝ) := do
  zipWith (· + ·) (← zipWith (· * ·) (v0.mapA (-·)) (phi.mapA Real.sin)) (← zipWith (· * ·) v1 (phi.mapA Real.cos))

/-- The expression for the third component of `cartesian_to_spherical`: spatial.py:402-406. -/
noncomputable def cartToSphTheta (phi theta v0 v1 v2 : NArr ℝ) : Py (NArr ℝ) := do
  let a ← zipWith (· * ·) (← zipWith (· * ·) v0 (theta.mapA Real.cos)) (phi.mapA Real.cos)
  let b ← zipWith (· * ·) (← zipWith (· * ·) v1 (theta.mapA Real.cos)) (phi.mapA Real.sin)
  let c ← zipWith (· * ·) v2 (theta.mapA Real.sin)
  zipWith (· - ·) (← zipWith (· + ·) a b) c

/-- `cartesian_to_spherical(grid, vec)`: spatial.py:383-408. -/
noncomputable def cartToSph (grid : NArr ℝ) (vec : Option (NArr ℝ)) : Py (NArr ℝ) := do
  let rho ← rhoOf grid
  let gy ← item grid 1
  let gx ← item grid 0
  let phi ← zipWith arctan2 gy gx
  let gz ← item grid 2
  let theta ← zipWith arctan2 rho gz
  match vec with
  | none => stackLast [Dipole.normLast grid, phi, theta]
  | some vec => do
    let v0 ← item vec 0
    let v1 ← item vec 1
    let v2 ← item vec 2
    let r ← cartToSphR phi theta v0 v1 v2
    let phi ← cartToSphPhi phi v0 v1
    let theta ← cartToSphTheta phi theta v0 v1 v2
    stackLast [r, phi, theta]

/-- `cylindrical_2_cartesian`: spatial.py:678-680. -/
noncomputable def cylindrical2Cartesian (grid : NArr ℝ) (vec : Option (NArr ℝ)) : Py (NArr ℝ) := cylToCart grid vec

/-- `cartesian_2_cylindrical`: spatial.py:683-685. -/
noncomputable def cartesian2Cylindrical (grid : NArr ℝ) (vec : Option (NArr ℝ)) : Py (NArr ℝ) := cartToCyl grid vec

/-- `spherical_2_cartesian`: spatial.py:688-690. -/
noncomputable def spherical2Cartesian (grid : NArr ℝ) (vec : Option (NArr ℝ)) : Py (NArr ℝ) := sphToCart grid vec

/-- `cartesian_2_spherical`: spatial.py:693-695. -/
noncomputable def cartesian2Spherical (grid : NArr ℝ) (vec : Option (NArr ℝ)) : Py (NArr ℝ) := cartToSph grid vec

/-- `vector_magnitude(v)`: spatial.py:424; without axes numpy raises `AxisError`, which is a `ValueError`. -/
noncomputable def vectorMagnitude (v : NArr ℝ) : Py (NArr ℝ) :=
  if v.shape = [] then .error .valueError else .ok (Dipole.normLast v)

/-- `np.atleast_2d(a).T` for an array with one or two axes. -/
def atleast2dT (a : NArr ℝ) : Py Mat :=
  match a.shape with
  | [n] => .ok ⟨n, 1, fun i _ => a.get [i]⟩
  | [n, m] => .ok ⟨m, n, fun i j => a.get [j, i]⟩
  | _ => .error .exception

/-- `repeat_scalar(scalar, dim)`: spatial.py:552-558.  `len(scalar)` raises `TypeError` without axes; it is the first entry of
`scalar.shape`.  More than two axes are outside the model (`Exception` stands for any result). -/
def repeatScalar (scalar : NArr ℝ) (dim : ℕ) : Py Mat :=
  match scalar.shape with
  | [] => .error .typeError
  | n :: _ =>
    if n ∈ scalar.shape then do
      let b ← atleast2dT scalar
      pure (kron ⟨1, dim, fun _ _ => 1⟩ b)
    else .error .assertionError

end Verif.ConvArr
