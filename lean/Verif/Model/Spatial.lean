import Verif.Spec.Vec
import Verif.Py.Err
import Verif.Py.NArr
import Mathlib.Analysis.SpecialFunctions.Complex.Arg

/-!
# Model of `geoana/spatial.py`

Exact real arithmetic.  The coordinate conversions act row by row, so they are modelled on one row.
-/

namespace Verif.Spatial

/-- `np.arctan2(y, x)`: the angle in `(-π, π]` of the point `(x, y)`; `0` at the origin.  Signed zeros are not
modelled (numpy returns `-π` for `y = -0.0, x < 0`). -/
noncomputable def arctan2 (y x : ℝ) : ℝ := Complex.arg ⟨x, y⟩

/-- A row of a two-column grid. -/
@[ext] structure V2 where
  x : ℝ
  y : ℝ

/-- `cylindrical_to_cartesian(grid)`, three columns: spatial.py:117-123, 133. -/
noncomputable def cylToCart (g : V3 ℝ) : V3 ℝ :=
  ⟨g.x * Real.cos g.y, g.x * Real.sin g.y, g.z⟩

/-- `cylindrical_to_cartesian(grid)`, two columns: spatial.py:117-121, 133. -/
noncomputable def cylToCart2 (g : V2) : V2 :=
  ⟨g.x * Real.cos g.y, g.x * Real.sin g.y⟩

/-- `cylindrical_to_cartesian(grid, vec)`, three columns: spatial.py:124-133. -/
noncomputable def cylToCartVec (g v : V3 ℝ) : V3 ℝ :=
  ⟨v.x * Real.cos g.y - v.y * Real.sin g.y, v.x * Real.sin g.y + v.y * Real.cos g.y, v.z⟩

/-- `cylindrical_to_cartesian(grid, vec)` with a two-column grid: spatial.py:124-130, 133. `vec` may have more
columns; only the first two are read. -/
noncomputable def cylToCartVec2 (g v : V2) : V2 :=
  ⟨v.x * Real.cos g.y - v.y * Real.sin g.y, v.x * Real.sin g.y + v.y * Real.cos g.y⟩

/-- `cartesian_to_cylindrical(grid)`, three columns: spatial.py:201-209, 220. -/
noncomputable def cartToCyl (g : V3 ℝ) : V3 ℝ :=
  ⟨Real.sqrt (g.x ^ 2 + g.y ^ 2), arctan2 g.y g.x, g.z⟩

/-- `cartesian_to_cylindrical(grid)`, two columns: spatial.py:201-205, 220. -/
noncomputable def cartToCyl2 (g : V2) : V2 :=
  ⟨Real.sqrt (g.x ^ 2 + g.y ^ 2), arctan2 g.y g.x⟩

/-- `cartesian_to_cylindrical(grid, vec)`, three columns: spatial.py:210-220. -/
noncomputable def cartToCylVec (g v : V3 ℝ) : V3 ℝ :=
  let theta := arctan2 g.y g.x
  ⟨Real.cos theta * v.x + Real.sin theta * v.y, -Real.sin theta * v.x + Real.cos theta * v.y, v.z⟩

/-- `cartesian_to_cylindrical(grid, vec)`, two columns: spatial.py:210-217, 220. -/
noncomputable def cartToCylVec2 (g v : V2) : V2 :=
  let theta := arctan2 g.y g.x
  ⟨Real.cos theta * v.x + Real.sin theta * v.y, -Real.sin theta * v.x + Real.cos theta * v.y⟩

/-- `spherical_to_cartesian(grid)`: spatial.py:286-291.  The columns are `(r, phi, theta)`, `phi` the azimuth. -/
noncomputable def sphToCart (g : V3 ℝ) : V3 ℝ :=
  let z := g.x * Real.cos g.z
  let rho := g.x * Real.sin g.z
  ⟨rho * Real.cos g.y, rho * Real.sin g.y, z⟩

/-- `spherical_to_cartesian(grid, vec)`: spatial.py:293-312.  (Line 306 has `cos(theta)` where the frame has
`cos(phi)`; the model keeps the code.) -/
noncomputable def sphToCartVec (g v : V3 ℝ) : V3 ℝ :=
  let phi := g.y
  let theta := g.z
  ⟨v.x * Real.sin theta * Real.cos phi - v.y * Real.sin phi + v.z * Real.cos theta * Real.cos phi,
   v.x * Real.sin theta * Real.sin phi + v.y * Real.cos theta + v.z * Real.cos theta * Real.sin phi,
   v.x * Real.cos theta - v.z * Real.sin theta⟩

/-- `cartesian_to_spherical(grid)`: spatial.py:383-390. -/
noncomputable def cartToSph (g : V3 ℝ) : V3 ℝ :=
  let rho := Real.sqrt (g.x ^ 2 + g.y ^ 2)
  let phi := arctan2 g.y g.x
  let theta := arctan2 rho g.z
  ⟨g.len, phi, theta⟩

/-- `cartesian_to_spherical(grid, vec)`: spatial.py:383-386, 392-408.  (Line 400 overwrites the angle `phi`
with the azimuthal component before lines 402-406 read it; the model keeps the code.) -/
noncomputable def cartToSphVec (g v : V3 ℝ) : V3 ℝ :=
  let rho := Real.sqrt (g.x ^ 2 + g.y ^ 2)
  let phi := arctan2 g.y g.x
  let theta := arctan2 rho g.z
  let r := v.x * Real.sin theta * Real.cos phi + v.y * Real.sin theta * Real.sin phi
    + v.z * Real.cos theta
  let phi := -v.x * Real.sin phi + v.y * Real.cos phi
  let theta := v.x * Real.cos theta * Real.cos phi + v.y * Real.cos theta * Real.sin phi
    - v.z * Real.sin theta
  ⟨r, phi, theta⟩

/-- A two-dimensional array: `rows × width`. -/
structure Mat where
  rows : ℕ
  width : ℕ
  get : ℕ → ℕ → ℝ

/-- Row `i` of a matrix of width three. -/
def Mat.row (m : Mat) (i : ℕ) : V3 ℝ := ⟨m.get i 0, m.get i 1, m.get i 2⟩

/-- The matrix with the given rows. -/
def Mat.ofRows (n : ℕ) (r : ℕ → V3 ℝ) : Mat :=
  ⟨n, 3, fun i j => match j with
    | 0 => (r i).x
    | 1 => (r i).y
    | _ => (r i).z⟩

/-- `vector_magnitude(v)`: spatial.py:424 (two-dimensional argument, three columns). -/
noncomputable def vectorMagnitude (v : Mat) : ℕ → ℝ := fun i => (v.row i).len

/-- `vector_distance(xyz, origin)`: spatial.py:452-470 (two-dimensional `xyz`).  `origin` is any sequence of
floats. -/
def vectorDistance (xyz : Mat) (origin : List ℝ) : Py Mat :=
  if xyz.width ≠ 3 then .error .assertionError
  else if origin.length ≠ 3 then .error .exception
  else .ok (Mat.ofRows xyz.rows fun i =>
    ⟨xyz.get i 0 - origin.getD 0 0, xyz.get i 1 - origin.getD 1 0, xyz.get i 2 - origin.getD 2 0⟩)

/-- `distance(xyz, origin)`: spatial.py:497-498.  Returns one number per row. -/
noncomputable def distance (xyz : Mat) (origin : List ℝ) : Py (List ℝ) := do
  let dxyz ← vectorDistance xyz origin
  pure ((List.range dxyz.rows).map (vectorMagnitude dxyz))

/-- `vector_dot(xyz, vector)`: spatial.py:524-530.  The columns 0, 1, 2 are read, so fewer columns raise
`IndexError`; extra columns are ignored. -/
def vectorDot (xyz : Mat) (vector : List ℝ) : Py (List ℝ) :=
  if vector.length ≠ 3 then .error .exception
  else if xyz.width < 3 then .error .indexError
  else .ok ((List.range xyz.rows).map fun i =>
    vector.getD 0 0 * xyz.get i 0 + vector.getD 1 0 * xyz.get i 1 + vector.getD 2 0 * xyz.get i 2)

/-- `np.kron` of two matrices (used at spatial.py:558). -/
def kron (a b : Mat) : Mat :=
  ⟨a.rows * b.rows, a.width * b.width,
    fun i j => a.get (i / b.rows) (j / b.width) * b.get (i % b.rows) (j % b.width)⟩

/-- `repeat_scalar(scalar, dim)`: spatial.py:552-558, one-dimensional `scalar` (the assertion holds for every
one-dimensional array).  `np.atleast_2d(scalar).T` is the column of the values. -/
def repeatScalar (scalar : List ℝ) (dim : ℕ) : Mat :=
  kron ⟨1, dim, fun _ _ => 1⟩ ⟨scalar.length, 1, fun i _ => scalar.getD i 0⟩

/-- `Rotation.from_quat([x, y, z, w]).as_matrix()` (scipy; used at spatial.py:628-631): the quaternion is
normalised, a zero quaternion is rejected. -/
noncomputable def fromQuat (u : V3 ℝ) (w : ℝ) : Py (M3 ℝ) :=
  let n := Real.sqrt (u.x ^ 2 + u.y ^ 2 + u.z ^ 2 + w ^ 2)
  if n = 0 then .error .valueError
  else
    let x := u.x / n
    let y := u.y / n
    let z := u.z / n
    let w := w / n
    .ok ⟨⟨x ^ 2 - y ^ 2 - z ^ 2 + w ^ 2, 2 * (x * y - z * w), 2 * (x * z + y * w)⟩,
      ⟨2 * (x * y + z * w), -x ^ 2 + y ^ 2 - z ^ 2 + w ^ 2, 2 * (y * z - x * w)⟩,
      ⟨2 * (x * z - y * w), 2 * (y * z + x * w), -x ^ 2 - y ^ 2 + z ^ 2 + w ^ 2⟩⟩

open Classical in
/-- The part of `rotation_matrix_from_normals` after the inputs were squeezed and normalised:
spatial.py:603-633.  `as_matrix` only chooses between a matrix and a scipy object holding the same matrix. -/
noncomputable def rotationUnit (v0 v1 : V3 ℝ) (tol : ℝ) : Py (M3 ℝ) :=
  let d := v0.dot v1
  let axis := v0.cross v1
  if axis.len < tol then
    if d < 0 then
      let trial := v0.cross ⟨0, 0, 1⟩
      let axis := if trial.len > tol then trial else v0.cross ⟨0, 1, 0⟩
      fromQuat axis (1 + d)
    else .ok M3.one
  else fromQuat axis (1 + d)

/-- `rotation_matrix_from_normals(v0, v1, tol)`: spatial.py:590-633.  The zero vector (which numpy turns into
NaNs) is outside the model: Lean's division by zero makes it the zero vector here. -/
noncomputable def rotationMatrixFromNormals (v0 v1 : NArr ℝ) (tol : ℝ) : Py (M3 ℝ) :=
  let v0 := v0.squeeze
  let v1 := v1.squeeze
  if v0.shape ≠ [3] then .error .valueError
  else if v1.shape ≠ [3] then .error .valueError
  else
    let a : V3 ℝ := ⟨v0.get [0], v0.get [1], v0.get [2]⟩
    let b : V3 ℝ := ⟨v1.get [0], v1.get [1], v1.get [2]⟩
    rotationUnit (a.map (· / a.len)) (b.map (· / b.len)) tol

/-- The default tolerance of `rotation_matrix_from_normals`: spatial.py:561. -/
noncomputable def defaultTol : ℝ := 1e-20

/-- A length-three vector as an array of shape `(3,)`. -/
def arr3 (v : V3 ℝ) : NArr ℝ := NArr.ofList [v.x, v.y, v.z] 0

/-- `rotate_points_from_normals(xyz, n0, n1, x0)`: spatial.py:668-673 with normals and centre of shape `(3,)`;
`(xyz - x0) @ R.T + x0` is `R (p - x0) + x0` for every row `p`. -/
noncomputable def rotatePointsFromNormals (xyz : Mat) (n0 n1 x0 : V3 ℝ) : Py Mat := do
  let R ← rotationMatrixFromNormals (arr3 n0) (arr3 n1) defaultTol
  if xyz.width ≠ 3 then .error .assertionError
  else pure (Mat.ofRows xyz.rows fun i => R.mulVec (xyz.row i - x0) + x0)

end Verif.Spatial
