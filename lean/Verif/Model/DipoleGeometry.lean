import Verif.Py.Broadcast
import Verif.Model.Spatial

/-!
# Model of the geometric helpers of dipoles and loops (`BaseDipole`, geoana/em/base.py:226-322)

Arrays of reals of any number of axes; exact arithmetic.
-/

namespace Verif.Dipole

open Spatial

/-- The location and orientation of a dipole: em/base.py:153-224. -/
structure Source where
  location : V3 ℝ
  orientation : V3 ℝ

/-- `vector_distance`: em/base.py:226-249. -/
def vectorDistance (s : Source) (xyz : NArr ℝ) : Py (NArr ℝ) := NArr.zipWith (fun q p => q - p) xyz (arr3 s.location)

/-- `np.linalg.norm(a, axis=-1)`.  An array without axes cannot occur here. -/
noncomputable def normLast (a : NArr ℝ) : NArr ℝ :=
  ⟨a.shape.dropLast, fun i => √((List.range (a.shape.getLastD 0)).map fun k => a.get (i ++ [k]) ^ 2).sum⟩

/-- `distance`: em/base.py:251-274. -/
noncomputable def distance (s : Source) (xyz : NArr ℝ) : Py (NArr ℝ) := do
  let v ← vectorDistance s xyz
  pure (normLast v)

/-- `np.dot(vecs, o)` for `o` of shape `(3,)`: a multiplication if `vecs` has no axes, otherwise a sum over the last axis. -/
def dotOrientation (s : Source) (vecs : NArr ℝ) : Py (NArr ℝ) :=
  match vecs.shape.getLast? with
  | none => .ok ⟨[3], fun i => vecs.get [] * (arr3 s.orientation).get i⟩
  | some n =>
    if n ≠ 3 then .error .valueError
    else .ok ⟨vecs.shape.dropLast, fun i => ((List.range 3).map fun k => vecs.get (i ++ [k]) * (arr3 s.orientation).get [k]).sum⟩

/-- `np.cross(xyz, o)` for `o` of shape `(3,)`: a last axis of length two is a vector without third component; other lengths raise
`ValueError`, and no axes at all raise `AxisError`, which is a `ValueError`. em/base.py:299-322. -/
def crossOrientation (s : Source) (xyz : NArr ℝ) : Py (NArr ℝ) :=
  match xyz.shape.getLast? with
  | none => .error .valueError
  | some n =>
    if n ≠ 2 ∧ n ≠ 3 then .error .valueError
    else
      let o := s.orientation
      let z := fun i => if n = 2 then 0 else xyz.get (i ++ [2])
      .ok ⟨xyz.shape.dropLast ++ [3], fun i =>
        let j := i.dropLast
        match i.getLastD 0 with
        | 0 => xyz.get (j ++ [1]) * o.z - z j * o.y
        | 1 => z j * o.x - xyz.get (j ++ [0]) * o.z
        | _ => xyz.get (j ++ [0]) * o.y - xyz.get (j ++ [1]) * o.x⟩

end Verif.Dipole
