import Verif.Spec.RoundingTrig
import Verif.Model.Rounded

/-!
# The conversions of coordinates in the order in which the code carries out the operations, each of them rounded

`F` and `K` supply the operations.  Rows with three columns; the sign of a number is changed without rounding.
-/

namespace Verif.Rounded

variable (F : Ops) (K : TrigOps)

/-- `cylindrical_to_cartesian(grid)`: spatial.py:117-123, 133. -/
def cylToCart (g : V3 ℝ) : V3 ℝ := ⟨F.mul g.x (K.cos g.y), F.mul g.x (K.sin g.y), g.z⟩

/-- `cylindrical_to_cartesian(grid, vec)`: spatial.py:124-133. -/
def cylToCartVec (g v : V3 ℝ) : V3 ℝ :=
  ⟨F.sub (F.mul v.x (K.cos g.y)) (F.mul v.y (K.sin g.y)), F.add (F.mul v.x (K.sin g.y)) (F.mul v.y (K.cos g.y)), v.z⟩

/-- `cartesian_to_cylindrical(grid)`: spatial.py:201-209, 220. -/
def cartToCyl (g : V3 ℝ) : V3 ℝ := ⟨F.sqrt (F.add (F.pow g.x 2) (F.pow g.y 2)), K.arctan2 g.y g.x, g.z⟩

/-- `cartesian_to_cylindrical(grid, vec)`: spatial.py:210-220. -/
def cartToCylVec (g v : V3 ℝ) : V3 ℝ :=
  let theta := K.arctan2 g.y g.x
  ⟨F.add (F.mul (K.cos theta) v.x) (F.mul (K.sin theta) v.y), F.add (F.mul (-K.sin theta) v.x) (F.mul (K.cos theta) v.y), v.z⟩

/-- `spherical_to_cartesian(grid)`: spatial.py:286-291. -/
def sphToCart (g : V3 ℝ) : V3 ℝ :=
  let z := F.mul g.x (K.cos g.z)
  let rho := F.mul g.x (K.sin g.z)
  ⟨F.mul rho (K.cos g.y), F.mul rho (K.sin g.y), z⟩

/-- `cartesian_to_spherical(grid)`: spatial.py:383-390.  `np.linalg.norm` squares by multiplication. -/
def cartToSph (g : V3 ℝ) : V3 ℝ :=
  let rho := F.sqrt (F.add (F.mul g.x g.x) (F.mul g.y g.y))
  let phi := K.arctan2 g.y g.x
  let theta := K.arctan2 rho g.z
  ⟨norm F g, phi, theta⟩

end Verif.Rounded
