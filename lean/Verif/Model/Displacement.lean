import Verif.Model.Okada
import Verif.Model.Earthquake

/-!
# Model of `Oksar.displacement_vector` (geoana/earthquake/oksar.py:1297-1353)

Exact real arithmetic as in `Model/Okada`.  A horizontal fault, for which the code divides by `sin dip = 0`, is not modelled.
-/

namespace Verif.Okada

open Real

/-- The attributes of an `Oksar` that are read, as numbers: oksar.py:1312-1323. -/
structure Event where
  centerX : ℝ
  centerY : ℝ
  strike : ℝ
  dip : ℝ
  rake : ℝ
  slip : ℝ
  length : ℝ
  depthTop : ℝ
  depthBottom : ℝ
  beta : ℝ
  mu : ℝ

namespace Event

/-- The angle of `ct` and `st`: oksar.py:1339-1342. -/
noncomputable def turnAngle (e : Event) : ℝ := (e.strike + 90) * pl8

/-- The arguments of `_dc3d3` apart from the stations: oksar.py:1311-1334, 1347.  The value given to `hmin` at oksar.py:1336-1337 is not
used afterwards. -/
noncomputable def fault (e : Event) : Fault :=
  let rrake := (e.rake + 90) * pl8
  let sindip := sin (e.dip * pl8)
  { alpha := (e.beta + e.mu) / (e.beta + 2 * e.mu)
    dip := -e.dip
    al1 := -(e.length / 2)
    al2 := e.length / 2
    aw1 := e.depthTop / sindip
    aw2 := e.depthBottom / sindip
    disl1 := -e.slip * sin rrake
    disl2 := e.slip * cos rrake }

/-- `X` and `Y` of one point of the grid: oksar.py:1344-1345. -/
noncomputable def station (e : Event) (p : ℝ × ℝ) : Station :=
  let ct := cos e.turnAngle
  let st := sin e.turnAngle
  { X := ct * (-e.centerX + p.1) - st * (-e.centerY + p.2)
    Y := ct * (-e.centerY + p.2) + st * (-e.centerX + p.1) }

/-- `np.stack([UX, UY, UZ], axis=-1)`: of shape `(3,)`, or of shape `(3, 3)` as three rows. -/
inductive Stacked where
  | vector (v : V3 ℝ)
  | rows (r : V3 (V3 ℝ))

/-- The combination at oksar.py:1349-1351 of `a = u[..., 0]`, `b = u[..., 1]` and `c = u[..., 2]`. -/
noncomputable def combine (e : Event) (a b c : ℝ) : V3 ℝ :=
  let ct := cos e.turnAngle
  let st := sin e.turnAngle
  ⟨ct * a + st * b, -st * a + ct * b, c⟩

/-- One row of the stacked array: `u[i, 0]`, `u[i, 1]` and `u[i, 2]` combined. -/
noncomputable def combineRow (e : Event) : List ℝ → Py (V3 ℝ)
  | a :: b :: c :: _ => .ok (e.combine a b c)
  | _ => .error .indexError

/-- oksar.py:1349-1353: `u[..., k]` is column `k` of an array of shape `(3, n)`. -/
noncomputable def stack (e : Event) : Arr → Py Stacked
  | .vector v => .ok (.vector (e.combine v.x v.y v.z))
  | .matrix m => do
    let x ← e.combineRow m.x
    let y ← e.combineRow m.y
    let z ← e.combineRow m.z
    .ok (.rows ⟨x, y, z⟩)

/-- `displacement_vector` once the grid is there: oksar.py:1309-1353. -/
noncomputable def displacementOn (e : Event) (grid : List (ℝ × ℝ)) : Py Stacked := do
  let u ← dc3d3 e.fault (grid.map e.station)
  e.stack u

end Event

/-- `displacement_vector`: oksar.py:1297-1353.  `rest` is what follows the reading of `simulation_grid`; it is modelled by
`Event.displacementOn`. -/
noncomputable def displacementVector {D : Type} {β : Type} (rest : NArr PyFloat → Py β) (s : Earthquake.Slots D) : Py β := do
  let grid ← Earthquake.simulationGrid s
  rest grid

end Verif.Okada
