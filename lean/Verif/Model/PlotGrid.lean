import Verif.Model.Plot2D
import Verif.Model.Spatial
import Mathlib.Analysis.SpecialFunctions.Trigonometric.Arctan

/-!
# Model of the map that `plot2Ddata` draws (`geoana/plotting_utils.py`): the grid, the interpolation onto it, the mask and the shading

The two interpolators of scipy are given by the weights with which the data enter (`Interp`); what is assumed of them is stated in
`Spec/Interpolation`.  Data are finite numbers.
-/

namespace Verif.Plot2D

open Classical

/-- The weights of the stations (by number) at a point; `none` where the interpolator returns NaN. -/
structure Interp where
  /-- `NearestNDInterpolator(points, data)` -/
  nearest : List (ℝ × ℝ) → ℝ × ℝ → ℕ
  /-- `LinearNDInterpolator(points, data)` -/
  linear : List (ℝ × ℝ) → ℝ × ℝ → Option (List (ℕ × ℝ))

/-- `np.linspace(a, b, n)` -/
noncomputable def linspaceN (a b : ℝ) (n : ℕ) : List ℝ :=
  (List.range n).map fun i : ℕ => if n = 1 then a else a + (i : ℝ) * ((b - a) / ((n : ℝ) - 1))

/-- `v.min()`; an empty array raises. -/
noncomputable def arrMin : List ℝ → Py ℝ
  | [] => .error .valueError
  | x :: xs => .ok (xs.foldl min x)

/-- `v.max()` -/
noncomputable def arrMax : List ℝ → Py ℝ
  | [] => .error .valueError
  | x :: xs => .ok (xs.foldl max x)

/-- The coordinates of the columns and of the rows of the grid: plotting_utils.py:143-146. -/
noncomputable def gridAxes (pts : List (ℝ × ℝ)) (nx ny : ℕ) : Py (List ℝ × List ℝ) := do
  let xmin ← arrMin (pts.map (·.1))
  let xmax ← arrMax (pts.map (·.1))
  let ymin ← arrMin (pts.map (·.2))
  let ymax ← arrMax (pts.map (·.2))
  pure (linspaceN xmin xmax nx, linspaceN ymin ymax ny)

/-- `X, Y = np.meshgrid(x, y)`, entry of row `i` and column `j`: plotting_utils.py:147. -/
def meshgridX (x y : List ℝ) : List (List ℝ) := y.map fun _ => x

/-- See `meshgridX`. -/
def meshgridY (x y : List ℝ) : List (List ℝ) := y.map fun c => x.map fun _ => c

/-- `np.c_[X.flatten(), Y.flatten()]`: plotting_utils.py:148. -/
def gridPoints (x y : List ℝ) : List (ℝ × ℝ) := (meshgridX x y).flatten.zip (meshgridY x y).flatten

/-- `F(p)` for scalar data: plotting_utils.py:151-155, 191-198. -/
noncomputable def interpolate (I : Interp) (method : String) (pts : List (ℝ × ℝ)) (data : List ℝ) (p : ℝ × ℝ) : PyFloat :=
  if method = "nearest" then .fin (data.getD (I.nearest pts p) 0)
  else match I.linear pts p with
    | none => .nan
    | some w => .fin (w.map fun c => c.2 * data.getD c.1 0).sum

/-- The data: `(n)` or `(n, 2)`. -/
inductive Stations where
  | scalar (d : List ℝ)
  | vector (d : List (ℝ × ℝ))

/-- The data on the grid, still flat: plotting_utils.py:151-155, 189-201. -/
noncomputable def gridOf (I : Interp) (method : String) (pts : List (ℝ × ℝ)) (s : Stations) (x y : List ℝ) : Grid :=
  match s with
  | .scalar d => .scalar ((gridPoints x y).map (interpolate I method pts d))
  | .vector d => .vector ((gridPoints x y).map fun p =>
      (interpolate I method pts (d.map (·.1)) p, interpolate I method pts (d.map (·.2)) p))

/-- `DATA.reshape(X.shape)[i, j]`: plotting_utils.py:156, 199-201. -/
def reshaped {α : Type} (nx : ℕ) (flat : List α) (i j : ℕ) : Option α := flat[i * nx + j]?

/-- `MASK = Fmask(xy)`, flat: plotting_utils.py:174-177, 219-222. -/
noncomputable def gridMask (I : Interp) (pts : List (ℝ × ℝ)) (mask : List Bool) (x y : List ℝ) : List Bool :=
  (gridPoints x y).map fun p => mask.getD (I.nearest pts p) false

/-- `plot2Ddata` from the stations on: plotting_utils.py:114-277.  `a.grid` is not read. -/
noncomputable def plotStations (I : Interp) (method : String) (pts : List (ℝ × ℝ)) (s : Stations) (nx ny : ℕ) (a : Args) (contourOpts : Dict) :
    Dict × Py Drawn :=
  match gridAxes pts nx ny with
  | .ok (x, y) => plot2Ddata { a with grid := gridOf I method pts s x y } contourOpts
  | .error e => ((resolveLimits a.clim contourOpts).1, match (resolveLimits a.clim contourOpts).2 with
      | .error e' => .error e'
      | .ok _ => .error e)

/-! ## Shading -/

/-- `np.gradient` along an axis with `n` entries and unit steps: differences to both sides, at the ends to one side. -/
noncomputable def npGradient (n : ℕ) (f : ℕ → ℝ) (i : ℕ) : ℝ :=
  if i = 0 then f 1 - f 0 else if i = n - 1 then f (n - 1) - f (n - 2) else (f (i + 1) - f (i - 1)) / 2

/-- `hillshade(array, azimuth, angle_altitude)[i, j]` for an array with `n` rows and `m` columns: plotting_utils.py:237-250.  `np.gradient` refuses
fewer than two entries along an axis. -/
noncomputable def hillshade (n m : ℕ) (array : ℕ → ℕ → ℝ) (azimuth angleAltitude : ℝ) (i j : ℕ) : Py ℝ :=
  if n < 2 ∨ m < 2 then .error .valueError else
  let azimuth := 360 - azimuth
  let x := npGradient n (fun k => array k j) i
  let y := npGradient m (fun k => array i k) j
  let slope := Real.pi / 2 - Real.arctan (Real.sqrt (x * x + y * y))
  let aspect := Spatial.arctan2 (-x) y
  let azimuthrad := azimuth * Real.pi / 180
  let altituderad := angleAltitude * Real.pi / 180
  let shaded := Real.sin altituderad * Real.sin slope +
    Real.cos altituderad * Real.cos slope * Real.cos ((azimuthrad - Real.pi / 2) - aspect)
  .ok (255 * (shaded + 1) / 2)

/-! ## The order of the layers -/

/-- The calls of matplotlib that draw, with the height at which they draw (`zorder`). -/
inductive Layer where
  | colours (zorder : ℕ)
  | lines (zorder : ℕ)
  | streams (zorder : ℕ)
  | shading (zorder : ℕ)
  | dots
  deriving DecidableEq

/-- The drawing calls of a call that does not raise, without options for the heights: plotting_utils.py:180-185, 225-233, 252-269. -/
def layers (vec level shade dataloc : Flag) : List Layer :=
  [.colours 1] ++ (if vec = .bool false then [] else [.streams 4]) ++ (if level.truthy then [.lines 3] else []) ++
    (if shade.truthy then [.shading 2] else []) ++ (if dataloc.truthy then [.dots] else [])

end Verif.Plot2D
