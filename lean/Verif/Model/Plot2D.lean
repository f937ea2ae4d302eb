import Verif.Py.Float
import Verif.Py.Flag
import Mathlib.Analysis.SpecialFunctions.Log.Base
import Mathlib.Analysis.SpecialFunctions.Pow.Real

/-!
# Model of the options of `plot2Ddata` (`geoana/plotting_utils.py`)

What is drawn is matplotlib's; what is modelled is which colour limits, levels and keyword arguments reach matplotlib, what is returned, which
calls raise, and what happens to the dictionary that the caller passed.  The interpolated data on the grid are an argument.
-/

namespace Verif.Plot2D

open Classical

/-- Values of options. -/
inductive Val where
  | none
  | num (x : PyFloat)
  | levels (l : List ℝ)
  | other

/-- A `dict` with string keys (the order of the keys is not modelled). -/
abbrev Dict := String → Option Val

/-- `d.pop(key)` on a present key: the dictionary afterwards. -/
def Dict.erase (d : Dict) (key : String) : Dict := fun k => if k = key then Option.none else d k

/-- `{**base, **d}` -/
def Dict.over (base d : Dict) : Dict := fun k => (d k).orElse fun _ => base k

/-- `np.isclose(a, b)` with the default tolerances. -/
noncomputable def isclose : PyFloat → PyFloat → Prop
  | .fin a, .fin b => |a - b| ≤ 1e-8 + 1e-5 * |b|
  | .pinf, .pinf => True
  | .ninf, .ninf => True
  | _, _ => False

/-- `np.min` of two entries: NaN wins. -/
noncomputable def min2 (a b : PyFloat) : PyFloat :=
  if a = .nan ∨ b = .nan then .nan else if a ≤ b then a else b

/-- `np.max` of two entries: NaN wins. -/
noncomputable def max2 (a b : PyFloat) : PyFloat :=
  if a = .nan ∨ b = .nan then .nan else if b ≤ a then a else b

/-- `np.min(clim)`; an empty array raises. -/
noncomputable def npMin : List PyFloat → Py PyFloat
  | [] => .error .valueError
  | x :: xs => .ok (xs.foldl min2 x)

/-- `np.max(clim)` -/
noncomputable def npMax : List PyFloat → Py PyFloat
  | [] => .error .valueError
  | x :: xs => .ok (xs.foldl max2 x)

/-- One round of the loop over `vmin` and `vmax`: plotting_utils.py:120-134.  The dictionary afterwards, and the limit or the exception. -/
noncomputable def resolveOne (opts : Dict) (key : String) (limit : Val) : Dict × Py Val :=
  match opts key with
  | .none => (opts, .ok limit)
  | some v =>
    match limit with
    | .none => (opts.erase key, .ok v)
    | .num l =>
      match v with
      | .num x => if isclose x l then (opts.erase key, .ok (.num l)) else (opts, .error .exception)
      | _ => (opts, .error .typeError)
    | _ => (opts, .error .typeError)

/-- Resolution of the colour limits: plotting_utils.py:114-135. -/
noncomputable def resolveLimits (clim : Option (List PyFloat)) (opts : Dict) : Dict × Py (Val × Val) :=
  match (match clim with
    | .none => .ok (Val.none, Val.none)
    | some c => do
      let lo ← npMin c
      let hi ← npMax c
      pure (Val.num lo, Val.num hi) : Py (Val × Val)) with
  | .error e => (opts, .error e)
  | .ok (lo, hi) =>
    match resolveOne opts "vmin" lo with
    | (opts, .error e) => (opts, .error e)
    | (opts, .ok lo) =>
      match resolveOne opts "vmax" hi with
      | (opts, .error e) => (opts, .error e)
      | (opts, .ok hi) => (opts, .ok (lo, hi))

/-- The entries that are neither NaN nor infinite: `DATA[dataselection]`, plotting_utils.py:159, 206. -/
def finiteEntries (data : List PyFloat) : List ℝ := data.filterMap fun | .fin x => some x | _ => Option.none

/-- `DATA[dataselection].min() if vmin is None else vmin`: plotting_utils.py:164, 209. -/
noncomputable def fillMin (limit : Val) (data : List ℝ) : Py Val :=
  match limit with
  | .none => match data with
    | [] => .error .valueError
    | x :: xs => .ok (.num (.fin (xs.foldl min x)))
  | v => .ok v

/-- `DATA[dataselection].max() if vmax is None else vmax`: plotting_utils.py:165, 210. -/
noncomputable def fillMax (limit : Val) (data : List ℝ) : Py Val :=
  match limit with
  | .none => match data with
    | [] => .error .valueError
    | x :: xs => .ok (.num (.fin (xs.foldl max x)))
  | v => .ok v

/-- `np.linspace(a, b, n + 1)` -/
noncomputable def linspace (a b : ℝ) (n : ℕ) : List ℝ := (List.range (n + 1)).map fun i : ℕ => a + (i : ℝ) * ((b - a) / n)

/-- The contour levels: plotting_utils.py:167-172, 212-217.  Limits for which they are not numbers are not modelled further. -/
noncomputable def levelsOf (scale : String) (vmin vmax : Val) (ncontour : ℕ) : Val :=
  match vmin, vmax with
  | .num (.fin a), .num (.fin b) =>
    if scale = "log" then
      if 0 < a ∧ 0 < b then .levels ((linspace (Real.logb 10 a) (Real.logb 10 b) ncontour).map fun t => (10 : ℝ) ^ t) else .other
    else .levels (linspace a b ncontour)
  | _, _ => .other

/-- The data on the grid: one value per node, or the two components of a vector. -/
inductive Grid where
  | scalar (d : List PyFloat)
  | vector (d : List (PyFloat × PyFloat))

/-- The arguments that matter. -/
structure Args where
  grid : Grid
  vec : Flag
  axGiven : Bool
  level : Flag
  fignameGiven : Bool
  ncontour : ℕ
  levelOpts : Dict
  scale : String
  clim : Option (List PyFloat)

/-- What reaches matplotlib and the caller. -/
structure Drawn where
  vmin : Val
  vmax : Val
  /-- keyword arguments of `contourf` -/
  contourf : Dict
  /-- keyword arguments of `contour`, if it is called -/
  contour : Option Dict
  /-- number of returned objects -/
  returned : ℕ

/-- `DATA` before the limits are filled in: plotting_utils.py:150-161, 187-206. -/
noncomputable def gridData (a : Args) : Py (List PyFloat) :=
  if a.vec = .bool false then
    match a.grid with
    | .scalar d => .ok (if a.scale = "log" then d.map PyFloat.abs else d)
    | .vector _ => .error .valueError
  else
    match a.grid with
    | .scalar _ => .error .indexError
    | .vector d =>
      let m := d.map fun v => PyFloat.sqrt (v.1 ^ 2 + v.2 ^ 2)
      .ok (if a.scale = "log" then m.map PyFloat.abs else m)

/-- `plot2Ddata`: plotting_utils.py:114-277.  The dictionary `contourOpts` of the caller afterwards, and what is drawn or the exception. -/
noncomputable def plot2Ddata (a : Args) (contourOpts : Dict) : Dict × Py Drawn :=
  match resolveLimits a.clim contourOpts with
  | (opts, .error e) => (opts, .error e)
  | (opts, .ok (vmin, vmax)) => (opts, do
      let data ← gridData a
      let vmin ← fillMin vmin (finiteEntries data)
      let vmax ← fillMax vmax (finiteEntries data)
      let levels := levelsOf a.scale vmin vmax a.ncontour
      let base : Dict := fun k => if k = "levels" then some levels else if k = "norm" ∨ k = "zorder" then some .other else Option.none
      let levelBase : Dict := fun k => if k = "levels" then some levels else if k = "zorder" then some .other else Option.none
      let contourf := base.over opts
      let levelOpts := levelBase.over a.levelOpts
      -- line 233 passes `levels` and `zorder` next to a dictionary that holds them
      if a.level.truthy ∧ a.vec ≠ .bool false ∧ ((levelOpts "levels").isSome ∨ (levelOpts "zorder").isSome) then .error .typeError
      -- line 273 reads `fig`, which is bound only when `ax` was not given
      else if a.fignameGiven ∧ a.axGiven then .error .unboundLocalError
      else pure ⟨vmin, vmax, contourf, if a.level.truthy then some levelOpts else Option.none, if a.level.truthy then 3 else 2⟩)

end Verif.Plot2D
