import Verif.Model.FieldArrays
import Verif.Model.FdemHalfspace
import Verif.Model.TdemSimple

/-!
# Model of the array operations in the half-space and layered-earth methods

`geoana/em/fdem/halfspace.py`, `geoana/em/fdem/layered.py`, `geoana/em/tdem/simple_functions.py` and `geoana/em/tdem/halfspace.py` for
arrays of frequencies (times) and points.  Unlike in `Verif.Model.FieldArrays`, an arithmetic expression in which every array occurs
elementwise is modelled as one elementwise function of the arrays in it, with the same broadcasting.  Exact arithmetic.
-/

namespace Verif

open Complex (I)
open Utils (XyzArg checkXyzDim appendNdim)

namespace NArr

variable {α β : Type}

/-- `a[..., :2]`: an array without axes raises `IndexError`. -/
def firstTwo (a : NArr α) : Py (NArr α) :=
  match a.shape.getLast? with
  | none => .error .indexError
  | some n => .ok ⟨a.shape.dropLast ++ [min n 2], a.get⟩

/-- `a[..., c]` for an array with a last axis longer than `c`. -/
def column (a : NArr α) (c : ℕ) : NArr α := ⟨a.shape.dropLast, fun i => a.get (i ++ [c])⟩

/-- `np.stack((x, y, z), axis=-1)` for three arrays of one shape. -/
def stack3 (x y z : NArr α) : NArr α :=
  ⟨x.shape ++ [3], fun i => match i.getLastD 0 with
    | 0 => x.get i.dropLast
    | 1 => y.get i.dropLast
    | _ => z.get i.dropLast⟩

/-- `k[:, None]`: a new second axis; an array without axes raises `IndexError`. -/
def newSecond (a : NArr α) : Py (NArr α) :=
  match a.shape with
  | [] => .error .indexError
  | n :: s => .ok ⟨n :: 1 :: s, fun i => a.get (i.headD 0 :: i.drop 2)⟩

/-- `for dim in range(m): k = k[:, None]`. -/
def newSeconds (a : NArr α) : ℕ → Py (NArr α)
  | 0 => .ok a
  | m + 1 => do
    let b ← newSecond a
    newSeconds b m

end NArr

open NArr

/-- `(x, y)` as an array of shape `(2,)`: `self.location[:2]`. -/
def arr2 (v : V3 ℝ) : NArr ℝ := NArr.ofList [v.x, v.y] 0

namespace FdemArr

/-- Attributes of `MagneticDipoleHalfSpace`: em/fdem/halfspace.py:13-21, with an array of frequencies. -/
structure HalfDipole extends Medium where
  location : V3 ℝ
  orientation : V3 ℝ
  moment : ℝ

/-- The dipole at one frequency. -/
noncomputable def HalfDipole.at (s : HalfDipole) (f : ℝ) : Fdem.HalfDipole :=
  ⟨f, Fdem.sigmaHat f s.sigma s.epsilon s.quasistatic, s.location, s.orientation, s.moment⟩

/-- `k`: em/fdem/halfspace.py:86-89. -/
noncomputable def HalfDipole.k (mu0 : ℝ) (s : HalfDipole) : NArr ℂ := s.frequency.mapA fun f => (s.at f).k mu0

/-- `magnetic_field`: em/fdem/halfspace.py:86-138.  `em_x`, `em_y` and `em_z` are elementwise functions of `k`, `x`, `y` and
`r = sqrt(x**2 + y**2)`: `Fdem.halfEm`. -/
noncomputable def HalfDipole.magneticField (iv kv : ℕ → ℂ → ℂ) (mu0 : ℝ) (s : HalfDipole) (xy : NArr ℝ) (field : String) : Py (NArr ℂ) := do
  let xy2 ← xy.firstTwo
  let dxy ← zipWith (· - ·) xy2 (arr2 s.location)
  let r := Dipole.normLast dxy
  let x := dxy.column 0
  let y := dxy.column 1
  let k ← (s.k mu0).newSeconds r.ndim
  let p ← zipWith Prod.mk x y
  let em ← zipWith (fun k p => Fdem.halfEm iv kv k s.orientation p.1 p.2 field) k p
  let stacked := stack3 (em.mapA V3.x) (em.mapA V3.y) (em.mapA V3.z)
  pure (stacked.squeeze.mapA (((s.moment / (4 * Real.pi) : ℝ) : ℂ) * ·))

/-- The attributes of `MagneticDipoleLayeredHalfSpace` that `magnetic_field` reads, after `_get_valid_properties_array` and
`sigma_hat` (layered.py:408-427): for every frequency a column of layer properties. -/
structure LayeredDipole where
  nFreq : ℕ
  frequency : ℕ → ℝ
  nThick : ℕ
  thickness : ℕ → ℝ
  sigmaHat : ℕ → ℕ → ℂ
  mu : ℕ → ℕ → ℂ
  location : V3 ℝ
  orientation : V3 ℝ
  moment : ℝ

/-- The dipole at frequency number `f`: its columns of the property arrays. -/
def LayeredDipole.at (s : LayeredDipole) (f : ℕ) : Fdem.LayeredDipole :=
  ⟨s.frequency f, s.nThick, s.thickness, fun l => s.sigmaHat l f, fun l => s.mu l f, s.location, s.orientation, s.moment⟩

/-- `rTE.reshape((n_frequency, n_loc, n_filter))` of the array of shape `(n_frequency, n_loc * n_filter)`: layered.py:431, in the
order of C. -/
def unflatten (a : ℕ → ℕ → ℂ) (nFilter : ℕ) (f l j : ℕ) : ℂ := a f (l * nFilter + j)

/-- One of `em_x`, `em_y`, `em_z` (`c` picks the component) for points of shape `(n, 3)` given by their rows: layered.py:402-476.
The transforms are sums over the filter: `(C * rTE) @ filt_j0`. -/
noncomputable def LayeredDipole.component (filter : List Fdem.Tap) (mu0 : ℝ) (s : LayeredDipole) (n : ℕ) (xyz : ℕ → V3 ℝ) (field : String)
    (c : V3 ℝ → ℝ) : NArr ℂ :=
  let h := s.location.z
  let dxyz := fun l => xyz l - s.location
  let offsets := fun l => Real.sqrt ((dxyz l).x ^ 2 + (dxyz l).y ^ 2)
  let nf := filter.length
  let tap := fun j => filter.getD j ⟨0, 0, 0⟩
  let lambd := fun l j => (tap j).base / offsets l
  let lambdFlat := fun m => lambd (m / nf) (m % nf)
  let rTEFlat := fun f m => (s.at f).rTE mu0 (lambdFlat m)
  let rTE := fun f l j => unflatten rTEFlat nf f l j * Real.exp (-lambd l j * ((xyz l).z + h))
  let src := s.orientation
  let C := fun l j => Fdem.coefficients src (dxyz l).x (dxyz l).y (offsets l) (lambd l j)
  let em := fun f l =>
    (((List.range nf).map fun j => (c (C l j).1 : ℂ) * rTE f l j * (tap j).j0).sum +
      ((List.range nf).map fun j => (c (C l j).2 : ℂ) * rTE f l j * (tap j).j1).sum) / (offsets l : ℂ)
  let primary : ℕ → ℝ := fun l =>
    let r := (dxyz l).len
    let mdotr := src.x * (dxyz l).x + src.y * (dxyz l).y + src.z * (dxyz l).z
    3 * c (dxyz l) * mdotr / r ^ 5 - c src / r ^ 3
  ⟨[s.nFreq, n], fun i => if field = "total" then em (i.headD 0) (i.getD 1 0) + (primary (i.getD 1 0) : ℂ) else em (i.headD 0) (i.getD 1 0)⟩

/-- `self.moment/(4*np.pi)*np.stack((em_x, em_y, em_z), axis=-1).squeeze()`: layered.py:478. -/
noncomputable def LayeredDipole.fieldRows (filter : List Fdem.Tap) (mu0 : ℝ) (s : LayeredDipole) (n : ℕ) (xyz : ℕ → V3 ℝ) (field : String) :
    NArr ℂ :=
  let em := s.component filter mu0 n xyz field
  (stack3 (em V3.x) (em V3.y) (em V3.z)).squeeze.mapA (((s.moment / (4 * Real.pi) : ℝ) : ℂ) * ·)

/-- `a[:, None]` for the shape of an array with at least one axis. -/
def newSecond : List ℕ → List ℕ
  | [] => []
  | n :: s => n :: 1 :: s

open Classical in
/-- The statements of `magnetic_field` up to the first coefficient (layered.py:400-442) for points of shape `a :: b :: s` with `s`
not empty, for which `xyz[:, 0]` and the like take whole slices: the shapes of `dxyz`, `offsets`, `lambd`, of the exponential that
multiplies `rTE` in place, and of the first product of a coefficient with `lambd`. -/
noncomputable def LayeredDipole.slices (nFilter : ℕ) (s : LayeredDipole) (xyz : NArr ℝ) (a b : ℕ) (rest : List ℕ) : Py Unit := do
  if b < 3 then .error .indexError else pure ()
  if ∃ l i, InShape (a :: rest) (l :: i) ∧ xyz.get (l :: 2 :: i) < 0 then .error .valueError else pure ()
  let dxyz ← bcastShape (a :: b :: rest) [3]
  let offsets := (a :: (b - 1) :: dxyz.drop 2).dropLast
  let lambd ← bcastShape [nFilter] (newSecond offsets)
  let decay ← bcastShape lambd (newSecond (a :: rest))
  let rTE ← bcastShape (s.nFreq :: lambd) decay
  if rTE = s.nFreq :: lambd then pure () else .error .valueError
  if s.orientation ≠ 0 then do
    let quotient ← bcastShape (a :: dxyz.drop 2) offsets
    let _ ← bcastShape (newSecond quotient) lambd
  else pure ()

open Classical in
/-- `magnetic_field`: layered.py:400-478.  `xyz[:, 2]` raises `IndexError` for less than two axes or less than three columns;
`xyz - self.location` raises `ValueError` for more columns.  For more than two axes only the statements up to the first coefficient
are modelled; should they succeed, the empty array stands for the result. -/
noncomputable def LayeredDipole.magneticField (filter : List Fdem.Tap) (mu0 : ℝ) (s : LayeredDipole) (xyz : NArr ℝ) (field : String) :
    Py (NArr ℂ) :=
  match xyz.shape with
  | [n, m] =>
    if m < 3 then .error .indexError
    else if ∃ l < n, xyz.get [l, 2] < 0 then .error .valueError
    else if 3 < m then .error .valueError
    else .ok (s.fieldRows filter mu0 n (fun l => ⟨xyz.get [l, 0], xyz.get [l, 1], xyz.get [l, 2]⟩) field)
  | a :: b :: c :: rest => do
    s.slices filter.length xyz a b (c :: rest)
    pure ⟨[0], fun _ => 0⟩
  | _ => .error .indexError

end FdemArr

namespace TdemArr

/-- `try: xy = check_xyz_dim(xy, 3)[..., :2] except ValueError: xy = check_xyz_dim(xy, 2)`: em/tdem/simple_functions.py:314-317 and
413-416. -/
noncomputable def horizontal32 (xy : XyzArg ℝ) : Py (NArr ℝ) :=
  match checkXyzDim xy 3 with
  | .ok a => a.firstTwo
  | .error .valueError => checkXyzDim xy 2
  | .error e => .error e

/-- `try: xy = check_xyz_dim(xy, dim=2) except ValueError: xy = check_xyz_dim(xy, dim=3)[..., :2]`: em/tdem/halfspace.py:38-41 and
82-85. -/
noncomputable def horizontal23 (xy : XyzArg ℝ) : Py (NArr ℝ) :=
  match checkXyzDim xy 2 with
  | .ok a => .ok a
  | .error .valueError => do
    let a ← checkXyzDim xy 3
    a.firstTwo
  | .error e => .error e

/-- The common shape of the two functions: em/tdem/simple_functions.py:314-340 and 413-440; `f t x y` is the vector of the three
elementwise results, already multiplied by `moment / (4 * np.pi)`. -/
noncomputable def onSurface (f : ℝ → ℝ → ℝ → V3 ℝ) (t : NArr ℝ) (xy : XyzArg ℝ) : Py (NArr ℝ) := do
  let xy ← horizontal32 xy
  let r := Dipole.normLast xy
  let x := xy.column 0
  let y := xy.column 1
  let t := appendNdim t r.ndim
  let p ← zipWith Prod.mk x y
  let h ← zipWith (fun t p => f t p.1 p.2) t p
  pure (stack3 (h.mapA V3.x) (h.mapA V3.y) (h.mapA V3.z))

/-- `magnetic_field_vertical_magnetic_dipole`: em/tdem/simple_functions.py:262-340. -/
noncomputable def dipoleField (t : NArr ℝ) (xy : XyzArg ℝ) (sigma mu moment : ℝ) : Py (NArr ℝ) :=
  onSurface (fun t x y => Tdem.dipoleField t x y sigma mu moment) t xy

/-- `magnetic_field_time_deriv_magnetic_dipole`: em/tdem/simple_functions.py:343-440. -/
noncomputable def dipoleFieldTimeDeriv (t : NArr ℝ) (xy : XyzArg ℝ) (sigma mu moment : ℝ) : Py (NArr ℝ) :=
  onSurface (fun t x y => Tdem.dipoleFieldTimeDeriv t x y sigma mu moment) t xy

/-- `magnetic_flux_vertical_magnetic_dipole`: em/tdem/simple_functions.py:468-470. -/
noncomputable def dipoleFlux (t : NArr ℝ) (xy : XyzArg ℝ) (sigma mu moment : ℝ) : Py (NArr ℝ) := do
  let h ← dipoleField t xy sigma mu moment
  pure (h.mapA (mu * ·))

/-- `magnetic_flux_time_deriv_magnetic_dipole`: em/tdem/simple_functions.py:501-503. -/
noncomputable def dipoleFluxTimeDeriv (t : NArr ℝ) (xy : XyzArg ℝ) (sigma mu moment : ℝ) : Py (NArr ℝ) := do
  let h ← dipoleFieldTimeDeriv t xy sigma mu moment
  pure (h.mapA (mu * ·))

/-- Attributes of `VerticalMagneticDipoleHalfSpace` with an array of times: em/tdem/halfspace.py:13. -/
structure HalfspaceDipole extends Medium where
  moment : ℝ
  location : V3 ℝ

/-- The dipole at one time. -/
def HalfspaceDipole.at (s : HalfspaceDipole) (t : ℝ) : Tdem.HalfspaceDipole := ⟨s.toMedium.at t, s.moment, s.location⟩

/-- `magnetic_field`: em/tdem/halfspace.py:38-46. -/
noncomputable def HalfspaceDipole.magneticField (s : HalfspaceDipole) (xy : XyzArg ℝ) : Py (NArr ℝ) := do
  let xy ← horizontal23 xy
  let dxy ← zipWith (· - ·) xy (arr2 s.location)
  dipoleField s.time (.array dxy) s.sigma s.mu s.moment

/-- `magnetic_flux_density`: em/tdem/halfspace.py:64. -/
noncomputable def HalfspaceDipole.magneticFluxDensity (s : HalfspaceDipole) (xy : XyzArg ℝ) : Py (NArr ℝ) := do
  let h ← s.magneticField xy
  pure (h.mapA (s.mu * ·))

/-- `magnetic_field_time_derivative`: em/tdem/halfspace.py:82-90. -/
noncomputable def HalfspaceDipole.magneticFieldTimeDerivative (s : HalfspaceDipole) (xy : XyzArg ℝ) : Py (NArr ℝ) := do
  let xy ← horizontal23 xy
  let dxy ← zipWith (· - ·) xy (arr2 s.location)
  dipoleFieldTimeDeriv s.time (.array dxy) s.sigma s.mu s.moment

/-- `magnetic_flux_time_derivative`: em/tdem/halfspace.py:108. -/
noncomputable def HalfspaceDipole.magneticFluxTimeDerivative (s : HalfspaceDipole) (xy : XyzArg ℝ) : Py (NArr ℝ) := do
  let h ← s.magneticFieldTimeDerivative xy
  pure (h.mapA (s.mu * ·))

end TdemArr

end Verif
