import Verif.Model.Utils
import Verif.Model.DipoleGeometry
import Verif.Model.Fdem
import Verif.Model.Tdem

/-!
# Model of the array operations in `geoana/em/fdem/wholespace.py` and `geoana/em/tdem/wholespace.py`

The same methods as in `Verif.Model.Fdem` and `Verif.Model.Tdem`, but for arrays of frequencies (or times) and arrays of
points with any number of axes: every operation is an operation on whole arrays, with broadcasting, as in the code.  Exact
arithmetic; the frequencies (times) are an array because the setters store `np.asarray(value)`.
-/

namespace Verif

open Complex (I)
open Spatial (arr3)
open Utils (XyzArg checkXyzDim appendNdim)

namespace NArr

variable {α β : Type}

/-- An elementwise function of one array. -/
def mapA (f : α → β) (a : NArr α) : NArr β := ⟨a.shape, fun i => f (a.get i)⟩

/-- `np.linalg.norm(a, axis=-1, keepdims=True)` -/
noncomputable def normKeep (a : NArr ℝ) : NArr ℝ := (Dipole.normLast a).newLast

/-- `a[..., [2]]` for an array with a last axis of length three. -/
def thirdKeep (a : NArr α) : NArr α := ⟨a.shape.dropLast ++ [1], fun i => a.get (i.dropLast ++ [2])⟩

/-- `a @ o` and `a.dot(o)` for `a` of shape `(..., 3)` and `o` of shape `(3,)`.  (Every caller has just checked the last axis.) -/
def dotRight (a : NArr ℝ) (o : V3 ℝ) : NArr ℝ :=
  ⟨a.shape.dropLast, fun i => a.get (i ++ [0]) * o.x + a.get (i ++ [1]) * o.y + a.get (i ++ [2]) * o.z⟩

/-- Component `c` of the cross product. -/
def crossComp (u v : V3 ℝ) : ℕ → ℝ
  | 0 => (u.cross v).x
  | 1 => (u.cross v).y
  | _ => (u.cross v).z

/-- `np.cross(o, a)` for `o` of shape `(3,)` and `a` of shape `(..., 3)`. -/
def crossLeft (o : V3 ℝ) (a : NArr ℝ) : NArr ℝ :=
  ⟨a.shape, fun i => crossComp o ⟨a.get (i.dropLast ++ [0]), a.get (i.dropLast ++ [1]), a.get (i.dropLast ++ [2])⟩ (i.getLastD 0)⟩

/-- `np.cross(a, o)` for `a` of shape `(..., 3)` and `o` of shape `(3,)`. -/
def crossRight (a : NArr ℝ) (o : V3 ℝ) : NArr ℝ :=
  ⟨a.shape, fun i => crossComp ⟨a.get (i.dropLast ++ [0]), a.get (i.dropLast ++ [1]), a.get (i.dropLast ++ [2])⟩ o (i.getLastD 0)⟩

end NArr

open NArr

namespace FdemArr

/-- The attributes of `BaseFDEM` with an array of frequencies: em/fdem/base.py:172-219. -/
structure Medium where
  frequency : NArr ℝ
  sigma : ℝ
  mu : ℝ
  epsilon : ℝ
  quasistatic : Flag

/-- The medium at one frequency. -/
def Medium.at (m : Medium) (f : ℝ) : Fdem.Medium := ⟨f, m.sigma, m.mu, m.epsilon, m.quasistatic⟩

/-- `BaseFDEM.omega`: em/fdem/base.py:236. -/
noncomputable def Medium.omega (m : Medium) : NArr ℝ := m.frequency.mapA Fdem.omega

/-- `BaseFDEM.wavenumber`: em/fdem/base.py:288-290 and 79-82. -/
noncomputable def Medium.wavenumber (m : Medium) : NArr ℂ :=
  m.frequency.mapA fun f => Fdem.wavenumber f m.sigma m.mu m.epsilon m.quasistatic

/-- Attributes of `ElectricDipoleWholeSpace`: em/base.py:139-224, 325-396. -/
structure ElectricDipole extends Medium where
  location : V3 ℝ
  orientation : V3 ℝ
  length : ℝ
  current : ℝ

/-- The dipole at one frequency. -/
def ElectricDipole.at (s : ElectricDipole) (f : ℝ) : Fdem.ElectricDipole := ⟨s.toMedium.at f, s.location, s.orientation, s.length, s.current⟩

/-- `vector_potential`: em/fdem/wholespace.py:98-106. -/
noncomputable def ElectricDipole.vectorPotential (s : ElectricDipole) (xyz : XyzArg ℝ) : Py (NArr ℂ) := do
  let xyz ← checkXyzDim xyz 3
  let rVec ← zipWith (· - ·) xyz (arr3 s.location)
  let r := normKeep rVec
  let k := appendNdim s.wavenumber r.ndim
  let ikr ← zipWith (fun (a : ℂ) (r : ℝ) => a * r) (k.mapA (-I * ·)) r
  let a ← zipWith (· * ·) (r.mapA fun r : ℝ => (s.current * s.length / (4 * Real.pi * r) : ℂ)) (ikr.mapA Complex.exp)
  zipWith (fun (a : ℂ) (c : ℝ) => a * c) a (arr3 s.orientation)

/-- `electric_field`: em/fdem/wholespace.py:190-207. -/
noncomputable def ElectricDipole.electricField (s : ElectricDipole) (xyz : XyzArg ℝ) : Py (NArr ℂ) := do
  let xyz ← checkXyzDim xyz 3
  let rVec ← zipWith (· - ·) xyz (arr3 s.location)
  let r := normKeep rVec
  let rHat ← zipWith (· / ·) rVec r
  let k := appendNdim s.wavenumber r.ndim
  let kr ← zipWith (fun (k : ℂ) (r : ℝ) => k * r) k r
  let ikr := kr.mapA (I * ·)
  let front ← zipWith (· * ·) (r.mapA fun r : ℝ => ((s.current * s.length) / (4 * Real.pi * s.sigma * r ^ 3) : ℂ))
    (ikr.mapA fun c => Complex.exp (-c))
  let p ← zipWith (· + ·) (kr.mapA fun c => -c ^ 2) (ikr.mapA (3 * ·))
  let sym ← zipWith (fun (d : ℝ) (p : ℂ) => d * p) (rHat.dotRight s.orientation).newLast (p.mapA (· + 3))
  let sym ← zipWith (fun (a : ℂ) (c : ℝ) => a * c) sym rHat
  let q ← zipWith (· - ·) (kr.mapA (· ^ 2)) ikr
  let ori ← zipWith (fun (a : ℂ) (c : ℝ) => a * c) (q.mapA (· - 1)) (arr3 s.orientation)
  let sum ← zipWith (· + ·) sym ori
  zipWith (· * ·) front sum

/-- `current_density`: em/fdem/wholespace.py:291. -/
noncomputable def ElectricDipole.currentDensity (s : ElectricDipole) (xyz : XyzArg ℝ) : Py (NArr ℂ) := do
  let e ← s.electricField xyz
  pure (e.mapA (s.sigma * ·))

/-- `magnetic_field`: em/fdem/wholespace.py:373-387. -/
noncomputable def ElectricDipole.magneticField (s : ElectricDipole) (xyz : XyzArg ℝ) : Py (NArr ℂ) := do
  let xyz ← checkXyzDim xyz 3
  let rVec ← zipWith (· - ·) xyz (arr3 s.location)
  let r := normKeep rVec
  let rHat ← zipWith (· / ·) rVec r
  let k := appendNdim s.wavenumber r.ndim
  let kr ← zipWith (fun (k : ℂ) (r : ℝ) => k * r) k r
  let ikr := kr.mapA (I * ·)
  let front ← zipWith (· * ·) (r.mapA fun r : ℝ => (s.current * s.length / (4 * Real.pi * r ^ 2) : ℂ)) (ikr.mapA (· + 1))
  let front ← zipWith (· * ·) front (ikr.mapA fun c => Complex.exp (-c))
  zipWith (fun (a : ℂ) (c : ℝ) => a * c) front (crossLeft s.orientation rHat)

/-- `magnetic_flux_density`: em/fdem/wholespace.py:470. -/
noncomputable def ElectricDipole.magneticFluxDensity (s : ElectricDipole) (xyz : XyzArg ℝ) : Py (NArr ℂ) := do
  let h ← s.magneticField xyz
  pure (h.mapA (s.mu * ·))

/-- Attributes of `MagneticDipoleWholeSpace`: em/base.py:139-224, 399-443. -/
structure MagneticDipole extends Medium where
  location : V3 ℝ
  orientation : V3 ℝ
  moment : ℝ

/-- The dipole at one frequency. -/
def MagneticDipole.at (s : MagneticDipole) (f : ℝ) : Fdem.MagneticDipole := ⟨s.toMedium.at f, s.location, s.orientation, s.moment⟩

/-- `vector_potential`: em/fdem/wholespace.py:551-559. -/
noncomputable def MagneticDipole.vectorPotential (s : MagneticDipole) (xyz : XyzArg ℝ) : Py (NArr ℂ) := do
  let xyz ← checkXyzDim xyz 3
  let rVec ← zipWith (· - ·) xyz (arr3 s.location)
  let r := normKeep rVec
  let k := appendNdim s.wavenumber r.ndim
  let w := appendNdim s.omega r.ndim
  let ikr ← zipWith (fun (a : ℂ) (r : ℝ) => a * r) (k.mapA (-I * ·)) r
  let f ← zipWith (· / ·) (w.mapA fun w : ℝ => (I * w * s.mu * s.moment : ℂ)) (r.mapA fun r : ℝ => (4 * Real.pi * r : ℂ))
  let f ← zipWith (· * ·) f (ikr.mapA Complex.exp)
  zipWith (fun (a : ℂ) (c : ℝ) => a * c) f (arr3 s.orientation)

/-- `electric_field`: em/fdem/wholespace.py:641-655. -/
noncomputable def MagneticDipole.electricField (s : MagneticDipole) (xyz : XyzArg ℝ) : Py (NArr ℂ) := do
  let xyz ← checkXyzDim xyz 3
  let rVec ← zipWith (· - ·) xyz (arr3 s.location)
  let r := normKeep rVec
  let rHat ← zipWith (· / ·) rVec r
  let k := appendNdim s.wavenumber r.ndim
  let w := appendNdim s.omega r.ndim
  let kr ← zipWith (fun (k : ℂ) (r : ℝ) => k * r) k r
  let ikr := kr.mapA (I * ·)
  let front ← zipWith (· / ·) (w.mapA fun w : ℝ => (I * w * s.mu * s.moment : ℂ)) (r.mapA fun r : ℝ => (4 * Real.pi * r ^ 2 : ℂ))
  let front ← zipWith (· * ·) front (ikr.mapA (· + 1))
  let front ← zipWith (· * ·) front (ikr.mapA fun c => Complex.exp (-c))
  zipWith (fun (a : ℂ) (c : ℝ) => a * c) front (crossRight rHat s.orientation)

/-- `current_density`: em/fdem/wholespace.py:738. -/
noncomputable def MagneticDipole.currentDensity (s : MagneticDipole) (xyz : XyzArg ℝ) : Py (NArr ℂ) := do
  let e ← s.electricField xyz
  pure (e.mapA (s.sigma * ·))

/-- `magnetic_field`: em/fdem/wholespace.py:822-837. -/
noncomputable def MagneticDipole.magneticField (s : MagneticDipole) (xyz : XyzArg ℝ) : Py (NArr ℂ) := do
  let xyz ← checkXyzDim xyz 3
  let rVec ← zipWith (· - ·) xyz (arr3 s.location)
  let r := normKeep rVec
  let rHat ← zipWith (· / ·) rVec r
  let k := appendNdim s.wavenumber r.ndim
  let kr ← zipWith (fun (k : ℂ) (r : ℝ) => k * r) k r
  let ikr := kr.mapA (I * ·)
  let front ← zipWith (· * ·) (r.mapA fun r : ℝ => (s.moment / (4 * Real.pi * r ^ 3) : ℂ)) (ikr.mapA fun c => Complex.exp (-c))
  let p ← zipWith (· + ·) (kr.mapA fun c => -c ^ 2) (ikr.mapA (3 * ·))
  let sym ← zipWith (fun (d : ℝ) (p : ℂ) => d * p) (rHat.dotRight s.orientation).newLast (p.mapA (· + 3))
  let sym ← zipWith (fun (a : ℂ) (c : ℝ) => a * c) sym rHat
  let q ← zipWith (· - ·) (kr.mapA (· ^ 2)) ikr
  let ori ← zipWith (fun (a : ℂ) (c : ℝ) => a * c) (q.mapA (· - 1)) (arr3 s.orientation)
  let sum ← zipWith (· + ·) sym ori
  zipWith (· * ·) front sum

/-- `magnetic_flux_density`: em/fdem/wholespace.py:921. -/
noncomputable def MagneticDipole.magneticFluxDensity (s : MagneticDipole) (xyz : XyzArg ℝ) : Py (NArr ℂ) := do
  let h ← s.magneticField xyz
  pure (h.mapA (s.mu * ·))

/-- Attributes of `HarmonicPlaneWave`: em/fdem/wholespace.py:939-1003. -/
structure PlaneWave extends Medium where
  amplitude : ℝ
  orientation : V3 ℝ

/-- The wave at one frequency. -/
def PlaneWave.at (s : PlaneWave) (f : ℝ) : Fdem.PlaneWave := ⟨s.toMedium.at f, s.amplitude, s.orientation⟩

/-- `electric_field`: em/fdem/wholespace.py:1072-1079. -/
noncomputable def PlaneWave.electricField (s : PlaneWave) (xyz : XyzArg ℝ) : Py (NArr ℂ) := do
  let xyz ← checkXyzDim xyz 3
  let z := thirdKeep xyz
  let k := appendNdim s.wavenumber xyz.ndim
  let ikz ← zipWith (fun (a : ℂ) (z : ℝ) => a * z) (k.mapA (I * ·)) z
  zipWith (· * ·) ((arr3 s.orientation).mapA fun c : ℝ => (s.amplitude * c : ℂ)) (ikz.mapA Complex.exp)

/-- `current_density`: em/fdem/wholespace.py:1140. -/
noncomputable def PlaneWave.currentDensity (s : PlaneWave) (xyz : XyzArg ℝ) : Py (NArr ℂ) := do
  let e ← s.electricField xyz
  pure (e.mapA (s.sigma * ·))

/-- `magnetic_flux_density`: em/fdem/wholespace.py:1270-1287. -/
noncomputable def PlaneWave.magneticFluxDensity (s : PlaneWave) (xyz : XyzArg ℝ) : Py (NArr ℂ) := do
  let xyz ← checkXyzDim xyz 3
  let z := thirdKeep xyz
  let k := appendNdim s.wavenumber xyz.ndim
  let w := appendNdim s.omega xyz.ndim
  let kz ← zipWith (fun (k : ℂ) (z : ℝ) => k * z) k z
  let ikz := kz.mapA (I * ·)
  let b ← zipWith (fun (a : ℂ) (w : ℝ) => a / w) (k.mapA (-(s.amplitude : ℂ) * ·)) w
  let b ← zipWith (· * ·) b (ikz.mapA Complex.exp)
  zipWith (fun (c : ℝ) (a : ℂ) => c * a) (arr3 (s.orientation.cross ⟨0, 0, -1⟩)) b

/-- `magnetic_field`: em/fdem/wholespace.py:1209. -/
noncomputable def PlaneWave.magneticField (s : PlaneWave) (xyz : XyzArg ℝ) : Py (NArr ℂ) := do
  let b ← s.magneticFluxDensity xyz
  pure (b.mapA (· / s.mu))

end FdemArr

namespace TdemArr

/-- The attributes of `BaseTDEM` with an array of times: em/tdem/base.py:132-178. -/
structure Medium where
  time : NArr ℝ
  sigma : ℝ
  mu : ℝ

/-- The medium at one time. -/
def Medium.at (m : Medium) (t : ℝ) : Tdem.Medium := ⟨t, m.sigma, m.mu⟩

/-- `BaseTDEM.theta`: em/tdem/base.py:259 and 129. -/
noncomputable def Medium.theta (m : Medium) : NArr ℝ := m.time.mapA fun t => Tdem.theta t m.sigma m.mu

/-- Attributes of `ElectricDipoleWholeSpace`: em/base.py:139-224, 325-396. -/
structure ElectricDipole extends Medium where
  location : V3 ℝ
  orientation : V3 ℝ
  length : ℝ
  current : ℝ

/-- The dipole at one time. -/
def ElectricDipole.at (s : ElectricDipole) (t : ℝ) : Tdem.ElectricDipole := ⟨s.toMedium.at t, s.location, s.orientation, s.length, s.current⟩

/-- `vector_potential`: em/tdem/wholespace.py:98-106. -/
noncomputable def ElectricDipole.vectorPotential (s : ElectricDipole) (xyz : XyzArg ℝ) : Py (NArr ℝ) := do
  let xyz ← checkXyzDim xyz 3
  let rVec ← zipWith (· - ·) xyz (arr3 s.location)
  let r := normKeep rVec
  let theta := appendNdim s.theta r.ndim
  let thetaR ← zipWith (· * ·) theta r
  let a ← zipWith (· * ·) (r.mapA fun r => s.current * s.length / (4 * Real.pi * r)) (thetaR.mapA erf)
  zipWith (· * ·) a (arr3 s.orientation)

/-- `electric_field`: em/tdem/wholespace.py:180-200. -/
noncomputable def ElectricDipole.electricField (s : ElectricDipole) (xyz : XyzArg ℝ) : Py (NArr ℝ) := do
  let xyz ← checkXyzDim xyz 3
  let rVec ← zipWith (· - ·) xyz (arr3 s.location)
  let r := normKeep rVec
  let rHat ← zipWith (· / ·) rVec r
  let theta := appendNdim s.theta r.ndim
  let thetaR ← zipWith (· * ·) theta r
  let rootPi := Real.sqrt Real.pi
  let front := r.mapA fun r => s.current * s.length / (4 * Real.pi * s.sigma * r ^ 3)
  let commonPart ← zipWith (· * ·) (thetaR.mapA (· / rootPi)) (thetaR.mapA fun t => Real.exp (-t ^ 2))
  let a ← zipWith (· * ·) (thetaR.mapA fun t => 4 * t ^ 2 + 6) commonPart
  let symTerm ← zipWith (· - ·) (thetaR.mapA fun t => 3 * erf t) a
  let symDirection ← zipWith (· * ·) (rHat.dotRight s.orientation).newLast rHat
  let b ← zipWith (· * ·) (thetaR.mapA fun t => 4 * t ^ 2 + 2) commonPart
  let orientTerm ← zipWith (· - ·) (thetaR.mapA erf) b
  let orientDir := arr3 s.orientation
  let u ← zipWith (· * ·) symTerm symDirection
  let v ← zipWith (· * ·) orientTerm orientDir
  let w ← zipWith (· - ·) u v
  zipWith (· * ·) front w

/-- `current_density`: em/tdem/wholespace.py:274. -/
noncomputable def ElectricDipole.currentDensity (s : ElectricDipole) (xyz : XyzArg ℝ) : Py (NArr ℝ) := do
  let e ← s.electricField xyz
  pure (e.mapA (s.sigma * ·))

/-- `magnetic_field`: em/tdem/wholespace.py:347-361. -/
noncomputable def ElectricDipole.magneticField (s : ElectricDipole) (xyz : XyzArg ℝ) : Py (NArr ℝ) := do
  let xyz ← checkXyzDim xyz 3
  let rVec ← zipWith (· - ·) xyz (arr3 s.location)
  let r := normKeep rVec
  let rHat ← zipWith (· / ·) rVec r
  let theta := appendNdim s.theta r.ndim
  let thetaR ← zipWith (· * ·) theta r
  let term1 := r.mapA fun r => (s.current * s.length) / (4 * Real.pi * r ^ 2)
  let a ← zipWith (· * ·) (thetaR.mapA (2 / Real.sqrt Real.pi * ·)) (thetaR.mapA fun t => Real.exp (-t ^ 2))
  let term2 ← zipWith (· - ·) (thetaR.mapA erf) a
  let t ← zipWith (· * ·) term1 term2
  zipWith (· * ·) t (crossLeft s.orientation rHat)

/-- `magnetic_field_time_deriv`: em/tdem/wholespace.py:434-449. -/
noncomputable def ElectricDipole.magneticFieldTimeDeriv (s : ElectricDipole) (xyz : XyzArg ℝ) : Py (NArr ℝ) := do
  let xyz ← checkXyzDim xyz 3
  let rVec ← zipWith (· - ·) xyz (arr3 s.location)
  let r := normKeep rVec
  let rHat ← zipWith (· / ·) rVec r
  let theta := appendNdim s.theta r.ndim
  let time := appendNdim s.time r.ndim
  let thetaR ← zipWith (· * ·) theta r
  let term1 := r.mapA fun r => (s.current * s.length) / (4 * Real.pi * r ^ 2)
  let a ← zipWith (· / ·) (thetaR.mapA fun t => -2 * t ^ 3) (time.mapA (Real.sqrt Real.pi * ·))
  let term2dt ← zipWith (· * ·) a (thetaR.mapA fun t => Real.exp (-t ^ 2))
  let t ← zipWith (· * ·) term1 term2dt
  zipWith (· * ·) t (crossLeft s.orientation rHat)

/-- `magnetic_flux_density`: em/tdem/wholespace.py:523. -/
noncomputable def ElectricDipole.magneticFluxDensity (s : ElectricDipole) (xyz : XyzArg ℝ) : Py (NArr ℝ) := do
  let h ← s.magneticField xyz
  pure (h.mapA (s.mu * ·))

/-- `magnetic_flux_density_time_deriv`: em/tdem/wholespace.py:597. -/
noncomputable def ElectricDipole.magneticFluxDensityTimeDeriv (s : ElectricDipole) (xyz : XyzArg ℝ) : Py (NArr ℝ) := do
  let h ← s.magneticFieldTimeDeriv xyz
  pure (h.mapA (s.mu * ·))

/-- Attributes of `TransientPlaneWave`: em/tdem/wholespace.py:616-680. -/
structure PlaneWave extends Medium where
  amplitude : ℝ
  orientation : V3 ℝ

/-- The wave at one time. -/
def PlaneWave.at (s : PlaneWave) (t : ℝ) : Tdem.PlaneWave := ⟨s.toMedium.at t, s.amplitude, s.orientation⟩

/-- `electric_field`: em/tdem/wholespace.py:733-745. -/
noncomputable def PlaneWave.electricField (s : PlaneWave) (xyz : XyzArg ℝ) : Py (NArr ℝ) := do
  let xyz ← checkXyzDim xyz 3
  let e0 := s.amplitude
  let z := thirdKeep xyz
  let t := appendNdim s.time xyz.ndim
  let a ← zipWith (· / ·) (z.mapA fun z => -(s.mu * s.sigma * z ^ 2)) (t.mapA (4 * ·))
  let bunja ← zipWith (· * ·) (z.mapA fun z => -e0 * (s.mu * s.sigma) ^ (0.5 : ℝ) * z) (a.mapA Real.exp)
  let bunmo := t.mapA fun t => 2 * Real.pi ^ (0.5 : ℝ) * t ^ (1.5 : ℝ)
  let q ← zipWith (· / ·) bunja bunmo
  zipWith (· * ·) (arr3 s.orientation) q

/-- `current_density`: em/tdem/wholespace.py:798. -/
noncomputable def PlaneWave.currentDensity (s : PlaneWave) (xyz : XyzArg ℝ) : Py (NArr ℝ) := do
  let e ← s.electricField xyz
  pure (e.mapA (s.sigma * ·))

/-- `magnetic_flux_density`: em/tdem/wholespace.py:904-921. -/
noncomputable def PlaneWave.magneticFluxDensity (s : PlaneWave) (xyz : XyzArg ℝ) : Py (NArr ℝ) := do
  let xyz ← checkXyzDim xyz 3
  let e0 := s.amplitude
  let z := thirdKeep xyz
  let t := appendNdim s.time xyz.ndim
  let a ← zipWith (· / ·) (z.mapA fun z => -s.mu * s.sigma * z ^ 2) (t.mapA (4 * ·))
  let bAmp ← zipWith (· * ·) (t.mapA fun t => -e0 * Real.sqrt (s.sigma * s.mu / (Real.pi * t))) (a.mapA Real.exp)
  zipWith (· * ·) (arr3 (s.orientation.cross ⟨0, 0, -1⟩)) bAmp

/-- `magnetic_field`: em/tdem/wholespace.py:851. -/
noncomputable def PlaneWave.magneticField (s : PlaneWave) (xyz : XyzArg ℝ) : Py (NArr ℝ) := do
  let b ← s.magneticFluxDensity xyz
  pure (b.mapA (· / s.mu))

end TdemArr

end Verif
