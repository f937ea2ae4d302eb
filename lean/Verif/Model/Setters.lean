import Verif.Py.Float
import Mathlib.Analysis.SpecialFunctions.Trigonometric.Basic

/-!
# Model of the validating properties: what assignments do to an object

Every setter is a function from the object and the assigned Python object to the object afterwards and the exception
raised, so that a setter which fails halfway leaves its partial effect visible.  Values are stored by value here; the
sharing of arrays with the caller is modelled in `Verif.Model.Aliasing`.
-/

namespace Verif.Setters

open Classical

variable [FloatGrammar]

/-- The three components of a stored `(3,)` array. -/
structure Vec3 where
  x : PyFloat
  y : PyFloat
  z : PyFloat

/-- `vec = np.squeeze(np.asarray(vec, dtype=float))` with the `(3,)` check, shared by the location setters:
em/base.py:171-183, gravity.py:87-100, shapes.py:57-70 and 84-97. A failed conversion is re-raised as `TypeError`. -/
noncomputable def vec3 (v : Obj) : Py Vec3 :=
  match v.asFloatArray with
  | .error _ => .error .typeError
  | .ok a =>
    let a := a.squeeze
    if a.shape ≠ [3] then .error .valueError
    else .ok ⟨a.get [0], a.get [1], a.get [2]⟩

/-- `value = float(value)` with any failure re-raised as `TypeError`: em/base.py:57-60 and the other setters of that file. -/
noncomputable def floatOrTypeError (v : Obj) : Py PyFloat :=
  match v.toFloat with
  | .error _ => .error .typeError
  | .ok x => .ok x

/-! ## `BaseEM` -/

/-- `BaseEM`: em/base.py:17-41. -/
structure EM where
  sigma : PyFloat
  mu : PyFloat
  epsilon : PyFloat

/-- The `sigma` setter: em/base.py:55-65. -/
noncomputable def EM.setSigma (s : EM) (v : Obj) : SetResult EM :=
  match floatOrTypeError v with
  | .error e => (s, some e)
  | .ok x => if x ≤ .fin 0 then (s, some .valueError) else ({ s with sigma := x }, none)

/-- The `rho` getter `1/self.sigma`: em/base.py:76. -/
noncomputable def EM.rho (s : EM) : Py PyFloat := PyFloat.pyDiv (.fin 1) s.sigma

/-- The `rho` setter `self.sigma = 1/value`: em/base.py:79-85. -/
noncomputable def EM.setRho (s : EM) (v : Obj) : SetResult EM :=
  match floatOrTypeError v with
  | .error e => (s, some e)
  | .ok x =>
    match PyFloat.pyDiv (.fin 1) x with
    | .error e => (s, some e)
    | .ok y => s.setSigma (.num y)

/-- The `mu` setter: em/base.py:99-109. -/
noncomputable def EM.setMu (s : EM) (v : Obj) : SetResult EM :=
  match floatOrTypeError v with
  | .error e => (s, some e)
  | .ok x => if x ≤ .fin 0 then (s, some .valueError) else ({ s with mu := x }, none)

/-- The `epsilon` setter: em/base.py:123-136. -/
noncomputable def EM.setEpsilon (s : EM) (v : Obj) : SetResult EM :=
  match floatOrTypeError v with
  | .error e => (s, some e)
  | .ok x => if x < .fin 0 then (s, some .valueError) else ({ s with epsilon := x }, none)

/-- The state of an object of which nothing has been assigned yet; no getter can be called on it. -/
noncomputable def EM.blank : EM := ⟨.nan, .nan, .nan⟩

/-- `BaseEM.__init__`: em/base.py:36-40. -/
noncomputable def EM.new (sigma mu epsilon : Obj) : Py EM :=
  let r : SetResult EM := ((EM.blank.setSigma sigma).andThen (·.setMu mu)).andThen (·.setEpsilon epsilon)
  match r with
  | (s, none) => .ok s
  | (_, some e) => .error e

/-- Assignments to the electromagnetic properties. -/
inductive EM.Op where
  | sigma (v : Obj)
  | rho (v : Obj)
  | mu (v : Obj)
  | epsilon (v : Obj)

/-- One assignment. -/
noncomputable def EM.step (s : EM) : EM.Op → SetResult EM
  | .sigma v => s.setSigma v
  | .rho v => s.setRho v
  | .mu v => s.setMu v
  | .epsilon v => s.setEpsilon v

/-! ## Dipoles and loops -/

/-- `x / |x|` as numpy computes it: `var /= np.linalg.norm(var)`, em/base.py:222. -/
noncomputable def Vec3.normalized (v : Vec3) : Vec3 :=
  let n := PyFloat.sqrt (v.x * v.x + v.y * v.y + v.z * v.z)
  ⟨PyFloat.npDiv v.x n, PyFloat.npDiv v.y n, PyFloat.npDiv v.z n⟩

/-- The value stored by the orientation setter of a dipole: em/base.py:197-224. -/
noncomputable def dipoleOrientation (v : Obj) : Py Vec3 :=
  match v with
  | .str s =>
    if s.toUpper = "X" then .ok ⟨.fin 1, .fin 0, .fin 0⟩
    else if s.toUpper = "Y" then .ok ⟨.fin 0, .fin 1, .fin 0⟩
    else if s.toUpper = "Z" then .ok ⟨.fin 0, .fin 0, .fin 1⟩
    else .error .valueError
  | v =>
    match vec3 v with
    | .error e => .error e
    | .ok w => .ok w.normalized

/-- `BaseElectricDipole` together with `BaseEM`, as combined by the whole-space electric dipoles:
em/base.py:346-396, 139-224. -/
structure ElectricDipole where
  em : EM
  length : PyFloat
  current : PyFloat
  location : Vec3
  orientation : Vec3

/-- The `length` setter: em/base.py:365-375. -/
noncomputable def ElectricDipole.setLength (s : ElectricDipole) (v : Obj) : SetResult ElectricDipole :=
  match floatOrTypeError v with
  | .error e => (s, some e)
  | .ok x => if x ≤ .fin 0 then (s, some .valueError) else ({ s with length := x }, none)

/-- The `current` setter: em/base.py:389-396. -/
noncomputable def ElectricDipole.setCurrent (s : ElectricDipole) (v : Obj) : SetResult ElectricDipole :=
  match floatOrTypeError v with
  | .error e => (s, some e)
  | .ok x => ({ s with current := x }, none)

/-- The `location` setter: em/base.py:171-183. -/
noncomputable def ElectricDipole.setLocation (s : ElectricDipole) (v : Obj) : SetResult ElectricDipole :=
  match vec3 v with
  | .error e => (s, some e)
  | .ok w => ({ s with location := w }, none)

/-- The `orientation` setter: em/base.py:197-224. -/
noncomputable def ElectricDipole.setOrientation (s : ElectricDipole) (v : Obj) : SetResult ElectricDipole :=
  match dipoleOrientation v with
  | .error e => (s, some e)
  | .ok w => ({ s with orientation := w }, none)

/-- Assignments to an electric dipole. -/
inductive ElectricDipole.Op where
  | em (o : EM.Op)
  | length (v : Obj)
  | current (v : Obj)
  | location (v : Obj)
  | orientation (v : Obj)

/-- One assignment. -/
noncomputable def ElectricDipole.step (s : ElectricDipole) : ElectricDipole.Op → SetResult ElectricDipole
  | .em o => let r := s.em.step o; ({ s with em := r.1 }, r.2)
  | .length v => s.setLength v
  | .current v => s.setCurrent v
  | .location v => s.setLocation v
  | .orientation v => s.setOrientation v

/-- The constructor chain of the whole-space electric dipoles: em/base.py:36-41, 346-351, 153-157 (the electromagnetic
properties first, then length and current, then location and orientation). -/
noncomputable def ElectricDipole.new (sigma mu epsilon length current location orientation : Obj) :
    Py ElectricDipole :=
  match EM.new sigma mu epsilon with
  | .error e => .error e
  | .ok em =>
    let s : ElectricDipole := ⟨em, .nan, .nan, ⟨.nan, .nan, .nan⟩, ⟨.nan, .nan, .nan⟩⟩
    match (((s.setLength length).andThen (·.setCurrent current)).andThen (·.setLocation location)).andThen
      (·.setOrientation orientation) with
    | (s, none) => .ok s
    | (_, some e) => .error e

/-- `CircularLoopWholeSpace`: wholespace.py:403-423. -/
structure Loop where
  em : EM
  current : PyFloat
  radius : PyFloat
  location : Vec3
  orientation : Vec3

/-- The `current` setter: wholespace.py:438-445. -/
noncomputable def Loop.setCurrent (s : Loop) (v : Obj) : SetResult Loop :=
  match floatOrTypeError v with
  | .error e => (s, some e)
  | .ok x => ({ s with current := x }, none)

/-- The `radius` setter: wholespace.py:460-470. -/
noncomputable def Loop.setRadius (s : Loop) (v : Obj) : SetResult Loop :=
  match floatOrTypeError v with
  | .error e => (s, some e)
  | .ok x => if x ≤ .fin 0 then (s, some .valueError) else ({ s with radius := x }, none)

/-- The `location` setter: em/base.py:171-183. -/
noncomputable def Loop.setLocation (s : Loop) (v : Obj) : SetResult Loop :=
  match vec3 v with
  | .error e => (s, some e)
  | .ok w => ({ s with location := w }, none)

/-- The `orientation` setter: em/base.py:197-224. -/
noncomputable def Loop.setOrientation (s : Loop) (v : Obj) : SetResult Loop :=
  match dipoleOrientation v with
  | .error e => (s, some e)
  | .ok w => ({ s with orientation := w }, none)

/-- Assignments to a loop. -/
inductive Loop.Op where
  | em (o : EM.Op)
  | current (v : Obj)
  | radius (v : Obj)
  | location (v : Obj)
  | orientation (v : Obj)

/-- One assignment. -/
noncomputable def Loop.step (s : Loop) : Loop.Op → SetResult Loop
  | .em o => let r := s.em.step o; ({ s with em := r.1 }, r.2)
  | .current v => s.setCurrent v
  | .radius v => s.setRadius v
  | .location v => s.setLocation v
  | .orientation v => s.setOrientation v

/-- The constructor: wholespace.py:419-423, then em/base.py:36-41, then 153-157. -/
noncomputable def Loop.new (radius current sigma mu epsilon location orientation : Obj) : Py Loop :=
  let s : Loop := ⟨EM.blank, .nan, .nan, ⟨.nan, .nan, .nan⟩, ⟨.nan, .nan, .nan⟩⟩
  match (s.setCurrent current).andThen (·.setRadius radius) with
  | (_, some e) => .error e
  | (s, none) =>
    match EM.new sigma mu epsilon with
    | .error e => .error e
    | .ok em =>
      match (({ s with em := em }).setLocation location).andThen (·.setOrientation orientation) with
      | (s, none) => .ok s
      | (_, some e) => .error e

/-! ## Frequency, time and plane waves -/

/-- The array stored by the frequency setter `BaseFDEM.frequency` (em/fdem/base.py:206-219) and, with the same body, by
`BaseTDEM.time` (em/tdem/base.py:164-178). -/
noncomputable def sampleArray (v : Obj) : Py (NArr PyFloat) :=
  match v.asFloatArray with
  | .error _ => .error .typeError
  | .ok a =>
    if ∃ i, InShape a.shape i ∧ a.get i < .fin 0 then .error .valueError
    else if a.ndim > 1 then .error .typeError
    else .ok a

/-- The value stored by the plane waves' orientation setter: an array, or a string that was not recognised and is kept
as it is.  em/fdem/wholespace.py:976-1003 and em/tdem/wholespace.py:653-680. -/
inductive PlaneOrientation where
  | vec (v : Vec3)
  | text (s : String)

/-- The plane waves' orientation setter: em/fdem/wholespace.py:976-1003 and em/tdem/wholespace.py:653-680. Note the missing
`else` for strings. -/
noncomputable def planeOrientation (v : Obj) : Py PlaneOrientation :=
  match v with
  | .str s =>
    if s.toUpper = "X" then .ok (.vec ⟨.fin 1, .fin 0, .fin 0⟩)
    else if s.toUpper = "Y" then .ok (.vec ⟨.fin 0, .fin 1, .fin 0⟩)
    else .ok (.text s)
  | v =>
    match vec3 v with
    | .error e => .error e
    | .ok w => if w.z ≠ .fin 0 then .error .valueError else .ok (.vec w.normalized)

/-- `HarmonicPlaneWave` and `TransientPlaneWave`: the sampled frequencies (times), amplitude, orientation and the
electromagnetic properties.  em/fdem/wholespace.py:924-945, em/tdem/wholespace.py:600-622. -/
structure PlaneWave where
  em : EM
  samples : NArr PyFloat
  amplitude : PyFloat
  orientation : PlaneOrientation

/-- Assignments to a plane wave. -/
inductive PlaneWave.Op where
  | em (o : EM.Op)
  | samples (v : Obj)
  | amplitude (v : Obj)
  | orientation (v : Obj)

/-- The setters: frequency/time (em/fdem/base.py:206-219, em/tdem/base.py:164-178), amplitude (em/fdem/wholespace.py:959-962,
whose `float(item)` is not wrapped, so its own exception escapes), orientation. -/
noncomputable def PlaneWave.step (s : PlaneWave) : PlaneWave.Op → SetResult PlaneWave
  | .em o => let r := s.em.step o; ({ s with em := r.1 }, r.2)
  | .samples v =>
    match sampleArray v with
    | .error e => (s, some e)
    | .ok a => ({ s with samples := a }, none)
  | .amplitude v =>
    match v.toFloat with
    | .error e => (s, some e)
    | .ok x => ({ s with amplitude := x }, none)
  | .orientation v =>
    match planeOrientation v with
    | .error e => (s, some e)
    | .ok o => ({ s with orientation := o }, none)

/-- The constructor chain: em/fdem/wholespace.py:939-945 (amplitude, orientation), em/fdem/base.py:188-192 (frequency), em/base.py:36-41. -/
noncomputable def PlaneWave.new (amplitude orientation samples sigma mu epsilon : Obj) : Py PlaneWave :=
  match amplitude.toFloat with
  | .error e => .error e
  | .ok amp =>
    match planeOrientation orientation with
    | .error e => .error e
    | .ok o =>
      match sampleArray samples with
      | .error e => .error e
      | .ok a =>
        match EM.new sigma mu epsilon with
        | .error e => .error e
        | .ok em => .ok ⟨em, a, amp, o⟩

/-! ## Gravity sphere -/

/-- The stored attributes of `gravity.Sphere`; `mass` is computed.  gravity.py:283-360. -/
structure Sphere where
  radius : PyFloat
  rho : PyFloat
  location : Vec3

/-- The `radius` setter, whose `float(item)` is not wrapped: gravity.py:318-322. -/
noncomputable def Sphere.setRadius (s : Sphere) (v : Obj) : SetResult Sphere :=
  match v.toFloat with
  | .error e => (s, some e)
  | .ok x => if x < .fin 0 then (s, some .valueError) else ({ s with radius := x }, none)

/-- The `rho` setter: gravity.py:336-338. -/
noncomputable def Sphere.setRho (s : Sphere) (v : Obj) : SetResult Sphere :=
  match v.toFloat with
  | .error e => (s, some e)
  | .ok x => ({ s with rho := x }, none)

/-- The `mass` getter: gravity.py:349. -/
noncomputable def Sphere.mass (s : Sphere) : PyFloat := .fin (4 / 3 * Real.pi) * s.radius ^ 3 * s.rho

/-- The `mass` setter: gravity.py:352-360. -/
noncomputable def Sphere.setMass (s : Sphere) (v : Obj) : SetResult Sphere :=
  match floatOrTypeError v with
  | .error e => (s, some e)
  | .ok m =>
    match PyFloat.pyDiv (m * .fin 3) (.fin (4 * Real.pi) * s.radius ^ 3) with
    | .error e => (s, some e)
    | .ok rho => ({ s with rho := rho }, none)

/-- The `location` setter: gravity.py:87-100. -/
noncomputable def Sphere.setLocation (s : Sphere) (v : Obj) : SetResult Sphere :=
  match vec3 v with
  | .error e => (s, some e)
  | .ok w => ({ s with location := w }, none)

/-- Assignments to a sphere. -/
inductive Sphere.Op where
  | radius (v : Obj)
  | rho (v : Obj)
  | mass (v : Obj)
  | location (v : Obj)

/-- One assignment. -/
noncomputable def Sphere.step (s : Sphere) : Sphere.Op → SetResult Sphere
  | .radius v => s.setRadius v
  | .rho v => s.setRho v
  | .mass v => s.setMass v
  | .location v => s.setLocation v

/-- The constructor: gravity.py:301-304 and 46-52. `PointMass.__init__` assigns `mass` (the keyword, by default `1.0`) through
the overriding setter before `rho` is known, then `location` (`None` means the origin), and `rho` comes last. -/
noncomputable def Sphere.new (radius rho : Obj) (location : Obj := .none) (mass : Obj := .num (.fin 1)) : Py Sphere :=
  let s : Sphere := ⟨.nan, .nan, ⟨.nan, .nan, .nan⟩⟩
  let r := ((s.setRadius radius).andThen (·.setMass mass)).andThen fun s =>
    match location with
    | .none => ({ s with location := ⟨.fin 0, .fin 0, .fin 0⟩ }, none)
    | v => s.setLocation v
  match r.andThen (·.setRho rho) with
  | (s, none) => .ok s
  | (_, some e) => .error e

/-! ## Prism -/

/-- `BasePrism`: shapes.py:38-97. -/
structure Prism where
  min : Vec3
  max : Vec3

/-- The `min_location` setter: shapes.py:57-70. -/
noncomputable def Prism.setMin (s : Prism) (v : Obj) : SetResult Prism :=
  match vec3 v with
  | .error e => (s, some e)
  | .ok w => ({ s with min := w }, none)

/-- The `max_location` setter: shapes.py:84-97. -/
noncomputable def Prism.setMax (s : Prism) (v : Obj) : SetResult Prism :=
  match vec3 v with
  | .error e => (s, some e)
  | .ok w => ({ s with max := w }, none)

/-- The constructor with its ordering check: shapes.py:38-43. -/
noncomputable def Prism.new (min max : Obj) : Py Prism :=
  let s : Prism := ⟨⟨.nan, .nan, .nan⟩, ⟨.nan, .nan, .nan⟩⟩
  match (s.setMin min).andThen (·.setMax max) with
  | (_, some e) => .error e
  | (s, none) =>
    if s.max.x ≤ s.min.x ∨ s.max.y ≤ s.min.y ∨ s.max.z ≤ s.min.z then .error .valueError else .ok s

/-- `volume`: shapes.py:107. -/
noncomputable def Prism.volume (s : Prism) : PyFloat :=
  (s.max.x - s.min.x) * (s.max.y - s.min.y) * (s.max.z - s.min.z)

/-- Assignments to a prism. -/
inductive Prism.Op where
  | min (v : Obj)
  | max (v : Obj)

/-- One assignment. -/
noncomputable def Prism.step (s : Prism) : Prism.Op → SetResult Prism
  | .min v => s.setMin v
  | .max v => s.setMax v

end Verif.Setters
