import Verif.Model.Setters

/-!
# Model of the attributes of the halfspace current sources and of the sub-objects they keep in step

`geoana/em/static/halfspace.py` with the attribute part of `PointCurrentWholeSpace` (`em/static/wholespace.py`) and
`BaseLineCurrent`, `BaseEM` (`em/base.py`). The fields computed from these attributes are in `Verif.Model.StaticHalfspace`.
-/

namespace Verif.HalfspaceState

open Classical Verif.Setters

variable [FloatGrammar]

/-- The attributes of `PointCurrentWholeSpace`: electromagnetic properties, current, and the single node. -/
structure Source where
  em : EM
  current : PyFloat
  node : Vec3

/-- The `current` setter: em/base.py:514-521. -/
noncomputable def Source.setCurrent (s : Source) (v : Obj) : SetResult Source :=
  match floatOrTypeError v with
  | .error e => (s, some e)
  | .ok x => ({ s with current := x }, none)

/-- The `rho` setter inherited from `BaseEM`: em/base.py:79-85. -/
noncomputable def Source.setRho (s : Source) (v : Obj) : SetResult Source :=
  let r := s.em.setRho v
  ({ s with em := r.1 }, r.2)

/-- `len(vec)` of an array with at least one axis. -/
def len (a : NArr PyFloat) : ℕ := a.shape.headD 0

/-- The `location` setter: wholespace.py:1114-1125. `self.nodes[0] = vec` can only broadcast an array of length three into the
node if that array has a single axis. -/
noncomputable def Source.setLocation (s : Source) (v : Obj) : SetResult Source :=
  match v.atleast1dFloat with
  | .error _ => (s, some .typeError)
  | .ok a =>
    if len a ≠ 3 then (s, some .valueError)
    else if a.shape ≠ [3] then (s, some .valueError)
    else ({ s with node := ⟨a.get [0], a.get [1], a.get [2]⟩ }, none)

/-- `1/rho` for whatever object was passed as `rho`: numbers divide as Python floats, arrays elementwise, anything else
raises `TypeError`. wholespace.py:1100. -/
noncomputable def invObj : Obj → Py Obj
  | .num x =>
    match PyFloat.pyDiv (.fin 1) x with
    | .error e => .error e
    | .ok y => .ok (.num y)
  | .ndarray a => .ok (.ndarray ⟨a.shape, fun i => PyFloat.npDiv (.fin 1) (a.get i)⟩)
  | _ => .error .typeError

/-- The constructor with the default location and unit current, the only way halfspace.py calls it: wholespace.py:1097-1100,
em/base.py:456-460 and 36-41. `mu0` and `eps0` are the defaults of `mu` and `epsilon`. -/
noncomputable def Source.new (mu0 eps0 : ℝ) (rho : Obj) : Py Source :=
  match invObj rho with
  | .error e => .error e
  | .ok sigma =>
    match EM.new sigma (.num (.fin mu0)) (.num (.fin eps0)) with
    | .error e => .error e
    | .ok em => .ok ⟨em, .fin 1, ⟨.fin 0, .fin 0, .fin 0⟩⟩

/-- The attributes of `PointCurrentHalfSpace`: halfspace.py:29-125. -/
structure Point where
  current : PyFloat
  rho : PyFloat
  location : NArr PyFloat
  primary : Source
  image : Source

/-- The `current` setter: halfspace.py:54-63. -/
noncomputable def Point.setCurrent (s : Point) (v : Obj) : SetResult Point :=
  match floatOrTypeError v with
  | .error e => (s, some e)
  | .ok x =>
    let s := { s with current := x }
    let r := s.primary.setCurrent (.num x)
    SetResult.andThen ({ s with primary := r.1 }, r.2) fun s =>
      let r := s.image.setCurrent (.num x)
      ({ s with image := r.1 }, r.2)

/-- The `rho` setter: halfspace.py:77-89. `_rho` is stored before the sub-objects are updated. -/
noncomputable def Point.setRho (s : Point) (v : Obj) : SetResult Point :=
  match floatOrTypeError v with
  | .error e => (s, some e)
  | .ok x =>
    if x ≤ .fin 0 then (s, some .valueError)
    else
      let s := { s with rho := x }
      let r := s.primary.setRho (.num x)
      SetResult.andThen ({ s with primary := r.1 }, r.2) fun s =>
        let r := s.image.setRho (.num x)
        ({ s with image := r.1 }, r.2)

/-- The checks shared by the location setters of halfspace.py (103-118, 420-435, 452-467): conversion, length, and
`np.any(vec[..., -1] > 0)`, which is an `IndexError` if the last axis is empty. -/
noncomputable def checkLocation (v : Obj) : Py (NArr PyFloat) :=
  match v.atleast1dFloat with
  | .error _ => .error .typeError
  | .ok a =>
    if len a ≠ 3 then .error .valueError
    else if a.shape.getLastD 0 = 0 then .error .indexError
    else if ∃ i, InShape a.shape.dropLast i ∧ a.get (i ++ [a.shape.getLastD 0 - 1]) > .fin 0 then .error .valueError
    else .ok a

/-- The array with its last entry negated, `vec[-1] *= -1`: halfspace.py:123-124. -/
noncomputable def flipLast (a : NArr PyFloat) : NArr PyFloat :=
  ⟨a.shape, fun i => if i.headD 0 = len a - 1 then -a.get i else a.get i⟩

/-- The `location` setter: halfspace.py:103-125. -/
noncomputable def Point.setLocation (s : Point) (v : Obj) : SetResult Point :=
  match checkLocation v with
  | .error e => (s, some e)
  | .ok a =>
    let s := { s with location := a }
    let r := s.primary.setLocation (.ndarray a)
    SetResult.andThen ({ s with primary := r.1 }, r.2) fun s =>
      let r := s.image.setLocation (.ndarray (flipLast a))
      ({ s with image := r.1 }, r.2)

/-- `np.r_[x, y, z]` -/
noncomputable def row (x y z : ℝ) : NArr PyFloat := .ofList [.fin x, .fin y, .fin z] .nan

/-- A location argument with its default: halfspace.py:38-39, 352-356. -/
noncomputable def orRow (v : Obj) (d : NArr PyFloat) : Obj :=
  match v with
  | .none => .ndarray d
  | v => v

/-- The constructor: halfspace.py:29-40. -/
noncomputable def Point.new (mu0 eps0 : ℝ) (rho current location : Obj) : Py Point :=
  match Source.new mu0 eps0 rho, Source.new mu0 eps0 rho with
  | .error e, _ => .error e
  | _, .error e => .error e
  | .ok p, .ok i =>
    let s : Point := ⟨.nan, .nan, row 0 0 0, p, i⟩
    match ((s.setCurrent current).andThen (·.setRho rho)).andThen (·.setLocation (orRow location (row 0 0 0))) with
    | (s, none) => .ok s
    | (_, some e) => .error e

/-- Assignments to a point source. -/
inductive Point.Op where
  | current (v : Obj)
  | rho (v : Obj)
  | location (v : Obj)

/-- One assignment. -/
noncomputable def Point.step (s : Point) : Point.Op → SetResult Point
  | .current v => s.setCurrent v
  | .rho v => s.setRho v
  | .location v => s.setLocation v

/-- The attributes of `DipoleHalfSpace`: halfspace.py:343-470. -/
structure Dipole where
  current : PyFloat
  rho : PyFloat
  locationA : NArr PyFloat
  locationB : NArr PyFloat
  a : Point
  b : Point

/-- The `current` setter: halfspace.py:371-380. -/
noncomputable def Dipole.setCurrent (s : Dipole) (v : Obj) : SetResult Dipole :=
  match floatOrTypeError v with
  | .error e => (s, some e)
  | .ok x =>
    let s := { s with current := x }
    let r := s.a.setCurrent (.num x)
    SetResult.andThen ({ s with a := r.1 }, r.2) fun s =>
      let r := s.b.setCurrent (.num x)
      ({ s with b := r.1 }, r.2)

/-- The `rho` setter: halfspace.py:394-406. -/
noncomputable def Dipole.setRho (s : Dipole) (v : Obj) : SetResult Dipole :=
  match floatOrTypeError v with
  | .error e => (s, some e)
  | .ok x =>
    if x ≤ .fin 0 then (s, some .valueError)
    else
      let s := { s with rho := x }
      let r := s.a.setRho (.num x)
      SetResult.andThen ({ s with a := r.1 }, r.2) fun s =>
        let r := s.b.setRho (.num x)
        ({ s with b := r.1 }, r.2)

/-- The `location_a` setter: halfspace.py:420-438. -/
noncomputable def Dipole.setLocationA (s : Dipole) (v : Obj) : SetResult Dipole :=
  match checkLocation v with
  | .error e => (s, some e)
  | .ok a =>
    let s := { s with locationA := a }
    let r := s.a.setLocation (.ndarray a)
    ({ s with a := r.1 }, r.2)

/-- The `location_b` setter: halfspace.py:452-470. -/
noncomputable def Dipole.setLocationB (s : Dipole) (v : Obj) : SetResult Dipole :=
  match checkLocation v with
  | .error e => (s, some e)
  | .ok a =>
    let s := { s with locationB := a }
    let r := s.b.setLocation (.ndarray a)
    ({ s with b := r.1 }, r.2)

/-- The constructor: halfspace.py:343-357. -/
noncomputable def Dipole.new (mu0 eps0 : ℝ) (rho locationA locationB current : Obj) : Py Dipole :=
  match Point.new mu0 eps0 rho (.num (.fin 1)) locationA, Point.new mu0 eps0 rho (.num (.fin 1)) locationB with
  | .error e, _ => .error e
  | _, .error e => .error e
  | .ok a, .ok b =>
    let s : Dipole := ⟨.nan, .nan, row 0 0 0, row 0 0 0, a, b⟩
    match (((s.setCurrent current).andThen (·.setRho rho)).andThen
      (·.setLocationA (orRow locationA (row (-1) 0 0)))).andThen (·.setLocationB (orRow locationB (row 1 0 0))) with
    | (s, none) => .ok s
    | (_, some e) => .error e

/-- Assignments to a dipole source. -/
inductive Dipole.Op where
  | current (v : Obj)
  | rho (v : Obj)
  | locationA (v : Obj)
  | locationB (v : Obj)

/-- One assignment. -/
noncomputable def Dipole.step (s : Dipole) : Dipole.Op → SetResult Dipole
  | .current v => s.setCurrent v
  | .rho v => s.setRho v
  | .locationA v => s.setLocationA v
  | .locationB v => s.setLocationB v

end Verif.HalfspaceState
