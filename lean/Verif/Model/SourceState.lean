import Verif.Model.HalfspaceState

/-!
# Model of the attributes of the spheres in a uniform field, of wires, and of the remaining simple sources

`ElectrostaticSphere` and `MagnetostaticSphere` (`em/static/sphere.py`) have the same setters under different names; one model
serves both.  `BaseLineCurrent` is in `em/base.py`.
-/

namespace Verif.SourceState

open Classical Verif.Setters Verif.HalfspaceState

variable [FloatGrammar]

/-! ## Spheres in a uniform field -/

/-- The attributes of `ElectrostaticSphere` (sphere.py:30-42; `inner` is `sigma_sphere`, `outer` is `sigma_background`) and of
`MagnetostaticSphere` (sphere.py:540-552; `mu_sphere`, `mu_background`). -/
structure Sphere where
  radius : PyFloat
  inner : PyFloat
  outer : PyFloat
  primaryField : NArr PyFloat
  location : NArr PyFloat

/-- The `radius` setter: sphere.py:92-97 and 602-606. What `float` raises is not caught. -/
noncomputable def Sphere.setRadius (s : Sphere) (v : Obj) : SetResult Sphere :=
  match v.toFloat with
  | .error e => (s, some e)
  | .ok x => if x < .fin 0 then (s, some .valueError) else ({ s with radius := x }, none)

/-- The `sigma_sphere` setter: sphere.py:55-60; `mu_sphere`: 566-570. -/
noncomputable def Sphere.setInner (s : Sphere) (v : Obj) : SetResult Sphere :=
  match v.toFloat with
  | .error e => (s, some e)
  | .ok x => if x ≤ .fin 0 then (s, some .valueError) else ({ s with inner := x }, none)

/-- The `sigma_background` setter: sphere.py:73-78; `mu_background`: 583-588. -/
noncomputable def Sphere.setOuter (s : Sphere) (v : Obj) : SetResult Sphere :=
  match v.toFloat with
  | .error e => (s, some e)
  | .ok x => if x ≤ .fin 0 then (s, some .valueError) else ({ s with outer := x }, none)

/-- `vec = np.atleast_1d(vec).astype(float)` and `len(vec) != 3`: sphere.py:111-121, 137-147, 622-632, 648-658. -/
noncomputable def threeLong (v : Obj) : Py (NArr PyFloat) :=
  match v.atleast1dFloat with
  | .error _ => .error .typeError
  | .ok a => if len a ≠ 3 then .error .valueError else .ok a

/-- The `primary_field` setter: sphere.py:110-121 and 620-632. -/
noncomputable def Sphere.setPrimaryField (s : Sphere) (v : Obj) : SetResult Sphere :=
  match threeLong v with
  | .error e => (s, some e)
  | .ok a => ({ s with primaryField := a }, none)

/-- The `location` setter: sphere.py:135-147 and 646-658. -/
noncomputable def Sphere.setLocation (s : Sphere) (v : Obj) : SetResult Sphere :=
  match threeLong v with
  | .error e => (s, some e)
  | .ok a => ({ s with location := a }, none)

/-- The state before anything was assigned; no getter can be called on it. -/
noncomputable def Sphere.blank : Sphere := ⟨.nan, .nan, .nan, row 0 0 0, row 0 0 0⟩

/-- The constructors: sphere.py:30-42 and 540-552. -/
noncomputable def Sphere.new (radius inner outer : Obj) (primaryField location : Obj := .none) : Py Sphere :=
  match ((((Sphere.blank.setRadius radius).andThen (·.setInner inner)).andThen (·.setOuter outer)).andThen
    (·.setPrimaryField (orRow primaryField (row 1 0 0)))).andThen (·.setLocation (orRow location (row 0 0 0))) with
  | (s, none) => .ok s
  | (_, some e) => .error e

/-- Assignments to a sphere. -/
inductive Sphere.Op where
  | radius (v : Obj)
  | inner (v : Obj)
  | outer (v : Obj)
  | primaryField (v : Obj)
  | location (v : Obj)

/-- One assignment. -/
noncomputable def Sphere.step (s : Sphere) : Sphere.Op → SetResult Sphere
  | .radius v => s.setRadius v
  | .inner v => s.setInner v
  | .outer v => s.setOuter v
  | .primaryField v => s.setPrimaryField v
  | .location v => s.setLocation v

/-! ## Wires -/

/-- `LineCurrentWholeSpace`: its nodes and current (`BaseLineCurrent`, em/base.py:446-521) and its electromagnetic properties. -/
structure Wire where
  nodes : NArr PyFloat
  current : PyFloat
  em : EM

/-- `np.atleast_2d` -/
def atleast2d (a : NArr PyFloat) : NArr PyFloat :=
  match a.shape with
  | [] => ⟨[1, 1], fun _ => a.get []⟩
  | [n] => ⟨[1, n], fun i => a.get i.tail⟩
  | _ => a

/-- The `nodes` setter: em/base.py:475-488. -/
noncomputable def Wire.setNodes (s : Wire) (v : Obj) : SetResult Wire :=
  match v.asFloatArray with
  | .error _ => (s, some .typeError)
  | .ok a =>
    let a := atleast2d a
    if a.shape.getD 1 0 ≠ 3 ∨ a.ndim ≠ 2 then (s, some .valueError)
    else ({ s with nodes := a }, none)

/-- The `current` setter: em/base.py:514-521. -/
noncomputable def Wire.setCurrent (s : Wire) (v : Obj) : SetResult Wire :=
  match floatOrTypeError v with
  | .error e => (s, some e)
  | .ok x => ({ s with current := x }, none)

/-- `n_segments`: em/base.py:500. -/
def Wire.nSegments (s : Wire) : ℤ := (s.nodes.shape.headD 0 : ℤ) - 1

/-- The constructor: em/base.py:456-460, then 36-41. -/
noncomputable def Wire.new (nodes current sigma mu epsilon : Obj) : Py Wire :=
  match ((⟨row 0 0 0, .nan, EM.blank⟩ : Wire).setNodes nodes).andThen (·.setCurrent current) with
  | (_, some e) => .error e
  | (s, none) =>
    match EM.new sigma mu epsilon with
    | .error e => .error e
    | .ok em => .ok { s with em := em }

/-- Assignments to a wire. -/
inductive Wire.Op where
  | nodes (v : Obj)
  | current (v : Obj)
  | em (o : EM.Op)

/-- One assignment. -/
noncomputable def Wire.step (s : Wire) : Wire.Op → SetResult Wire
  | .nodes v => s.setNodes v
  | .current v => s.setCurrent v
  | .em o => let r := s.em.step o; ({ s with em := r.1 }, r.2)

/-! ## Point mass and magnetised prism -/

/-- `gravity.PointMass`: gravity.py:44-100. -/
structure PointMass where
  mass : PyFloat
  location : Vec3

/-- Assignments to a point mass. -/
inductive PointMass.Op where
  | mass (v : Obj)
  | location (v : Obj)

/-- The setters: gravity.py:64-71 and 86-100. -/
noncomputable def PointMass.step (s : PointMass) : PointMass.Op → SetResult PointMass
  | .mass v =>
    match floatOrTypeError v with
    | .error e => (s, some e)
    | .ok x => ({ s with mass := x }, none)
  | .location v =>
    match vec3 v with
    | .error e => (s, some e)
    | .ok w => ({ s with location := w }, none)

/-- The constructor: gravity.py:44-50. -/
noncomputable def PointMass.new (mass : Obj := .num (.fin 1)) (location : Obj := .none) : Py PointMass :=
  match SetResult.andThen ((⟨.nan, ⟨.nan, .nan, .nan⟩⟩ : PointMass).step (.mass mass))
    (·.step (.location (orRow location (row 0 0 0)))) with
  | (s, none) => .ok s
  | (_, some e) => .error e

/-- `MagneticPrism`: its corners and magnetisation, em/static/freespace.py:38-63. -/
structure MagPrism where
  box : Prism
  magnetization : Vec3

/-- Assignments to a magnetised prism. -/
inductive MagPrism.Op where
  | box (o : Prism.Op)
  | magnetization (v : Obj)

/-- The setters: freespace.py:51-63 and shapes.py. -/
noncomputable def MagPrism.step (s : MagPrism) : MagPrism.Op → SetResult MagPrism
  | .box o => let r := s.box.step o; ({ s with box := r.1 }, r.2)
  | .magnetization v =>
    match vec3 v with
    | .error e => (s, some e)
    | .ok w => ({ s with magnetization := w }, none)

/-- The constructor, which assigns the magnetisation first: freespace.py:38-44. -/
noncomputable def MagPrism.new (min max : Obj) (magnetization : Obj := .none) : Py MagPrism :=
  match vec3 (orRow magnetization (row 0 0 1)) with
  | .error e => .error e
  | .ok w =>
    match Prism.new min max with
    | .error e => .error e
    | .ok box => .ok ⟨box, w⟩

end Verif.SourceState
