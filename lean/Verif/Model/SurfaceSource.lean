import Verif.Model.Setters
import Verif.Model.LayeredState

/-!
# Model of the attributes of the magnetic dipoles over a half-space: where they may stand

`BaseMagneticDipole` (em/base.py:399-443), `MagneticDipoleHalfSpace` (em/fdem/halfspace.py:11-22) and `MagneticDipoleLayeredHalfSpace`
(em/fdem/layered.py:45-54).  The fields computed from these attributes are in `Verif.Model.FdemHalfspace`.
-/

namespace Verif.SurfaceSource

open Classical Verif.Setters

variable [FloatGrammar]

/-- `BaseMagneticDipole`: em/base.py:399-443, 139-224. -/
structure MagDipole where
  moment : PyFloat
  location : Vec3
  orientation : Vec3

/-- The `moment` setter: em/base.py:436-443. -/
noncomputable def MagDipole.setMoment (s : MagDipole) (v : Obj) : SetResult MagDipole :=
  match floatOrTypeError v with
  | .error e => (s, some e)
  | .ok x => ({ s with moment := x }, none)

/-- The `location` setter: em/base.py:171-183. -/
noncomputable def MagDipole.setLocation (s : MagDipole) (v : Obj) : SetResult MagDipole :=
  match vec3 v with
  | .error e => (s, some e)
  | .ok w => ({ s with location := w }, none)

/-- The `orientation` setter: em/base.py:197-224. -/
noncomputable def MagDipole.setOrientation (s : MagDipole) (v : Obj) : SetResult MagDipole :=
  match dipoleOrientation v with
  | .error e => (s, some e)
  | .ok w => ({ s with orientation := w }, none)

/-- Assignments to a magnetic dipole. -/
inductive MagDipole.Op where
  | moment (v : Obj)
  | location (v : Obj)
  | orientation (v : Obj)

/-- One assignment. -/
noncomputable def MagDipole.step (s : MagDipole) : MagDipole.Op → SetResult MagDipole
  | .moment v => s.setMoment v
  | .location v => s.setLocation v
  | .orientation v => s.setOrientation v

/-- The constructors `BaseMagneticDipole` and `BaseDipole`: em/base.py:419-422, 153-157. -/
noncomputable def MagDipole.new (moment location orientation : Obj) : Py MagDipole :=
  let s : MagDipole := ⟨.nan, ⟨.nan, .nan, .nan⟩, ⟨.nan, .nan, .nan⟩⟩
  match ((s.setMoment moment).andThen (·.setLocation location)).andThen (·.setOrientation orientation) with
  | (s, none) => .ok s
  | (_, some e) => .error e

/-- `MagneticDipoleHalfSpace`: halfspace.py:11-22, em/fdem/base.py:172-219. -/
structure OnGround where
  frequency : NArr PyFloat
  quasistatic : Flag
  em : EM
  dipole : MagDipole

/-- `_check_is_valid_location`: halfspace.py:19-21 (`!=` holds for NaN). -/
noncomputable def onGround (l : Vec3) : Option PyErr :=
  if l.z ≠ .fin 0 then some .valueError else none

/-- The constructor: halfspace.py:15-17.  `BaseFDEM` comes first in the resolution order, then `BaseEM`, `BaseMagneticDipole` and
`BaseDipole`; the position is checked last. -/
noncomputable def OnGround.new (frequency : Obj) (quasistatic : Flag) (sigma mu epsilon moment location orientation : Obj) : Py OnGround :=
  match sampleArray frequency with
  | .error e => .error e
  | .ok f =>
    match EM.new sigma mu epsilon with
    | .error e => .error e
    | .ok em =>
      match MagDipole.new moment location orientation with
      | .error e => .error e
      | .ok d =>
        match onGround d.location with
        | some e => .error e
        | none => .ok ⟨f, quasistatic, em, d⟩

/-- Assignments. -/
inductive OnGround.Op where
  | frequency (v : Obj)
  | quasistatic (v : Flag)
  | em (o : EM.Op)
  | dipole (o : MagDipole.Op)

/-- One assignment.  The setters are the inherited ones: none of them looks at the height again. -/
noncomputable def OnGround.step (s : OnGround) : OnGround.Op → SetResult OnGround
  | .frequency v =>
    match sampleArray v with
    | .error e => (s, some e)
    | .ok f => ({ s with frequency := f }, none)
  | .quasistatic v => ({ s with quasistatic := v }, none)
  | .em o => let r := s.em.step o; ({ s with em := r.1 }, r.2)
  | .dipole o => let r := s.dipole.step o; ({ s with dipole := r.1 }, r.2)

/-- `MagneticDipoleLayeredHalfSpace`: layered.py:45-54. -/
structure AboveGround where
  layers : LayeredState.Layered
  dipole : MagDipole

/-- `_check_is_valid_location`: layered.py:51-53 (`<` does not hold for NaN). -/
noncomputable def aboveGround (l : Vec3) : Option PyErr :=
  if l.z < .fin 0 then some .valueError else none

/-- The constructor: layered.py:45-49. -/
noncomputable def AboveGround.new (mu0 eps0 : ℝ) (frequency thickness : Obj) (quasistatic : Flag) (sigma mu epsilon : LayeredState.CObj)
    (moment location orientation : Obj) : Py AboveGround :=
  match LayeredState.Layered.new mu0 eps0 frequency thickness quasistatic sigma mu epsilon with
  | .error e => .error e
  | .ok l =>
    match MagDipole.new moment location orientation with
    | .error e => .error e
    | .ok d =>
      match aboveGround d.location with
      | some e => .error e
      | none => .ok ⟨l, d⟩

/-- Assignments. -/
inductive AboveGround.Op where
  | layers (o : LayeredState.Op)
  | dipole (o : MagDipole.Op)

/-- One assignment. -/
noncomputable def AboveGround.step (mu0 eps0 : ℝ) (s : AboveGround) : AboveGround.Op → SetResult AboveGround
  | .layers o => let r := LayeredState.step mu0 eps0 s.layers o; ({ s with layers := r.1 }, r.2)
  | .dipole o => let r := s.dipole.step o; ({ s with dipole := r.1 }, r.2)

end Verif.SurfaceSource
