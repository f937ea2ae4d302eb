import Verif.Model.StaticWholeSpace

/-!
# Model of `geoana/em/static/halfspace.py` and of `PointCurrentWholeSpace`, at one observation point

Exact real arithmetic; attributes hold finite values and the sub-objects agree with them (the assignment histories,
where that agreement can break, are modelled in `Verif.Model.HalfspaceState`).
-/

namespace Verif.Static

/-- `PointCurrentWholeSpace(rho, current, location)`: wholespace.py:1097-1100 builds a line current with one node and
`sigma = 1/rho`; `mu` keeps its default and is not used by the electric methods. -/
noncomputable def pointCurrent (mu0 rho current : ℝ) (location : V3 ℝ) : LineCurrent :=
  ⟨mu0, 1 / rho, current, [location]⟩

/-- `PointCurrentWholeSpace.potential`: wholespace.py:1184. -/
noncomputable def pointPotential (s : LineCurrent) (xyz : V3 ℝ) : Py ℝ := s.scalarPotential xyz

/-- `PointCurrentWholeSpace.electric_field`: wholespace.py:1244. -/
noncomputable def pointElectricField (s : LineCurrent) (xyz : V3 ℝ) : Py (V3 ℝ) := s.electricField xyz

/-- `PointCurrentWholeSpace.current_density`: wholespace.py:1303. -/
noncomputable def pointCurrentDensity (s : LineCurrent) (xyz : V3 ℝ) : Py (V3 ℝ) := s.currentDensity xyz

/-- Attributes of `PointCurrentHalfSpace` (halfspace.py:29-125) with its two sub-objects. -/
structure PointHalf where
  rho : ℝ
  current : ℝ
  location : V3 ℝ
  primary : LineCurrent
  image : LineCurrent

/-- The mirror image `vec[-1] *= -1`: halfspace.py:123-124. -/
def mirror (v : V3 ℝ) : V3 ℝ := ⟨v.x, v.y, -v.z⟩

open Classical in
/-- The constructor: halfspace.py:29-40, with the checks of the setters 53-125 on finite values.  `1/rho` at line 1100 of
wholespace.py is reached first, so `rho = 0` raises `ZeroDivisionError`; a negative one is rejected by the
`sigma` setter. -/
noncomputable def PointHalf.new (mu0 rho current : ℝ) (location : V3 ℝ) : Py PointHalf :=
  if rho = 0 then .error .zeroDivisionError
  else if 1 / rho ≤ 0 then .error .valueError
  else if location.z > 0 then .error .valueError
  else .ok ⟨rho, current, location, pointCurrent mu0 rho current location,
    pointCurrent mu0 rho current (mirror location)⟩

open Classical in
/-- `potential`: halfspace.py:185-192. -/
noncomputable def PointHalf.potential (s : PointHalf) (xyz : V3 ℝ) : Py ℝ :=
  if xyz.z > 0 then .error .valueError
  else do
    let v ← pointPotential s.primary xyz
    let w ← pointPotential s.image xyz
    pure (v + w)

open Classical in
/-- `electric_field`: halfspace.py:253-260. -/
noncomputable def PointHalf.electricField (s : PointHalf) (xyz : V3 ℝ) : Py (V3 ℝ) :=
  if xyz.z > 0 then .error .valueError
  else do
    let v ← pointElectricField s.primary xyz
    let w ← pointElectricField s.image xyz
    pure (v + w)

/-- `current_density`: halfspace.py:320-321. -/
noncomputable def PointHalf.currentDensity (s : PointHalf) (xyz : V3 ℝ) : Py (V3 ℝ) := do
  let e ← s.electricField xyz
  pure (e.map (· / s.rho))

/-- Attributes of `DipoleHalfSpace` (halfspace.py:343-470) with its two sub-objects. -/
structure DipoleHalf where
  rho : ℝ
  current : ℝ
  locationA : V3 ℝ
  locationB : V3 ℝ
  a : PointHalf
  b : PointHalf

/-- The constructor with explicit locations: halfspace.py:343-357. -/
noncomputable def DipoleHalf.new (mu0 rho : ℝ) (locationA locationB : V3 ℝ) (current : ℝ) : Py DipoleHalf := do
  let a ← PointHalf.new mu0 rho current locationA
  let b ← PointHalf.new mu0 rho current locationB
  pure ⟨rho, current, locationA, locationB, a, b⟩

open Classical in
/-- `potential(xyz_m, xyz_n)`: halfspace.py:537-557. -/
noncomputable def DipoleHalf.potential (s : DipoleHalf) (m : V3 ℝ) (n : Option (V3 ℝ)) : Py ℝ :=
  if m.z > 0 then .error .valueError
  else
    match n with
    | none => do
      let va ← s.a.potential m
      let vb ← s.b.potential m
      pure (va - vb)
    | some n =>
      if n.z > 0 then .error .valueError
      else do
        let va ← s.a.potential m
        let vb ← s.b.potential m
        let vm := va - vb
        let wa ← s.a.potential n
        let wb ← s.b.potential n
        let vn := wa - wb
        pure (vm - vn)

open Classical in
/-- `electric_field(xyz_m, xyz_n)`: halfspace.py:643-663. -/
noncomputable def DipoleHalf.electricField (s : DipoleHalf) (m : V3 ℝ) (n : Option (V3 ℝ)) : Py (V3 ℝ) :=
  if m.z > 0 then .error .valueError
  else
    match n with
    | none => do
      let ea ← s.a.electricField m
      let eb ← s.b.electricField m
      pure (ea - eb)
    | some n =>
      if n.z > 0 then .error .valueError
      else do
        let ea ← s.a.electricField m
        let eb ← s.b.electricField m
        let em := ea - eb
        let fa ← s.a.electricField n
        let fb ← s.b.electricField n
        let en := fa - fb
        pure (em - en)

/-- `current_density(xyz_m, xyz_n)`: halfspace.py:748-749. -/
noncomputable def DipoleHalf.currentDensity (s : DipoleHalf) (m : V3 ℝ) (n : Option (V3 ℝ)) : Py (V3 ℝ) := do
  let e ← s.electricField m n
  pure (e.map (· / s.rho))

end Verif.Static
