import Verif.Model.Spatial
import Verif.Spec.Elliptic

/-!
# Model of `CircularLoopWholeSpace` (`geoana/em/static/wholespace.py:403-832`) at one observation point

Exact real arithmetic; attributes hold finite values.  `scipy.special.ellipk` and `ellipe` are the complete elliptic integrals
of `Verif.Spec.Elliptic`; `ellipk(1)` is infinite.  `none` stands for a row that is not finite: numpy divides by zero
somewhere, and the infinity or NaN then spreads over the row when the vector is rotated back.
-/

namespace Verif.Static

open Spatial

/-- Attributes of `CircularLoopWholeSpace` (em/base.py:17-136, 139-224; wholespace.py:409-470). -/
structure Loop where
  mu : ℝ
  current : ℝ
  radius : ℝ
  location : V3 ℝ
  orientation : V3 ℝ

/-- `small_rho`, wholespace.py:602, 734.  With `a = z = 0` the quotient is infinite or NaN, and the comparison is false. -/
def smallRho (a rho z : ℝ) : Prop := a ^ 2 + z ^ 2 ≠ 0 ∧ rho ^ 2 / (a ^ 2 + z ^ 2) < 1e-6

open Classical in
/-- `A_cyl[:, 1]` of `vector_potential`: wholespace.py:584-624.  The divisions that can be by zero are by `beta_sq` (loop of
radius zero at the point itself), by `a² - 4z²` (line 609) and, through `ellipk(1)`, on the wire. -/
noncomputable def Loop.potentialPhi (s : Loop) (rho z : ℝ) : Option ℝ :=
  let a := s.radius
  let C := s.mu * s.current / Real.pi
  let alphaSq := (a - rho) ^ 2 + z ^ 2
  let betaSq := (a + rho) ^ 2 + z ^ 2
  let beta := Real.sqrt betaSq
  let kSq := 1 - alphaSq / betaSq
  let ek := ellipE kSq
  let kk := ellipK kSq
  if smallRho a rho z then
    if a ^ 2 - 4 * z ^ 2 = 0 then none
    else
      let temp := Real.sqrt (a ^ 2 + z ^ 2)
      some (Real.pi * C * (rho * a ^ 2 / (4 * temp ^ 3) +
        rho ^ 3 * 3 * a ^ 2 / (a ^ 2 - 4 * z ^ 2) / (32 * Real.sqrt (a ^ 2 + z ^ 2) ^ 7)))
  else if betaSq = 0 ∨ alphaSq = 0 then none
  else some (C / (2 * rho * beta) * ((a ^ 2 + rho ^ 2 + z ^ 2) * kk - betaSq * ek))

open Classical in
/-- `B_cyl[:, 0]` and `B_cyl[:, 2]` of `magnetic_flux_density`: wholespace.py:718-757. -/
noncomputable def Loop.fluxRhoZ (s : Loop) (rho z : ℝ) : Option (ℝ × ℝ) :=
  let a := s.radius
  let C := s.mu * s.current / Real.pi
  let alphaSq := (a - rho) ^ 2 + z ^ 2
  let betaSq := (a + rho) ^ 2 + z ^ 2
  let beta := Real.sqrt betaSq
  let kSq := 1 - alphaSq / betaSq
  let ek := ellipE kSq
  let kk := ellipK kSq
  if betaSq = 0 ∨ alphaSq = 0 then none
  else
    let bz := C / (2 * alphaSq * beta) * ((a ^ 2 - rho ^ 2 - z ^ 2) * ek + alphaSq * kk)
    if smallRho a rho z then
      let temp := Real.sqrt (a ^ 2 + z ^ 2)
      some (3 * C * Real.pi * a ^ 2 * z *
        (rho / (4 * temp ^ 5) + rho ^ 3 * (15 * a ^ 2 - 20 * z ^ 2) / (32 * temp ^ 9)), bz)
    else
      some (C * z / (2 * alphaSq * beta * rho) * ((a ^ 2 + rho ^ 2 + z ^ 2) * ek - alphaSq * kk), bz)

/-- The change of frame around both computations: wholespace.py:576-582, 626-629 and 711-717, 759-761.  `f` gives the
cylindrical components at `(rho, z)` in the frame of the loop. -/
noncomputable def Loop.inFrame (s : Loop) (f : ℝ → ℝ → Option (V3 ℝ)) (xyz : V3 ℝ) : Py (Option (V3 ℝ)) := do
  let rot ← rotationMatrixFromNormals (arr3 s.orientation) (arr3 ⟨0, 0, 1⟩) defaultTol
  let rVec := rot.mulVec (xyz - s.location)
  let rCyl := cartToCyl rVec
  pure ((f rCyl.x rCyl.z).map fun v => rot.transpose.mulVec (cylToCartVec rCyl v))

/-- `vector_potential(xyz)` in Cartesian coordinates. -/
noncomputable def Loop.vectorPotential (s : Loop) : V3 ℝ → Py (Option (V3 ℝ)) :=
  s.inFrame fun rho z => (s.potentialPhi rho z).map fun a => ⟨0, a, 0⟩

/-- `magnetic_flux_density(xyz)` in Cartesian coordinates. -/
noncomputable def Loop.magneticFluxDensity (s : Loop) : V3 ℝ → Py (Option (V3 ℝ)) :=
  s.inFrame fun rho z => (s.fluxRhoZ rho z).map fun b => ⟨b.1, 0, b.2⟩

/-- `vector_potential(xyz, coordinates)`: wholespace.py:563-574, 631-634 around the above. -/
noncomputable def Loop.vectorPotentialIn (s : Loop) (coordinates : String) (xyz : V3 ℝ) : Py (Option (V3 ℝ)) := do
  if ¬ (coordinates.toLower = "cartesian" ∨ coordinates.toLower = "cylindrical") then
    .error .assertionError
  else
    let xyz := if coordinates.toLower = "cylindrical" then cylToCart xyz else xyz
    let a ← s.vectorPotential xyz
    pure (if coordinates.toLower = "cylindrical" then a.map (cartToCylVec xyz) else a)

/-- `magnetic_flux_density(xyz, coordinates)`: wholespace.py:700-709, 763-766 around the above. -/
noncomputable def Loop.magneticFluxDensityIn (s : Loop) (coordinates : String) (xyz : V3 ℝ) : Py (Option (V3 ℝ)) := do
  if ¬ (coordinates.toLower = "cartesian" ∨ coordinates.toLower = "cylindrical") then
    .error .typeError
  else
    let xyz := if coordinates.toLower = "cylindrical" then cylToCart xyz else xyz
    let b ← s.magneticFluxDensity xyz
    pure (if coordinates.toLower = "cylindrical" then b.map (cartToCylVec xyz) else b)

/-- `magnetic_field(xyz, coordinates)`: wholespace.py:832 (`mu` is positive). -/
noncomputable def Loop.magneticFieldIn (s : Loop) (coordinates : String) (xyz : V3 ℝ) : Py (Option (V3 ℝ)) := do
  let b ← s.magneticFluxDensityIn coordinates xyz
  pure (b.map fun v => v.map (· / s.mu))

end Verif.Static
