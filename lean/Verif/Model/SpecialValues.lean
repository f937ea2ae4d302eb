import Verif.Py.FloatOps
import Verif.Model.Gravity
import Verif.Model.StaticSphere
import Verif.Model.StaticHalfspace

/-!
# Model of the static sources in floating point with infinities and NaN

The same lines as in the models over the reals, in numpy's arithmetic: dividing by zero gives an infinity or NaN and goes on.  Attributes
and observation points hold finite values; finite floats are exact reals.
-/

namespace Verif

open PyFloat

/-! ## `geoana/gravity.py` -/

namespace Gravity

/-- gravity.py:154-158. -/
noncomputable def PointMass.potentialF (s : PointMass) (xyz : V3 ℝ) : PyFloat :=
  let rVec := fl xyz - fl s.location
  let r := rVec.norm
  (fin G * fin s.mass) / r

/-- gravity.py:211-216. -/
noncomputable def PointMass.fieldF (s : PointMass) (xyz : V3 ℝ) : V3 PyFloat :=
  let rVec := fl xyz - fl s.location
  let r := rVec.norm
  let rHat := rVec.map (· / r)
  rHat.map (fun c => -fin G * fin s.mass * c / r ^ 2)

/-- gravity.py:273-280. -/
noncomputable def PointMass.gradientF (s : PointMass) (xyz : V3 ℝ) : M3 PyFloat :=
  let rVec := fl xyz - fl s.location
  let r := rVec.norm
  let rHat := rVec.map (· / r)
  let entry := fun (eye a b : PyFloat) => -fin G * fin s.mass * (eye - fin 3 * a * b) / r ^ 3
  ⟨⟨entry 1 rHat.x rHat.x, entry 0 rHat.x rHat.y, entry 0 rHat.x rHat.z⟩,
   ⟨entry 0 rHat.y rHat.x, entry 1 rHat.y rHat.y, entry 0 rHat.y rHat.z⟩,
   ⟨entry 0 rHat.z rHat.x, entry 0 rHat.z rHat.y, entry 1 rHat.z rHat.z⟩⟩

open Classical in
/-- gravity.py:421-428, one point. -/
noncomputable def Sphere.potentialF (s : Sphere) (xyz : V3 ℝ) : PyFloat :=
  let r := (fl xyz - fl s.location).norm
  if fin s.radius < r then s.toPointMass.potentialF xyz
  else fin G * fin 2 / fin 3 * fin Real.pi * fin s.rho * (fin 3 * fin s.radius ^ 2 - r ^ 2)

open Classical in
/-- gravity.py:487-494, one point. -/
noncomputable def Sphere.fieldF (s : Sphere) (xyz : V3 ℝ) : V3 PyFloat :=
  let rVec := fl xyz - fl s.location
  let r := rVec.norm
  if fin s.radius < r then s.toPointMass.fieldF xyz
  else rVec.map (fun c => -fin G * fin 4 / fin 3 * fin Real.pi * fin s.rho * c)

open Classical in
/-- gravity.py:558-567, one point. -/
noncomputable def Sphere.gradientF (s : Sphere) (xyz : V3 ℝ) : M3 PyFloat :=
  let r := (fl xyz - fl s.location).norm
  if r = fin s.radius then ⟨V3.nan, V3.nan, V3.nan⟩
  else if fin s.radius < r then s.toPointMass.gradientF xyz
  else
    let k := -fin G * fin 4 / fin 3 * fin Real.pi * fin s.rho
    ⟨⟨k * 1, k * 0, k * 0⟩, ⟨k * 0, k * 1, k * 0⟩, ⟨k * 0, k * 0, k * 1⟩⟩

end Gravity

/-! ## `geoana/em/static/sphere.py` -/

namespace Sphere

open Classical in
/-- The array `Vt` of `potential`: sphere.py:223-238. -/
noncomputable def Electro.potentialF (s : Electro) (xyz : V3 ℝ) : PyFloat :=
  let sig0 := fin s.sigmaBackground
  let sig1 := fin s.sigmaSphere
  let e0 := fl s.primaryField
  let sigCur := (sig1 - sig0) / (sig1 + fin 2 * sig0)
  let rVec := fl xyz - fl s.location
  let r := rVec.norm
  if fin s.radius < r then rVec.dot (-e0) * (1 - sigCur * fin s.radius ^ 3 / r ^ 3)
  else rVec.dot (-e0) * fin 3 * sig0 / (sig1 + fin 2 * sig0)

open Classical in
/-- The array `Et` of `electric_field`: sphere.py:325-341. -/
noncomputable def Electro.fieldF (s : Electro) (xyz : V3 ℝ) : V3 PyFloat :=
  let sig0 := fin s.sigmaBackground
  let sig1 := fin s.sigmaSphere
  let e0 := fl s.primaryField
  let sigCur := (sig1 - sig0) / (sig1 + fin 2 * sig0)
  let rVec := fl xyz - fl s.location
  let r := rVec.norm
  if fin s.radius < r then
    e0.map (fun c => c * (1 - sigCur * fin s.radius ^ 3 / r ^ 3)) +
      rVec.map (fun c => fin 3 * rVec.dot e0 * sigCur * fin s.radius * c / r ^ 4)
  else e0.map (fun c => fin 3 * sig0 / (sig1 + fin 2 * sig0) * c)

open Classical in
/-- `charge_density`: sphere.py:500-517. -/
noncomputable def Electro.chargeF (eps0 : ℝ) (s : Electro) (xyz : V3 ℝ) (dr : Option ℝ) : PyFloat :=
  let sig0 := fin s.sigmaBackground
  let sig1 := fin s.sigmaSphere
  let sigCur := (sig1 - sig0) / (sig1 + fin 2 * sig0)
  let e0 := fl s.primaryField
  let rVec := fl xyz - fl s.location
  let r := rVec.norm
  let dr := fin (dr.getD (0.05 * s.radius))
  if r < fin s.radius + fin 0.5 * dr ∧ fin s.radius - fin 0.5 * dr < r then
    fin eps0 * fin 3 * rVec.dot e0 * sigCur / r
  else 0

open Classical in
/-- The array `Vt` of `potential`: sphere.py:722-737. -/
noncomputable def Magneto.potentialF (s : Magneto) (xyz : V3 ℝ) : PyFloat :=
  let mu0 := fin s.muBackground
  let mu1 := fin s.muSphere
  let h0 := fl s.primaryField
  let muCur := (mu1 - mu0) / (mu1 + fin 2 * mu0)
  let rVec := fl xyz - fl s.location
  let r := rVec.norm
  if fin s.radius < r then rVec.dot (-h0) * (1 - muCur * fin s.radius ^ 3 / r ^ 3)
  else rVec.dot (-h0) * fin 3 * mu0 / (mu1 + fin 2 * mu0)

open Classical in
/-- The array `Ht` of `magnetic_field`: sphere.py:825-841. -/
noncomputable def Magneto.fieldF (s : Magneto) (xyz : V3 ℝ) : V3 PyFloat :=
  let mu0 := fin s.muBackground
  let mu1 := fin s.muSphere
  let h0 := fl s.primaryField
  let muCur := (mu1 - mu0) / (mu1 + fin 2 * mu0)
  let rVec := fl xyz - fl s.location
  let r := rVec.norm
  if fin s.radius < r then
    h0.map (fun c => c * (1 - muCur * fin s.radius ^ 3 / r ^ 3)) +
      rVec.map (fun c => fin 3 * rVec.dot h0 * muCur * fin s.radius * c / r ^ 4)
  else h0.map (fun c => fin 3 * mu0 / (mu1 + fin 2 * mu0) * c)

end Sphere

/-! ## `geoana/em/static/wholespace.py` and `geoana/em/static/halfspace.py` -/

namespace Static

/-- `MagneticDipoleWholeSpace.vector_potential`, Cartesian part: wholespace.py:112-116. -/
noncomputable def MagDipole.vectorPotentialF (s : MagDipole) (xyz : V3 ℝ) : V3 PyFloat :=
  let rVec := fl xyz - fl s.location
  let r := rVec.norm
  let rHat := rVec.map (· / r)
  ((fl s.orientation).cross rHat).map (fun c => fin s.moment * fin s.mu / (fin 4 * fin Real.pi * r ^ 2) * c)

/-- `MagneticDipoleWholeSpace.magnetic_flux_density`, Cartesian part: wholespace.py:209-215. -/
noncomputable def MagDipole.fluxF (s : MagDipole) (xyz : V3 ℝ) : V3 PyFloat :=
  let rVec := fl xyz - fl s.location
  let r := rVec.norm
  let rHat := rVec.map (· / r)
  let k := fin s.moment * fin s.mu / (fin 4 * fin Real.pi * r ^ 3)
  let d := rHat.dot (fl s.orientation)
  ⟨k * (fin 3 * d * rHat.x - fin s.orientation.x), k * (fin 3 * d * rHat.y - fin s.orientation.y),
    k * (fin 3 * d * rHat.z - fin s.orientation.z)⟩

/-- `MagneticPoleWholeSpace.magnetic_flux_density`, Cartesian part: wholespace.py:353-357. -/
noncomputable def MagDipole.poleF (s : MagDipole) (xyz : V3 ℝ) : V3 PyFloat :=
  let rVec := fl xyz - fl s.location
  let r := rVec.norm
  let rHat := rVec.map (· / r)
  rHat.map (fun c => fin s.moment * fin s.mu / (fin 4 * fin Real.pi * r ^ 2) * c)

open Classical in
/-- `LineCurrentWholeSpace.scalar_potential`: wholespace.py:844-856. -/
noncomputable def LineCurrent.scalarPotentialF (s : LineCurrent) (xyz : V3 ℝ) : Py PyFloat :=
  match s.nodes with
  | [] => .error .indexError
  | [n0] =>
    let r := (fl xyz - fl n0).norm
    .ok (fin s.current / (fin 4 * fin Real.pi * fin s.sigma * r))
  | n0 :: n1 :: rest =>
    let last := (n1 :: rest).getLast (by simp)
    if last = n0 then .ok 0
    else
      let rA := (fl xyz - fl last).norm
      let rB := (fl xyz - fl n0).norm
      .ok (fin s.current / (fin 4 * fin Real.pi * fin s.sigma) * (1 / rA - 1 / rB))

open Classical in
/-- `LineCurrentWholeSpace.electric_field`: wholespace.py:1044-1059. -/
noncomputable def LineCurrent.electricFieldF (s : LineCurrent) (xyz : V3 ℝ) : Py (V3 PyFloat) :=
  match s.nodes with
  | [] => .error .indexError
  | [n0] =>
    let rVec := fl xyz - fl n0
    let r := rVec.norm
    .ok (rVec.map (fun c => fin s.current / (fin 4 * fin Real.pi * fin s.sigma) * (c / r ^ 3)))
  | n0 :: n1 :: rest =>
    let last := (n1 :: rest).getLast (by simp)
    if last = n0 then .ok 0
    else
      let rVecA := fl xyz - fl last
      let rVecB := fl xyz - fl n0
      let rA := rVecA.norm
      let rB := rVecB.norm
      let k := fin s.current / (fin 4 * fin Real.pi * fin s.sigma)
      .ok ⟨k * (rVecA.x / rA ^ 3 - rVecB.x / rB ^ 3), k * (rVecA.y / rA ^ 3 - rVecB.y / rB ^ 3),
        k * (rVecA.z / rA ^ 3 - rVecB.z / rB ^ 3)⟩

open Classical in
/-- `PointCurrentHalfSpace.potential`: halfspace.py:185-192. -/
noncomputable def PointHalf.potentialF (s : PointHalf) (xyz : V3 ℝ) : Py PyFloat :=
  if xyz.z > 0 then .error .valueError
  else do
    let v ← s.primary.scalarPotentialF xyz
    let w ← s.image.scalarPotentialF xyz
    pure (v + w)

open Classical in
/-- `PointCurrentHalfSpace.electric_field`: halfspace.py:253-260. -/
noncomputable def PointHalf.electricFieldF (s : PointHalf) (xyz : V3 ℝ) : Py (V3 PyFloat) :=
  if xyz.z > 0 then .error .valueError
  else do
    let v ← s.primary.electricFieldF xyz
    let w ← s.image.electricFieldF xyz
    pure (v + w)

end Static

end Verif
