import Verif.Spec.Vec
import Mathlib.Analysis.SpecialFunctions.Trigonometric.Basic

/-!
# Model of `geoana/gravity.py`: `PointMass` and `Sphere`, evaluated at one observation point

Numbers are exact reals; one row of the `(..., 3)` argument is one `V3 ℝ`.  The boolean-mask
gather/scatter used to evaluate many rows at once is modelled in `Verif.Model.Masks`.
-/

namespace Verif.Gravity

open V3

/-- `scipy.constants.G` (imported at gravity.py:21); CODATA 2018 value. -/
noncomputable def G : ℝ := 6.67430e-11

/-- The attributes of a `PointMass` (gravity.py:32-100): `_mass` and `_location`. -/
structure PointMass where
  mass : ℝ
  location : V3 ℝ

/-- gravity.py:154-158. -/
noncomputable def PointMass.gravitationalPotential (s : PointMass) (xyz : V3 ℝ) : ℝ :=
  let rVec := xyz - s.location
  let r := rVec.len
  (G * s.mass) / r

/-- gravity.py:211-216. -/
noncomputable def PointMass.gravitationalField (s : PointMass) (xyz : V3 ℝ) : V3 ℝ :=
  let rVec := xyz - s.location
  let r := rVec.len
  let rHat := rVec.map (· / r)
  rHat.map (fun c => -G * s.mass * c / r ^ 2)

/-- gravity.py:273-280.  `rHat[..., None] * rHat[..., None, :]` has row index first: entry
`(i, j)` is `rHat[i] * rHat[j]`. -/
noncomputable def PointMass.gravitationalGradient (s : PointMass) (xyz : V3 ℝ) : M3 ℝ :=
  let rVec := xyz - s.location
  let r := rVec.len
  let rHat := rVec.map (· / r)
  let entry := fun (eye a b : ℝ) => -G * s.mass * (eye - 3 * a * b) / r ^ 3
  ⟨⟨entry 1 rHat.x rHat.x, entry 0 rHat.x rHat.y, entry 0 rHat.x rHat.z⟩,
   ⟨entry 0 rHat.y rHat.x, entry 1 rHat.y rHat.y, entry 0 rHat.y rHat.z⟩,
   ⟨entry 0 rHat.z rHat.x, entry 0 rHat.z rHat.y, entry 1 rHat.z rHat.z⟩⟩

/-- The attributes of a `Sphere` (gravity.py:283-360) holding finite values: `_radius`, `_rho`,
`_location`. -/
structure Sphere where
  radius : ℝ
  rho : ℝ
  location : V3 ℝ

/-- The `mass` property, gravity.py:349. -/
noncomputable def Sphere.mass (s : Sphere) : ℝ := 4 / 3 * Real.pi * s.radius ^ 3 * s.rho

/-- The view of a `Sphere` used by `super().gravitational_*` calls (gravity.py:426, 492, 564): the
inherited methods read `self.mass` (the property) and `self.location`. -/
noncomputable def Sphere.toPointMass (s : Sphere) : PointMass := ⟨s.mass, s.location⟩

open Classical in
/-- gravity.py:421-428, one point: `ind0 = r > radius`. -/
noncomputable def Sphere.gravitationalPotential (s : Sphere) (xyz : V3 ℝ) : ℝ :=
  let r := (xyz - s.location).len
  if r > s.radius then s.toPointMass.gravitationalPotential xyz
  else G * 2 / 3 * Real.pi * s.rho * (3 * s.radius ^ 2 - r ^ 2)

open Classical in
/-- gravity.py:487-494, one point. -/
noncomputable def Sphere.gravitationalField (s : Sphere) (xyz : V3 ℝ) : V3 ℝ :=
  let rVec := xyz - s.location
  let r := rVec.len
  if r > s.radius then s.toPointMass.gravitationalField xyz
  else rVec.map (fun c => -G * 4 / 3 * Real.pi * s.rho * c)

open Classical in
/-- gravity.py:558-567, one point.  `none` stands for the all-NaN tensor written at `r == radius`
(`g_tens[ind1] = np.nan`, the last write). -/
noncomputable def Sphere.gravitationalGradient (s : Sphere) (xyz : V3 ℝ) : Option (M3 ℝ) :=
  let r := (xyz - s.location).len
  if r = s.radius then none
  else if r > s.radius then some (s.toPointMass.gravitationalGradient xyz)
  else
    let k := -G * 4 / 3 * Real.pi * s.rho
    some ⟨⟨k * 1, k * 0, k * 0⟩, ⟨k * 0, k * 1, k * 0⟩, ⟨k * 0, k * 0, k * 1⟩⟩

end Verif.Gravity
