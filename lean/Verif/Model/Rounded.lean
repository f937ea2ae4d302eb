import Verif.Spec.Rounding
import Verif.Model.Gravity
import Verif.Model.StaticWholeSpace
import Verif.Model.StaticSphere
import Verif.Model.TdemSimple

/-!
# The closed formulas in the order in which the code carries out the operations, each of them rounded

`F : Ops` supplies the operations.  Coordinates, masses, currents and so on are the numbers stored in the object; small
integers are exact; the sign of a number is changed without rounding.  Branches compare the rounded numbers.
-/

namespace Verif.Rounded

variable (F : Ops)

/-- `add.reduce` over three numbers inside `np.linalg.norm` and `ndarray.dot`: some order of additions. -/
def sum3 (a b c : ℝ) : ℝ :=
  if F.order = 0 then F.add (F.add a b) c else if F.order = 1 then F.add a (F.add b c) else F.add (F.add a c) b

/-- `xyz - self.location`. -/
def diff (a b : V3 ℝ) : V3 ℝ := ⟨F.sub a.x b.x, F.sub a.y b.y, F.sub a.z b.z⟩

/-- `np.linalg.norm(v, axis=-1)`: the square root of the sum of the squares of the components. -/
def norm (v : V3 ℝ) : ℝ := F.sqrt (sum3 F (F.mul v.x v.x) (F.mul v.y v.y) (F.mul v.z v.z))

/-- `v / r`. -/
def unit (v : V3 ℝ) (r : ℝ) : V3 ℝ := v.map (fun c => F.div c r)

/-- `BaseDipole.distance`, em/base.py:274. -/
def distance (location xyz : V3 ℝ) : ℝ := norm F (diff F xyz location)

/-! ## gravity.py -/

/-- gravity.py:154-158. -/
noncomputable def PointMass.gravitationalPotential (s : Gravity.PointMass) (xyz : V3 ℝ) : ℝ :=
  let rVec := diff F xyz s.location
  let r := norm F rVec
  F.div (F.mul (F.const Gravity.G) s.mass) r

/-- gravity.py:211-216. -/
noncomputable def PointMass.gravitationalField (s : Gravity.PointMass) (xyz : V3 ℝ) : V3 ℝ :=
  let rVec := diff F xyz s.location
  let r := norm F rVec
  let rHat := unit F rVec r
  rHat.map (fun c => F.div (F.mul (F.mul (-F.const Gravity.G) s.mass) c) (F.pow r 2))

/-- gravity.py:273-280. -/
noncomputable def PointMass.gravitationalGradient (s : Gravity.PointMass) (xyz : V3 ℝ) : M3 ℝ :=
  let rVec := diff F xyz s.location
  let r := norm F rVec
  let rHat := unit F rVec r
  let entry := fun (eye a b : ℝ) =>
    F.div (F.mul (F.mul (-F.const Gravity.G) s.mass) (F.sub eye (F.mul (F.mul 3 a) b))) (F.pow r 3)
  ⟨⟨entry 1 rHat.x rHat.x, entry 0 rHat.x rHat.y, entry 0 rHat.x rHat.z⟩,
   ⟨entry 0 rHat.y rHat.x, entry 1 rHat.y rHat.y, entry 0 rHat.y rHat.z⟩,
   ⟨entry 0 rHat.z rHat.x, entry 0 rHat.z rHat.y, entry 1 rHat.z rHat.z⟩⟩

/-- gravity.py:349, `4 / 3 * np.pi * self.radius ** 3 * self.rho`. -/
noncomputable def Sphere.mass (s : Gravity.Sphere) : ℝ :=
  F.mul (F.mul (F.mul (F.div 4 3) (F.const Real.pi)) (F.pow s.radius 3)) s.rho

/-- What the inherited methods see: the computed mass (gravity.py:426, 492, 564). -/
noncomputable def Sphere.toPointMass (s : Gravity.Sphere) : Gravity.PointMass := ⟨Sphere.mass F s, s.location⟩

open Classical in
/-- gravity.py:421-428. -/
noncomputable def Sphere.gravitationalPotential (s : Gravity.Sphere) (xyz : V3 ℝ) : ℝ :=
  let r := norm F (diff F xyz s.location)
  if r > s.radius then PointMass.gravitationalPotential F (Sphere.toPointMass F s) xyz
  else
    F.mul (F.mul (F.mul (F.div (F.mul (F.const Gravity.G) 2) 3) (F.const Real.pi)) s.rho)
      (F.sub (F.mul 3 (F.pow s.radius 2)) (F.pow r 2))

open Classical in
/-- gravity.py:487-494. -/
noncomputable def Sphere.gravitationalField (s : Gravity.Sphere) (xyz : V3 ℝ) : V3 ℝ :=
  let rVec := diff F xyz s.location
  let r := norm F rVec
  if r > s.radius then PointMass.gravitationalField F (Sphere.toPointMass F s) xyz
  else rVec.map (fun c =>
    F.mul (F.mul (F.mul (F.div (F.mul (-F.const Gravity.G) 4) 3) (F.const Real.pi)) s.rho) c)

open Classical in
/-- gravity.py:558-567. -/
noncomputable def Sphere.gravitationalGradient (s : Gravity.Sphere) (xyz : V3 ℝ) : Option (M3 ℝ) :=
  let r := norm F (diff F xyz s.location)
  if r = s.radius then none
  else if r > s.radius then some (PointMass.gravitationalGradient F (Sphere.toPointMass F s) xyz)
  else
    let k := F.mul (F.mul (F.div (F.mul (-F.const Gravity.G) 4) 3) (F.const Real.pi)) s.rho
    some ⟨⟨F.mul k 1, F.mul k 0, F.mul k 0⟩, ⟨F.mul k 0, F.mul k 1, F.mul k 0⟩, ⟨F.mul k 0, F.mul k 0, F.mul k 1⟩⟩

/-! ## em/static/wholespace.py -/

/-- `MagneticPoleWholeSpace.magnetic_flux_density`: em/static/wholespace.py:353-357. -/
noncomputable def MagDipole.poleFluxDensity (s : Static.MagDipole) (xyz : V3 ℝ) : V3 ℝ :=
  let rVec := diff F xyz s.location
  let r := norm F rVec
  let rHat := unit F rVec r
  let k := F.div (F.mul s.moment s.mu) (F.mul (F.mul 4 (F.const Real.pi)) (F.pow r 2))
  rHat.map (fun c => F.mul k c)

/-- `MagneticDipoleWholeSpace.magnetic_flux_density`: em/static/wholespace.py:209-215. -/
noncomputable def MagDipole.magneticFluxDensity (s : Static.MagDipole) (xyz : V3 ℝ) : V3 ℝ :=
  let rVec := diff F xyz s.location
  let r := norm F rVec
  let rHat := unit F rVec r
  let k := F.div (F.mul s.moment s.mu) (F.mul (F.mul 4 (F.const Real.pi)) (F.pow r 3))
  let d := sum3 F (F.mul rHat.x s.orientation.x) (F.mul rHat.y s.orientation.y) (F.mul rHat.z s.orientation.z)
  let entry := fun (h o : ℝ) => F.mul k (F.sub (F.mul (F.mul 3 d) h) o)
  ⟨entry rHat.x s.orientation.x, entry rHat.y s.orientation.y, entry rHat.z s.orientation.z⟩

/-- `np.cross(a, b)`: two products and a difference for each component. -/
def cross (a b : V3 ℝ) : V3 ℝ :=
  ⟨F.sub (F.mul a.y b.z) (F.mul a.z b.y), F.sub (F.mul a.z b.x) (F.mul a.x b.z), F.sub (F.mul a.x b.y) (F.mul a.y b.x)⟩

/-- `MagneticDipoleWholeSpace.vector_potential`: em/static/wholespace.py:112-116. -/
noncomputable def MagDipole.vectorPotential (s : Static.MagDipole) (xyz : V3 ℝ) : V3 ℝ :=
  let rVec := diff F xyz s.location
  let r := norm F rVec
  let rHat := unit F rVec r
  let k := F.div (F.mul s.moment s.mu) (F.mul (F.mul 4 (F.const Real.pi)) (F.pow r 2))
  (cross F s.orientation rHat).map (fun c => F.mul k c)

/-- `PointCurrentWholeSpace`: the attributes that the constructor stores (em/static/wholespace.py:1097-1100,
`sigma = 1/rho`). -/
noncomputable def pointSigma (rho : ℝ) : ℝ := F.div 1 rho

/-- The potential of a point electrode: em/static/wholespace.py:844-848. -/
noncomputable def pointPotential (current rho : ℝ) (location xyz : V3 ℝ) : ℝ :=
  let r := norm F (diff F xyz location)
  F.div current (F.mul (F.mul (F.mul 4 (F.const Real.pi)) (pointSigma F rho)) r)

/-- The electric field of a point electrode: em/static/wholespace.py:1044-1048. -/
noncomputable def pointElectricField (current rho : ℝ) (location xyz : V3 ℝ) : V3 ℝ :=
  let rVec := diff F xyz location
  let r := norm F rVec
  let k := F.div current (F.mul (F.mul 4 (F.const Real.pi)) (pointSigma F rho))
  rVec.map (fun c => F.mul k (F.div c (F.pow r 3)))

/-- The potential of a point electrode in a half-space, `location` below or on the surface:
em/static/halfspace.py:185-192 (the image has the opposite height, halfspace.py:123-125). -/
noncomputable def halfPotential (current rho : ℝ) (location xyz : V3 ℝ) : ℝ :=
  F.add (pointPotential F current rho location xyz)
    (pointPotential F current rho ⟨location.x, location.y, -location.z⟩ xyz)

/-- The potential between two electrodes at `a` and `b` (a wire with two nodes): em/static/wholespace.py:853-856. -/
noncomputable def wirePotential (current sigma : ℝ) (a b xyz : V3 ℝ) : ℝ :=
  let rA := norm F (diff F xyz b)
  let rB := norm F (diff F xyz a)
  F.mul (F.div current (F.mul (F.mul 4 (F.const Real.pi)) sigma)) (F.sub (F.div 1 rA) (F.div 1 rB))

/-! ## em/static/sphere.py -/

/-- `r_vec @ -E0`, the order of the additions left open: em/static/sphere.py:235, 246. -/
def against (v e : V3 ℝ) : ℝ := sum3 F (F.mul v.x (-e.x)) (F.mul v.y (-e.y)) (F.mul v.z (-e.z))

open Classical in
/-- The array `Vt` of `ElectrostaticSphere.potential`: em/static/sphere.py:223-238. -/
noncomputable def Electro.potentialTotal (s : Sphere.Electro) (xyz : V3 ℝ) : ℝ :=
  let sig0 := s.sigmaBackground
  let sig1 := s.sigmaSphere
  let sigCur := F.div (F.sub sig1 sig0) (F.add sig1 (F.mul 2 sig0))
  let rVec := diff F xyz s.location
  let r := norm F rVec
  if r > s.radius then
    F.mul (against F rVec s.primaryField) (F.sub 1 (F.div (F.mul sigCur (F.pow s.radius 3)) (F.pow r 3)))
  else F.div (F.mul (F.mul (against F rVec s.primaryField) 3) sig0) (F.add sig1 (F.mul 2 sig0))

/-- The array `Vp`: em/static/sphere.py:246. -/
noncomputable def Electro.potentialPrimary (s : Sphere.Electro) (xyz : V3 ℝ) : ℝ :=
  against F (diff F xyz s.location) s.primaryField

/-- The array `Vs = Vt - Vp`: em/static/sphere.py:251. -/
noncomputable def Electro.potentialSecondary (s : Sphere.Electro) (xyz : V3 ℝ) : ℝ :=
  F.sub (Electro.potentialTotal F s xyz) (Electro.potentialPrimary F s xyz)

/-! ## em/tdem/simple_functions.py -/

/-- `theta`: em/tdem/base.py:129. -/
noncomputable def theta (t sigma mu : ℝ) : ℝ := F.sqrt (F.div (F.mul mu sigma) (F.mul 4 t))

/-- `vertical_magnetic_field_horizontal_loop`: em/tdem/simple_functions.py:79-83. -/
noncomputable def loopField (t sigma mu radius current turns : ℝ) : ℝ :=
  let ta := F.mul (theta F t sigma mu) radius
  let t1 := F.mul (F.div 3 (F.mul (F.sqrt (F.const Real.pi)) ta)) (F.exp (-(F.pow ta 2)))
  let t2 := F.mul (F.sub 1 (F.div 3 (F.mul 2 (F.pow ta 2)))) (F.erf ta)
  let hz := F.div (F.add t1 t2) (F.mul 2 radius)
  F.mul (F.mul turns current) hz

/-- The vertical component of `magnetic_field_vertical_magnetic_dipole` at the distance `r`:
em/tdem/simple_functions.py:325-330, 340. -/
noncomputable def dipoleVertical (t r sigma mu moment : ℝ) : ℝ :=
  let thr := F.mul (theta F t sigma mu) r
  let hz := F.mul (F.div 1 (F.pow r 3))
    (F.sub (F.mul (F.sub (F.div 9 (F.mul 2 (F.pow thr 2))) 1) (F.erf thr))
      (F.mul (F.div (F.add (F.div 9 thr) (F.mul 4 thr)) (F.sqrt (F.const Real.pi))) (F.exp (-(F.pow thr 2)))))
  F.mul (F.div moment (F.mul 4 (F.const Real.pi))) hz

end Verif.Rounded
