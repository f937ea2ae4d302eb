import Verif.Spec.Vec

/-!
# Model of `geoana/em/static/sphere.py` at one observation point

Exact real arithmetic; attributes hold finite values (the setters are modelled in `Verif.Model.Setters`).  The
boolean-mask gather/scatter used for many points is modelled in `Verif.Model.Masks`.
-/

namespace Verif.Sphere

open V3

/-- What the methods return: one array, or the triple `(total, primary, secondary)`. -/
inductive Parts (α : Type*) where
  | one (a : α)
  | triple (total primary secondary : α)

/-- The chain of comparisons on the `field` argument: sphere.py:240-255 (and 343-359, 433-446, 739-754, 843-857,
936-949).  Every word but the three gives the triple. -/
def select {α : Type*} [Sub α] (field : String) (total primary : α) : Parts α :=
  if field = "total" then .one total
  else if field = "primary" then .one primary
  else
    let secondary := total - primary
    if field = "secondary" then .one secondary
    else .triple total primary secondary

/-- Attributes of `ElectrostaticSphere`: sphere.py:30-147. -/
structure Electro where
  radius : ℝ
  sigmaSphere : ℝ
  sigmaBackground : ℝ
  primaryField : V3 ℝ
  location : V3 ℝ

open Classical in
/-- The array `Vt` of `potential`: sphere.py:223-238. -/
noncomputable def Electro.potentialTotal (s : Electro) (xyz : V3 ℝ) : ℝ :=
  let sig0 := s.sigmaBackground
  let sig1 := s.sigmaSphere
  let e0 := s.primaryField
  let sigCur := (sig1 - sig0) / (sig1 + 2 * sig0)
  let rVec := xyz - s.location
  let r := rVec.len
  if r > s.radius then rVec.dot (-e0) * (1 - sigCur * s.radius ^ 3 / r ^ 3)
  else rVec.dot (-e0) * 3 * sig0 / (sig1 + 2 * sig0)

/-- The array `Vp` of `potential`: sphere.py:246. -/
noncomputable def Electro.potentialPrimary (s : Electro) (xyz : V3 ℝ) : ℝ :=
  (xyz - s.location).dot (-s.primaryField)

/-- `potential`: sphere.py:223-255. -/
noncomputable def Electro.potential (s : Electro) (xyz : V3 ℝ) (field : String) : Parts ℝ :=
  select field (s.potentialTotal xyz) (s.potentialPrimary xyz)

open Classical in
/-- The array `Et` of `electric_field`: sphere.py:325-341. -/
noncomputable def Electro.fieldTotal (s : Electro) (xyz : V3 ℝ) : V3 ℝ :=
  let sig0 := s.sigmaBackground
  let sig1 := s.sigmaSphere
  let e0 := s.primaryField
  let sigCur := (sig1 - sig0) / (sig1 + 2 * sig0)
  let rVec := xyz - s.location
  let r := rVec.len
  if r > s.radius then
    e0.map (fun c => c * (1 - sigCur * s.radius ^ 3 / r ^ 3)) +
      rVec.map (fun c => 3 * rVec.dot e0 * sigCur * s.radius * c / r ^ 4)
  else e0.map (fun c => 3 * sig0 / (sig1 + 2 * sig0) * c)

/-- The array `Ep` of `electric_field`: sphere.py:349-350. -/
noncomputable def Electro.fieldPrimary (s : Electro) (_xyz : V3 ℝ) : V3 ℝ := 0 + s.primaryField

/-- `electric_field`: sphere.py:325-359. -/
noncomputable def Electro.electricField (s : Electro) (xyz : V3 ℝ) (field : String) : Parts (V3 ℝ) :=
  select field (s.fieldTotal xyz) (s.fieldPrimary xyz)

open Classical in
/-- `Jt` of `current_density`: sphere.py:426-432. -/
noncomputable def Electro.currentTotal (s : Electro) (xyz : V3 ℝ) : V3 ℝ :=
  let r := (xyz - s.location).len
  let sigma := if r ≤ s.radius then s.sigmaSphere else s.sigmaBackground
  (s.fieldTotal xyz).map (sigma * ·)

/-- `Jp` of `current_density`: sphere.py:437-438. -/
noncomputable def Electro.currentPrimary (s : Electro) (xyz : V3 ℝ) : V3 ℝ :=
  (s.fieldPrimary xyz).map (s.sigmaBackground * ·)

/-- `current_density`: sphere.py:425-446. -/
noncomputable def Electro.currentDensity (s : Electro) (xyz : V3 ℝ) (field : String) : Parts (V3 ℝ) :=
  select field (s.currentTotal xyz) (s.currentPrimary xyz)

open Classical in
/-- `charge_density`: sphere.py:500-517.  `eps0` is `scipy.constants.epsilon_0`; `dr = none` is the default. -/
noncomputable def Electro.chargeDensity (eps0 : ℝ) (s : Electro) (xyz : V3 ℝ) (dr : Option ℝ) : ℝ :=
  let sig0 := s.sigmaBackground
  let sig1 := s.sigmaSphere
  let sigCur := (sig1 - sig0) / (sig1 + 2 * sig0)
  let e0 := s.primaryField
  let rVec := xyz - s.location
  let r := rVec.len
  let dr := dr.getD (0.05 * s.radius)
  if r < s.radius + 0.5 * dr ∧ r > s.radius - 0.5 * dr then
    eps0 * 3 * rVec.dot e0 * sigCur / r
  else 0

/-- Attributes of `MagnetostaticSphere`: sphere.py:540-658. -/
structure Magneto where
  radius : ℝ
  muSphere : ℝ
  muBackground : ℝ
  primaryField : V3 ℝ
  location : V3 ℝ

open Classical in
/-- The array `Vt` of `potential`: sphere.py:722-737. -/
noncomputable def Magneto.potentialTotal (s : Magneto) (xyz : V3 ℝ) : ℝ :=
  let mu0 := s.muBackground
  let mu1 := s.muSphere
  let h0 := s.primaryField
  let muCur := (mu1 - mu0) / (mu1 + 2 * mu0)
  let rVec := xyz - s.location
  let r := rVec.len
  if r > s.radius then rVec.dot (-h0) * (1 - muCur * s.radius ^ 3 / r ^ 3)
  else rVec.dot (-h0) * 3 * mu0 / (mu1 + 2 * mu0)

/-- The array `Vp` of `potential`: sphere.py:745. -/
noncomputable def Magneto.potentialPrimary (s : Magneto) (xyz : V3 ℝ) : ℝ :=
  (xyz - s.location).dot (-s.primaryField)

/-- `potential`: sphere.py:722-754. -/
noncomputable def Magneto.potential (s : Magneto) (xyz : V3 ℝ) (field : String) : Parts ℝ :=
  select field (s.potentialTotal xyz) (s.potentialPrimary xyz)

open Classical in
/-- The array `Ht` of `magnetic_field`: sphere.py:825-841. -/
noncomputable def Magneto.fieldTotal (s : Magneto) (xyz : V3 ℝ) : V3 ℝ :=
  let mu0 := s.muBackground
  let mu1 := s.muSphere
  let h0 := s.primaryField
  let muCur := (mu1 - mu0) / (mu1 + 2 * mu0)
  let rVec := xyz - s.location
  let r := rVec.len
  if r > s.radius then
    h0.map (fun c => c * (1 - muCur * s.radius ^ 3 / r ^ 3)) +
      rVec.map (fun c => 3 * rVec.dot h0 * muCur * s.radius * c / r ^ 4)
  else h0.map (fun c => 3 * mu0 / (mu1 + 2 * mu0) * c)

/-- The array `Hp` of `magnetic_field`: sphere.py:847-848. -/
noncomputable def Magneto.fieldPrimary (s : Magneto) (_xyz : V3 ℝ) : V3 ℝ := 0 + s.primaryField

/-- `magnetic_field`: sphere.py:825-857. -/
noncomputable def Magneto.magneticField (s : Magneto) (xyz : V3 ℝ) (field : String) : Parts (V3 ℝ) :=
  select field (s.fieldTotal xyz) (s.fieldPrimary xyz)

open Classical in
/-- `Bt` of `magnetic_flux_density`: sphere.py:929-935. -/
noncomputable def Magneto.fluxTotal (s : Magneto) (xyz : V3 ℝ) : V3 ℝ :=
  let r := (xyz - s.location).len
  let mu := if r ≤ s.radius then s.muSphere else s.muBackground
  (s.fieldTotal xyz).map (mu * ·)

/-- `Bp` of `magnetic_flux_density`: sphere.py:940-941. -/
noncomputable def Magneto.fluxPrimary (s : Magneto) (xyz : V3 ℝ) : V3 ℝ :=
  (s.fieldPrimary xyz).map (s.muBackground * ·)

/-- `magnetic_flux_density`: sphere.py:928-949. -/
noncomputable def Magneto.magneticFluxDensity (s : Magneto) (xyz : V3 ℝ) (field : String) : Parts (V3 ℝ) :=
  select field (s.fluxTotal xyz) (s.fluxPrimary xyz)

end Verif.Sphere
