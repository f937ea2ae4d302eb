import Verif.Py.Err
import Verif.Model.Gravity
import Verif.Model.StaticSphere
import Verif.Model.Prism
import Verif.Model.CircularLoop

/-!
# Model of the evaluation of many points at once with boolean masks

An array of shape `(..., 3)` is the list of its rows in row-major order, which is the order in which numpy reads and writes through a boolean
mask; the leading shape is carried along and plays no part.  An array of shape `(...)` is the list of its entries.
-/

namespace Verif

open Classical

variable {α β : Type}

/-- The entries of the list at which the mask is true. -/
def compress : List Bool → List α → List α
  | true :: m, x :: xs => x :: compress m xs
  | false :: m, _ :: xs => compress m xs
  | _, _ => []

/-- The list with the entries at which the mask is true replaced in turn by the given values. -/
def place : List Bool → List α → List α → List α
  | true :: m, _ :: old, v :: vs => v :: place m old vs
  | false :: m, o :: old, vs => o :: place m old vs
  | _, old, _ => old

/-- `a[mask]` -/
def gather (m : List Bool) (a : List α) : Py (List α) :=
  if m.length = a.length then .ok (compress m a) else .error .indexError

/-- `a[mask] = values`: as many values as there are true entries, or one value that is repeated. -/
def scatter (m : List Bool) (a values : List α) : Py (List α) :=
  if m.length = a.length then
    match values with
    | [v] => .ok (place m a (List.replicate (m.count true) v))
    | values => if values.length = m.count true then .ok (place m a values) else .error .valueError
  else .error .indexError

/-- An elementwise comparison, as a mask. -/
noncomputable def maskOf (P : β → Prop) (a : List β) : List Bool := a.map fun x => decide (P x)

/-- `~mask` -/
def flip (m : List Bool) : List Bool := m.map (!·)

namespace Gravity

/-- `gravitational_potential` of a sphere: gravity.py:421-428. -/
noncomputable def Sphere.potentials (s : Sphere) (xyz : List (V3 ℝ)) : Py (List ℝ) := do
  let rVec := xyz.map (· - s.location)
  let r := rVec.map V3.len
  let u := r.map fun _ => (0 : ℝ)
  let ind0 := maskOf (· > s.radius) r
  let x0 ← gather ind0 xyz
  let u ← scatter ind0 u (x0.map s.toPointMass.gravitationalPotential)
  let r1 ← gather (flip ind0) r
  scatter (flip ind0) u (r1.map fun r => G * 2 / 3 * Real.pi * s.rho * (3 * s.radius ^ 2 - r ^ 2))

/-- `gravitational_field` of a sphere: gravity.py:487-494. -/
noncomputable def Sphere.fields (s : Sphere) (xyz : List (V3 ℝ)) : Py (List (V3 ℝ)) := do
  let rVec := xyz.map (· - s.location)
  let r := rVec.map V3.len
  let g := r.map fun _ => (0 : V3 ℝ)
  let ind0 := maskOf (· > s.radius) r
  let x0 ← gather ind0 xyz
  let g ← scatter ind0 g (x0.map s.toPointMass.gravitationalField)
  let r1 ← gather (flip ind0) rVec
  scatter (flip ind0) g (r1.map fun v => v.map (fun c => -G * 4 / 3 * Real.pi * s.rho * c))

/-- `gravitational_gradient` of a sphere: gravity.py:558-567.  `none` is the tensor filled with NaN. -/
noncomputable def Sphere.gradients (s : Sphere) (xyz : List (V3 ℝ)) : Py (List (Option (M3 ℝ))) := do
  let rVec := xyz.map (· - s.location)
  let r := rVec.map V3.len
  let zero : M3 ℝ := ⟨0, 0, 0⟩
  let g := r.map fun _ => some zero
  let ind0 := maskOf (· > s.radius) r
  let ind1 := maskOf (· = s.radius) r
  let x0 ← gather ind0 xyz
  let g ← scatter ind0 g (x0.map fun x => some (s.toPointMass.gravitationalGradient x))
  let k := -G * 4 / 3 * Real.pi * s.rho
  let g ← scatter (flip ind0) g [some ⟨⟨k * 1, k * 0, k * 0⟩, ⟨k * 0, k * 1, k * 0⟩, ⟨k * 0, k * 0, k * 1⟩⟩]
  scatter ind1 g [none]

end Gravity

namespace Sphere

/-- The comparisons on the word `field` when the parts are arrays: sphere.py:240-255 and the like. -/
def selectAll {α : Type} [Sub α] (field : String) (total primary : List α) : Parts (List α) :=
  if field = "total" then .one total
  else if field = "primary" then .one primary
  else
    let secondary := List.zipWith (· - ·) total primary
    if field = "secondary" then .one secondary
    else .triple total primary secondary

/-- `potential`: sphere.py:222-255. -/
noncomputable def Electro.potentials (s : Electro) (xyz : List (V3 ℝ)) (field : String) : Py (Parts (List ℝ)) := do
  let sig0 := s.sigmaBackground
  let sig1 := s.sigmaSphere
  let e0 := s.primaryField
  let sigCur := (sig1 - sig0) / (sig1 + 2 * sig0)
  let rVec := xyz.map (· - s.location)
  let r := rVec.map V3.len
  let v := r.map fun _ => (0 : ℝ)
  let ind0 := maskOf (· > s.radius) r
  let rv0 ← gather ind0 rVec
  let r0 ← gather ind0 r
  let v ← scatter ind0 v (List.zipWith (fun rv r => rv.dot (-e0) * (1 - sigCur * s.radius ^ 3 / r ^ 3)) rv0 r0)
  let rv1 ← gather (flip ind0) rVec
  let v ← scatter (flip ind0) v (rv1.map fun rv => rv.dot (-e0) * 3 * sig0 / (sig1 + 2 * sig0))
  pure (selectAll field v (rVec.map (·.dot (-e0))))

/-- The array `Et` of `electric_field`: sphere.py:325-341. -/
noncomputable def Electro.fieldsTotal (s : Electro) (xyz : List (V3 ℝ)) : Py (List (V3 ℝ)) := do
  let sig0 := s.sigmaBackground
  let sig1 := s.sigmaSphere
  let e0 := s.primaryField
  let sigCur := (sig1 - sig0) / (sig1 + 2 * sig0)
  let rVec := xyz.map (· - s.location)
  let r := rVec.map V3.len
  let e := r.map fun _ => (0 : V3 ℝ)
  let ind0 := maskOf (· > s.radius) r
  let rv0 ← gather ind0 rVec
  let r0 ← gather ind0 r
  let e ← scatter ind0 e (List.zipWith (fun rv r => e0.map (fun c => c * (1 - sigCur * s.radius ^ 3 / r ^ 3)) +
      rv.map (fun c => 3 * rv.dot e0 * sigCur * s.radius * c / r ^ 4)) rv0 r0)
  scatter (flip ind0) e [e0.map (fun c => 3 * sig0 / (sig1 + 2 * sig0) * c)]

/-- The array `Ep` of `electric_field`: sphere.py:349-350. -/
noncomputable def Electro.fieldsPrimary (s : Electro) (xyz : List (V3 ℝ)) : List (V3 ℝ) := xyz.map fun _ => 0 + s.primaryField

/-- `electric_field`: sphere.py:325-359. -/
noncomputable def Electro.electricFields (s : Electro) (xyz : List (V3 ℝ)) (field : String) : Py (Parts (List (V3 ℝ))) := do
  let e ← s.fieldsTotal xyz
  pure (selectAll field e (s.fieldsPrimary xyz))

/-- `current_density`: sphere.py:425-446. -/
noncomputable def Electro.currentDensities (s : Electro) (xyz : List (V3 ℝ)) (field : String) : Py (Parts (List (V3 ℝ))) := do
  let r := xyz.map fun x => (x - s.location).len
  let sigma := r.map fun _ => s.sigmaBackground
  let sigma ← scatter (maskOf (· ≤ s.radius) r) sigma [s.sigmaSphere]
  let e ← s.fieldsTotal xyz
  let j := List.zipWith (fun sg v => V3.map (sg * ·) v) sigma e
  pure (selectAll field j ((s.fieldsPrimary xyz).map fun v => v.map (s.sigmaBackground * ·)))

/-- `charge_density`: sphere.py:500-517. -/
noncomputable def Electro.chargeDensities (eps0 : ℝ) (s : Electro) (xyz : List (V3 ℝ)) (dr : Option ℝ) : Py (List ℝ) := do
  let sig0 := s.sigmaBackground
  let sig1 := s.sigmaSphere
  let sigCur := (sig1 - sig0) / (sig1 + 2 * sig0)
  let e0 := s.primaryField
  let rVec := xyz.map (· - s.location)
  let r := rVec.map V3.len
  let dr := dr.getD (0.05 * s.radius)
  let ind := maskOf (fun r => r < s.radius + 0.5 * dr ∧ r > s.radius - 0.5 * dr) r
  let rho := r.map fun _ => (0 : ℝ)
  let rv0 ← gather ind rVec
  let r0 ← gather ind r
  scatter ind rho (List.zipWith (fun rv r => eps0 * 3 * rv.dot e0 * sigCur / r) rv0 r0)

/-- `potential`: sphere.py:721-754. -/
noncomputable def Magneto.potentials (s : Magneto) (xyz : List (V3 ℝ)) (field : String) : Py (Parts (List ℝ)) := do
  let mu0 := s.muBackground
  let mu1 := s.muSphere
  let h0 := s.primaryField
  let muCur := (mu1 - mu0) / (mu1 + 2 * mu0)
  let rVec := xyz.map (· - s.location)
  let r := rVec.map V3.len
  let v := r.map fun _ => (0 : ℝ)
  let ind0 := maskOf (· > s.radius) r
  let rv0 ← gather ind0 rVec
  let r0 ← gather ind0 r
  let v ← scatter ind0 v (List.zipWith (fun rv r => rv.dot (-h0) * (1 - muCur * s.radius ^ 3 / r ^ 3)) rv0 r0)
  let rv1 ← gather (flip ind0) rVec
  let v ← scatter (flip ind0) v (rv1.map fun rv => rv.dot (-h0) * 3 * mu0 / (mu1 + 2 * mu0))
  pure (selectAll field v (rVec.map (·.dot (-h0))))

/-- The array `Ht` of `magnetic_field`: sphere.py:825-841. -/
noncomputable def Magneto.fieldsTotal (s : Magneto) (xyz : List (V3 ℝ)) : Py (List (V3 ℝ)) := do
  let mu0 := s.muBackground
  let mu1 := s.muSphere
  let h0 := s.primaryField
  let muCur := (mu1 - mu0) / (mu1 + 2 * mu0)
  let rVec := xyz.map (· - s.location)
  let r := rVec.map V3.len
  let h := r.map fun _ => (0 : V3 ℝ)
  let ind0 := maskOf (· > s.radius) r
  let rv0 ← gather ind0 rVec
  let r0 ← gather ind0 r
  let h ← scatter ind0 h (List.zipWith (fun rv r => h0.map (fun c => c * (1 - muCur * s.radius ^ 3 / r ^ 3)) +
      rv.map (fun c => 3 * rv.dot h0 * muCur * s.radius * c / r ^ 4)) rv0 r0)
  scatter (flip ind0) h [h0.map (fun c => 3 * mu0 / (mu1 + 2 * mu0) * c)]

/-- The array `Hp` of `magnetic_field`: sphere.py:847-848. -/
noncomputable def Magneto.fieldsPrimary (s : Magneto) (xyz : List (V3 ℝ)) : List (V3 ℝ) := xyz.map fun _ => 0 + s.primaryField

/-- `magnetic_field`: sphere.py:825-857. -/
noncomputable def Magneto.magneticFields (s : Magneto) (xyz : List (V3 ℝ)) (field : String) : Py (Parts (List (V3 ℝ))) := do
  let h ← s.fieldsTotal xyz
  pure (selectAll field h (s.fieldsPrimary xyz))

/-- `magnetic_flux_density`: sphere.py:928-949. -/
noncomputable def Magneto.magneticFluxDensities (s : Magneto) (xyz : List (V3 ℝ)) (field : String) : Py (Parts (List (V3 ℝ))) := do
  let r := xyz.map fun x => (x - s.location).len
  let mu := r.map fun _ => s.muBackground
  let mu ← scatter (maskOf (· ≤ s.radius) r) mu [s.muSphere]
  let h ← s.fieldsTotal xyz
  let b := List.zipWith (fun m v => V3.map (m * ·) v) mu h
  pure (selectAll field b ((s.fieldsPrimary xyz).map fun v => v.map (s.muBackground * ·)))

end Sphere

namespace Prism

/-- `magnetic_flux_density` of a prism: freespace.py:148-156. -/
noncomputable def MagPrism.magneticFluxDensities (s : MagPrism) (xyz : List (V3 ℝ)) : Py (List (V3 ℝ)) := do
  let h := xyz.map s.magneticField
  let inside := List.zipWith (· && ·)
    (maskOf (fun x => x.x ≥ s.box.min.x ∧ x.y ≥ s.box.min.y ∧ x.z ≥ s.box.min.z) xyz)
    (maskOf (fun x => x.x ≤ s.box.max.x ∧ x.y ≤ s.box.max.y ∧ x.z ≤ s.box.max.z) xyz)
  let h0 ← gather inside h
  let h ← scatter inside h (h0.map (· + s.magnetization))
  pure (h.map fun v => v.map (mu0 * ·))

end Prism

namespace Static

open Spatial

/-- `A_cyl[:, 1]` of `vector_potential`: wholespace.py:584-624. -/
noncomputable def Loop.potentialPhis (s : Loop) (rho z : List ℝ) : Py (List (Option ℝ)) := do
  let a := s.radius
  let C := s.mu * s.current / Real.pi
  let alphaSq : List ℝ := List.zipWith (fun rho z => (a - rho) ^ 2 + z ^ 2) rho z
  let betaSq : List ℝ := List.zipWith (fun rho z => (a + rho) ^ 2 + z ^ 2) rho z
  let beta := betaSq.map Real.sqrt
  let kSq : List ℝ := List.zipWith (fun al be => 1 - al / be) alphaSq betaSq
  let ek := kSq.map ellipE
  let kk := kSq.map ellipK
  let aPhi := rho.map fun _ => some (0 : ℝ)
  let small := List.zipWith (fun rho z => decide (smallRho a rho z)) rho z
  let rho0 ← gather small rho
  let z0 ← gather small z
  let temp := z0.map fun z => Real.sqrt (a ^ 2 + z ^ 2)
  let aPhi ← scatter small aPhi (List.zipWith (fun (rho, temp) z =>
    if a ^ 2 - 4 * z ^ 2 = 0 then none
    else some (Real.pi * C * (rho * a ^ 2 / (4 * temp ^ 3) +
        rho ^ 3 * 3 * a ^ 2 / (a ^ 2 - 4 * z ^ 2) / (32 * Real.sqrt (a ^ 2 + z ^ 2) ^ 7)))) (rho0.zip temp) z0)
  let z ← gather (flip small) z
  let beta ← gather (flip small) beta
  let betaSq ← gather (flip small) betaSq
  let alphaSq ← gather (flip small) alphaSq
  let rho ← gather (flip small) rho
  let ek ← gather (flip small) ek
  let kk ← gather (flip small) kk
  scatter (flip small) aPhi (List.zipWith (fun ((rho, z), (beta, betaSq)) (alphaSq, (ek, kk)) =>
    if betaSq = 0 ∨ alphaSq = 0 then none
    else some (C / (2 * rho * beta) * ((a ^ 2 + rho ^ 2 + z ^ 2) * kk - betaSq * ek)))
    ((rho.zip z).zip (beta.zip betaSq)) (alphaSq.zip (ek.zip kk)))

/-- `B_cyl[:, 0]` and `B_cyl[:, 2]` of `magnetic_flux_density`: wholespace.py:718-757.  A row with an entry that is not finite is `none`. -/
noncomputable def Loop.fluxRhoZs (s : Loop) (rho z : List ℝ) : Py (List (Option (ℝ × ℝ))) := do
  let a := s.radius
  let C := s.mu * s.current / Real.pi
  let alphaSq : List ℝ := List.zipWith (fun rho z => (a - rho) ^ 2 + z ^ 2) rho z
  let betaSq : List ℝ := List.zipWith (fun rho z => (a + rho) ^ 2 + z ^ 2) rho z
  let beta := betaSq.map Real.sqrt
  let kSq : List ℝ := List.zipWith (fun al be => 1 - al / be) alphaSq betaSq
  let ek := kSq.map ellipE
  let kk := kSq.map ellipK
  let finite := List.zipWith (fun al be => !decide (be = 0 ∨ al = 0)) alphaSq betaSq
  let bRho := rho.map fun _ => (0 : ℝ)
  let small := List.zipWith (fun rho z => decide (smallRho a rho z)) rho z
  let rho0 ← gather small rho
  let z0 ← gather small z
  let temp := z0.map fun z => Real.sqrt (a ^ 2 + z ^ 2)
  let bRho ← scatter small bRho (List.zipWith (fun (rho, temp) z => 3 * C * Real.pi * a ^ 2 * z *
        (rho / (4 * temp ^ 5) + rho ^ 3 * (15 * a ^ 2 - 20 * z ^ 2) / (32 * temp ^ 9))) (rho0.zip temp) z0)
  let bZ := List.zipWith (fun ((rho, z), beta) (alphaSq, (ek, kk)) =>
    C / (2 * alphaSq * beta) * ((a ^ 2 - rho ^ 2 - z ^ 2) * ek + alphaSq * kk)) ((rho.zip z).zip beta) (alphaSq.zip (ek.zip kk))
  let z ← gather (flip small) z
  let alphaSq ← gather (flip small) alphaSq
  let beta ← gather (flip small) beta
  let rho ← gather (flip small) rho
  let ek ← gather (flip small) ek
  let kk ← gather (flip small) kk
  let bRho ← scatter (flip small) bRho (List.zipWith (fun ((rho, z), beta) (alphaSq, (ek, kk)) =>
    C * z / (2 * alphaSq * beta * rho) * ((a ^ 2 + rho ^ 2 + z ^ 2) * ek - alphaSq * kk))
    ((rho.zip z).zip beta) (alphaSq.zip (ek.zip kk)))
  pure (List.zipWith (fun ok b => if ok then some b else none) finite (bRho.zip bZ))

/-- The change of frame around both computations: wholespace.py:576-582, 626-629 and 711-717, 759-761. -/
noncomputable def Loop.inFrameAll (s : Loop) (f : List ℝ → List ℝ → Py (List (Option (V3 ℝ)))) (xyz : List (V3 ℝ)) :
    Py (List (Option (V3 ℝ))) := do
  let rot ← rotationMatrixFromNormals (arr3 s.orientation) (arr3 ⟨0, 0, 1⟩) defaultTol
  let rVec := xyz.map fun x => rot.mulVec (x - s.location)
  let rCyl := rVec.map cartToCyl
  let v ← f (rCyl.map V3.x) (rCyl.map V3.z)
  pure (List.zipWith (fun rc v => v.map fun v => rot.transpose.mulVec (cylToCartVec rc v)) rCyl v)

/-- `vector_potential(xyz)` on a batch. -/
noncomputable def Loop.vectorPotentials (s : Loop) (xyz : List (V3 ℝ)) : Py (List (Option (V3 ℝ))) :=
  s.inFrameAll (fun rho z => do
    let a ← s.potentialPhis rho z
    pure (a.map fun a => a.map fun a => ⟨0, a, 0⟩)) xyz

/-- `magnetic_flux_density(xyz)` on a batch. -/
noncomputable def Loop.magneticFluxDensities (s : Loop) (xyz : List (V3 ℝ)) : Py (List (Option (V3 ℝ))) :=
  s.inFrameAll (fun rho z => do
    let b ← s.fluxRhoZs rho z
    pure (b.map fun b => b.map fun b => ⟨b.1, 0, b.2⟩)) xyz

end Static

end Verif
