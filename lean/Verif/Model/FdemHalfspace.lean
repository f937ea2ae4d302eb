import Verif.Model.Fdem
import Verif.Model.Reflection
import Verif.Model.Spatial
import Verif.Py.Err

/-!
# Model of `geoana/em/fdem/simple_functions.py`, `fdem/halfspace.py` and `fdem/layered.py` at one frequency and location

Exact complex arithmetic.  `scipy.constants.mu_0` is the parameter `mu0`.  The Bessel functions `scipy.special.iv` and `kv`, which
only enter through products, are parameters, and so is the digital filter of `libdlf`: the theorems hold for any values of them.
-/

namespace Verif.Fdem

open Complex (I)
open Spatial

/-! ## Loop on a halfspace -/

/-- `vertical_magnetic_field_horizontal_loop`: em/fdem/simple_functions.py:81-94. -/
noncomputable def loopField (frequency : ℝ) (sigma mu : ℂ) (radius current turns : ℝ) (secondary : Bool) : ℂ :=
  let w := 2 * Real.pi * frequency
  let k := Complex.sqrt (-I * w * mu * sigma)
  let a := radius
  let Hz : ℂ := -current / (k ^ 2 * a ^ 3) * (3 - (3 + 3 * I * k * a - k ^ 2 * a ^ 2) * Complex.exp (-I * k * a))
  let Hz := if secondary then Hz - current / 2 / a else Hz
  turns * Hz

/-- `vertical_magnetic_flux_horizontal_loop`: em/fdem/simple_functions.py:142-144. -/
noncomputable def loopFlux (frequency : ℝ) (sigma mu : ℂ) (radius current turns : ℝ) (secondary : Bool) : ℂ :=
  mu * loopField frequency sigma mu radius current turns secondary

/-! ## Magnetic dipole on a halfspace -/

/-- The attributes of `MagneticDipoleHalfSpace` (em/fdem/halfspace.py:13-21) that `magnetic_field` reads: `sigma_hat` is the derived
attribute; the permeability of the medium is not read. -/
structure HalfDipole where
  frequency : ℝ
  sigmaHat : ℂ
  location : V3 ℝ
  orientation : V3 ℝ
  moment : ℝ

/-- `k`: em/fdem/halfspace.py:87-90. -/
noncomputable def HalfDipole.k (mu0 : ℝ) (s : HalfDipole) : ℂ :=
  let w := 2 * Real.pi * s.frequency
  Complex.sqrt (-I * w * mu0 * s.sigmaHat)

/-- The three components accumulated by em/fdem/halfspace.py:92-136 at the horizontal displacement `(x, y)`. -/
noncomputable def halfEm (iv kv : ℕ → ℂ → ℂ) (k : ℂ) (src : V3 ℝ) (x y : ℝ) (field : String) : V3 ℂ :=
  let r := Real.sqrt (x ^ 2 + y ^ 2)
  let alpha := I * k * r / 2
  let IK1 := iv 1 alpha * kv 1 alpha
  let IK2 := iv 2 alpha * kv 2 alpha
  let Hr := k ^ 2 / r * (IK1 - IK2)
  let angle := arctan2 y x
  let phi := 2 / (k ^ 2 * r ^ 4) * (3 + k ^ 2 * r ^ 2 - (3 + 3 * I * k * r - k ^ 2 * r ^ 2) * Complex.exp (-I * k * r))
  let dphi := 2 / (k ^ 2 * r ^ 5) * (-2 * k ^ 2 * r ^ 2 - 12 +
    (-I * k ^ 3 * r ^ 3 - 5 * k ^ 2 * r ^ 2 + 12 * I * k * r + 12) * Complex.exp (-I * k * r))
  let em : V3 ℂ := 0
  let em := if src.z ≠ 0 then em + ⟨src.z * Real.cos angle * Hr, src.z * Real.sin angle * Hr,
      src.z * 2 / (k ^ 2 * r ^ 5) * (9 - (9 + 9 * I * k * r - 4 * k ^ 2 * r ^ 2 - I * k ^ 3 * r ^ 3) * Complex.exp (-I * k * r))⟩
    else em
  let em := if src.x ≠ 0 ∨ src.y ≠ 0 then
      let em := if src.x ≠ 0 then em + ⟨src.x * (-1 / r ^ 3) * (y ^ 2 * phi + x ^ 2 * r * dphi),
          src.x * (1 / r ^ 3) * x * y * (phi - r * dphi), -(src.x * (k ^ 2 * x / r ^ 2) * (IK1 - IK2))⟩ else em
      if src.y ≠ 0 then em + ⟨src.y * (1 / r ^ 3) * x * y * (phi - r * dphi),
          src.y * (-1 / r ^ 3) * (x ^ 2 * phi + y ^ 2 * r * dphi), -(src.y * (k ^ 2 * y / r ^ 2) * (IK1 - IK2))⟩ else em
    else em
  if field = "secondary" then
    let mdotr : ℂ := src.x * x + src.y * y
    em - ⟨3 * x * mdotr / r ^ 5 - src.x / r ^ 3, 3 * y * mdotr / r ^ 5 - src.y / r ^ 3, -src.z / r ^ 3⟩
  else em

/-- `MagneticDipoleHalfSpace.magnetic_field`: em/fdem/halfspace.py:87-138.  The vertical coordinates of the source and of the point
are not read. -/
noncomputable def HalfDipole.magneticField (iv kv : ℕ → ℂ → ℂ) (mu0 : ℝ) (s : HalfDipole) (xy : V3 ℝ) (field : String) : V3 ℂ :=
  let em := halfEm iv kv (s.k mu0) s.orientation (xy.x - s.location.x) (xy.y - s.location.y) field
  ((s.moment / (4 * Real.pi) : ℝ) : ℂ) • em

/-! ## Magnetic dipole over layers -/

/-- One abscissa of the digital filter with its two weights (`libdlf.hankel.key_101_2009`: layered.py:407). -/
structure Tap where
  base : ℝ
  j0 : ℝ
  j1 : ℝ

/-- The attributes of `MagneticDipoleLayeredHalfSpace` read by `magnetic_field`, at one frequency: the columns of the property arrays. -/
structure LayeredDipole where
  frequency : ℝ
  nThick : ℕ
  thickness : ℕ → ℝ
  sigmaHat : ℕ → ℂ
  mu : ℕ → ℂ
  location : V3 ℝ
  orientation : V3 ℝ
  moment : ℝ

/-- `rTE_forward(f, lambd, sigh, mu, thick)`: layered.py:430-431 (one column). -/
noncomputable def LayeredDipole.rTE (mu0 : ℝ) (s : LayeredDipole) (lambd : ℝ) : ℂ :=
  RTE.forward ⟨RTE.omegaOf s.frequency, lambd, mu0, s.nThick, s.sigmaHat, s.mu, s.thickness⟩

/-- The coefficients of the two transforms: layered.py:437-462. -/
noncomputable def coefficients (src : V3 ℝ) (x y offset lambd : ℝ) : V3 ℝ × V3 ℝ :=
  let C0 : V3 ℝ := 0
  let C1 : V3 ℝ := 0
  let (C0, C1) := if src.x ≠ 0 then
      (C0 + ⟨src.x * (x ^ 2 / offset ^ 2) * lambd ^ 2, src.x * (x * y / offset ^ 2) * lambd ^ 2, 0⟩,
       C1 + ⟨src.x * (1 / offset - 2 * x ^ 2 / offset ^ 3) * lambd, -(src.x * (2 * x * y / offset ^ 3) * lambd),
         -(src.x * x / offset * lambd ^ 2)⟩)
    else (C0, C1)
  let (C0, C1) := if src.y ≠ 0 then
      (C0 + ⟨src.y * (x * y / offset ^ 2) * lambd ^ 2, src.y * (y ^ 2 / offset ^ 2) * lambd ^ 2, 0⟩,
       C1 + ⟨-(src.y * (2 * x * y / offset ^ 3) * lambd), src.y * (1 / offset - 2 * y ^ 2 / offset ^ 3) * lambd,
         -(src.y * y / offset * lambd ^ 2)⟩)
    else (C0, C1)
  if src.z ≠ 0 then
    (C0 + ⟨0, 0, src.z * lambd ^ 2⟩, C1 + ⟨src.z * x / offset * lambd ^ 2, src.z * y / offset * lambd ^ 2, 0⟩)
  else (C0, C1)

/-- `(C*rTE) @ filt`: layered.py:465-467. -/
noncomputable def transform (filter : List Tap) (f : Tap → ℂ) : ℂ := (filter.map f).sum

/-- `MagneticDipoleLayeredHalfSpace.magnetic_field` at one point: layered.py:402-478. -/
noncomputable def LayeredDipole.fieldAt (filter : List Tap) (mu0 : ℝ) (s : LayeredDipole) (xyz : V3 ℝ) (field : String) : V3 ℂ :=
  let h := s.location.z
  let d := xyz - s.location
  let offset := Real.sqrt (d.x ^ 2 + d.y ^ 2)
  let rTE : ℝ → ℂ := fun lambd => s.rTE mu0 lambd * Real.exp (-lambd * (xyz.z + h))
  let src := s.orientation
  let C := fun t : Tap => coefficients src d.x d.y offset (t.base / offset)
  let em : V3 ℂ :=
    ⟨(transform filter (fun t => (C t).1.x * rTE (t.base / offset) * t.j0) +
        transform filter (fun t => (C t).2.x * rTE (t.base / offset) * t.j1)) / offset,
     (transform filter (fun t => (C t).1.y * rTE (t.base / offset) * t.j0) +
        transform filter (fun t => (C t).2.y * rTE (t.base / offset) * t.j1)) / offset,
     (transform filter (fun t => (C t).1.z * rTE (t.base / offset) * t.j0) +
        transform filter (fun t => (C t).2.z * rTE (t.base / offset) * t.j1)) / offset⟩
  let em := if field = "total" then
      let r := d.len
      let mdotr := src.x * d.x + src.y * d.y + src.z * d.z
      em + (⟨3 * d.x * mdotr / r ^ 5 - src.x / r ^ 3, 3 * d.y * mdotr / r ^ 5 - src.y / r ^ 3,
        3 * d.z * mdotr / r ^ 5 - src.z / r ^ 3⟩ : V3 ℝ).map (fun c : ℝ => (c : ℂ))
    else em
  ((s.moment / (4 * Real.pi) : ℝ) : ℂ) • em

/-- `MagneticDipoleLayeredHalfSpace.magnetic_field` at any number of points: layered.py:400-478. -/
noncomputable def LayeredDipole.magneticField (filter : List Tap) (mu0 : ℝ) (s : LayeredDipole) (xyz : List (V3 ℝ)) (field : String) :
    Py (List (V3 ℂ)) :=
  open Classical in
  if ∃ p ∈ xyz, p.z < 0 then .error .valueError else .ok (xyz.map fun p => s.fieldAt filter mu0 p field)

end Verif.Fdem
