import Verif.Py.ComplexOps
import Verif.Model.Fdem
import Verif.Model.FdemHalfspace

/-!
# Model of the harmonic fields in floating point with infinities and NaN

The same lines as in `Verif.Model.Fdem` and `Verif.Model.FdemHalfspace`, in numpy's arithmetic.  `↟x` is the conversion of a float that meets a
complex number.  Frequencies and attributes are finite; the setter of `frequency` accepts zero (em/fdem/base.py:214).
-/

namespace Verif.Fdem

open PyFloat (fin)

local notation "↟" x:max => PyComplex.ofFloat x
local notation "ℑ" => PyComplex.fin Complex.I

/-! ## Electric dipole -/

/-- `vector_potential`: em/fdem/wholespace.py:98-106. -/
noncomputable def ElectricDipole.vectorPotentialF (s : ElectricDipole) (xyz : V3 ℝ) : V3 PyComplex :=
  let rVec := fl xyz - fl s.location
  let r := rVec.norm
  let k := PyComplex.fin s.wavenumber
  let a := ↟(fin s.current * fin s.length / (fin 4 * fin Real.pi * r)) * PyComplex.exp (-ℑ * k * ↟r)
  (fl s.orientation).map (fun c => a * ↟c)

/-- `electric_field`: em/fdem/wholespace.py:190-207. -/
noncomputable def ElectricDipole.electricFieldF (s : ElectricDipole) (xyz : V3 ℝ) : V3 PyComplex :=
  let rVec := fl xyz - fl s.location
  let r := rVec.norm
  let rHat := rVec.map (· / r)
  let k := PyComplex.fin s.wavenumber
  let kr := k * ↟r
  let ikr := ℑ * kr
  let front := ↟((fin s.current * fin s.length) / (fin 4 * fin Real.pi * fin s.sigma * r ^ 3)) * PyComplex.exp (-ikr)
  let d := rHat.dot (fl s.orientation)
  let symmetric := rHat.map (fun c => ↟d * (-kr ^ 2 + ↟(fin 3) * ikr + ↟(fin 3)) * ↟c)
  let oriented := (fl s.orientation).map (fun c => (kr ^ 2 - ikr - ↟(fin 1)) * ↟c)
  (symmetric + oriented).map (fun c => front * c)

/-- `magnetic_field`: em/fdem/wholespace.py:373-387. -/
noncomputable def ElectricDipole.magneticFieldF (s : ElectricDipole) (xyz : V3 ℝ) : V3 PyComplex :=
  let rVec := fl xyz - fl s.location
  let r := rVec.norm
  let rHat := rVec.map (· / r)
  let k := PyComplex.fin s.wavenumber
  let kr := k * ↟r
  let ikr := ℑ * kr
  let front := ↟(fin s.current * fin s.length / (fin 4 * fin Real.pi * r ^ 2)) * (ikr + ↟(fin 1)) * PyComplex.exp (-ikr)
  ((fl s.orientation).cross rHat).map (fun c => front * ↟c)

/-! ## Magnetic dipole -/

/-- `vector_potential`: em/fdem/wholespace.py:551-559. -/
noncomputable def MagneticDipole.vectorPotentialF (s : MagneticDipole) (xyz : V3 ℝ) : V3 PyComplex :=
  let rVec := fl xyz - fl s.location
  let r := rVec.norm
  let k := PyComplex.fin s.wavenumber
  let w := ↟(fin s.omega)
  let f := ℑ * w * ↟(fin s.mu) * ↟(fin s.moment) / ↟(fin 4 * fin Real.pi * r) * PyComplex.exp (-ℑ * k * ↟r)
  (fl s.orientation).map (fun c => f * ↟c)

/-- `electric_field`: em/fdem/wholespace.py:641-655. -/
noncomputable def MagneticDipole.electricFieldF (s : MagneticDipole) (xyz : V3 ℝ) : V3 PyComplex :=
  let rVec := fl xyz - fl s.location
  let r := rVec.norm
  let rHat := rVec.map (· / r)
  let k := PyComplex.fin s.wavenumber
  let w := ↟(fin s.omega)
  let kr := k * ↟r
  let ikr := ℑ * kr
  let front := (ℑ * w * ↟(fin s.mu) * ↟(fin s.moment)) / ↟(fin 4 * fin Real.pi * r ^ 2) * (ikr + ↟(fin 1)) * PyComplex.exp (-ikr)
  (rHat.cross (fl s.orientation)).map (fun c => front * ↟c)

/-- `magnetic_field`: em/fdem/wholespace.py:822-837. -/
noncomputable def MagneticDipole.magneticFieldF (s : MagneticDipole) (xyz : V3 ℝ) : V3 PyComplex :=
  let rVec := fl xyz - fl s.location
  let r := rVec.norm
  let rHat := rVec.map (· / r)
  let k := PyComplex.fin s.wavenumber
  let kr := k * ↟r
  let ikr := ℑ * kr
  let front := ↟(fin s.moment / (fin 4 * fin Real.pi * r ^ 3)) * PyComplex.exp (-ikr)
  let d := rHat.dot (fl s.orientation)
  let symmetric := rHat.map (fun c => ↟d * (-kr ^ 2 + ↟(fin 3) * ikr + ↟(fin 3)) * ↟c)
  let oriented := (fl s.orientation).map (fun c => (kr ^ 2 - ikr - ↟(fin 1)) * ↟c)
  (symmetric + oriented).map (fun c => front * c)

/-! ## Plane wave, skin depth and loop -/

/-- `electric_field`: em/fdem/wholespace.py:1072-1079. -/
noncomputable def PlaneWave.electricFieldF (s : PlaneWave) (xyz : V3 ℝ) : V3 PyComplex :=
  let k := PyComplex.fin s.wavenumber
  let ikz := ℑ * k * ↟(fin xyz.z)
  (fl s.orientation).map (fun c => ↟(fin s.amplitude * c) * PyComplex.exp ikz)

/-- `magnetic_flux_density`: em/fdem/wholespace.py:1270-1287. -/
noncomputable def PlaneWave.magneticFluxDensityF (s : PlaneWave) (xyz : V3 ℝ) : V3 PyComplex :=
  let k := PyComplex.fin s.wavenumber
  let kz := k * ↟(fin xyz.z)
  let ikz := ℑ * kz
  let b := ↟(-fin s.amplitude) * k / ↟(fin s.omega) * PyComplex.exp ikz
  let bDir := (fl s.orientation).cross ⟨fin 0, fin 0, fin (-1)⟩
  bDir.map (fun c => ↟c * b)

/-- `skin_depth`: em/fdem/base.py:127-130, at a frequency from an array. -/
noncomputable def skinDepthF (frequency sigma mu epsilon : ℝ) (quasistatic : Flag) : PyFloat :=
  let w := fin (omega frequency)
  if quasistatic.truthy then PyFloat.sqrt (fin 2 / (w * fin sigma * fin mu))
  else PyFloat.sqrt ((fin mu * fin epsilon / fin 2) * (PyFloat.sqrt (fin 1 + fin sigma ^ 2 / (w * fin epsilon) ^ 2) - fin 1)) / w

/-- `vertical_magnetic_field_horizontal_loop`: em/fdem/simple_functions.py:81-94. -/
noncomputable def loopFieldF (frequency : ℝ) (sigma mu : ℂ) (radius current turns : ℝ) (secondary : Bool) : PyComplex :=
  let w : ℝ := 2 * Real.pi * frequency
  let k := PyComplex.fin (Complex.sqrt (-Complex.I * w * mu * sigma))
  let a := ↟(fin radius)
  let Hz := ↟(-fin current) / (k ^ 2 * a ^ 3) *
    (↟(fin 3) - (↟(fin 3) + PyComplex.fin (3 * Complex.I) * k * a - k ^ 2 * a ^ 2) * PyComplex.exp (-ℑ * k * a))
  let Hz := if secondary then Hz - ↟(fin current / fin 2 / fin radius) else Hz
  ↟(fin turns) * Hz

/-! ## Magnetic dipole on a halfspace -/

/-- The three components of the field: em/fdem/halfspace.py:92-136.  `iv` and `kv` are scipy's Bessel functions of complex argument. -/
noncomputable def halfEmF (iv kv : ℕ → PyComplex → PyComplex) (k : ℂ) (src : V3 ℝ) (x y : ℝ) (field : String) : V3 PyComplex :=
  let r := PyFloat.sqrt (fin x ^ 2 + fin y ^ 2)
  let k := PyComplex.fin k
  let alpha := ℑ * k * ↟r / ↟(fin 2)
  let IK1 := iv 1 alpha * kv 1 alpha
  let IK2 := iv 2 alpha * kv 2 alpha
  let Hr := k ^ 2 / ↟r * (IK1 - IK2)
  let angle := Spatial.arctan2 y x
  let phi := ↟(fin 2) / (k ^ 2 * ↟(r ^ 4)) * (↟(fin 3) + k ^ 2 * ↟(r ^ 2) -
    (↟(fin 3) + PyComplex.fin (3 * Complex.I) * k * ↟r - k ^ 2 * ↟(r ^ 2)) * PyComplex.exp (-ℑ * k * ↟r))
  let dphi := ↟(fin 2) / (k ^ 2 * ↟(r ^ 5)) * (↟(fin (-2)) * k ^ 2 * ↟(r ^ 2) - ↟(fin 12) +
    (-ℑ * k ^ 3 * ↟(r ^ 3) - ↟(fin 5) * k ^ 2 * ↟(r ^ 2) + PyComplex.fin (12 * Complex.I) * k * ↟r + ↟(fin 12)) * PyComplex.exp (-ℑ * k * ↟r))
  let em : V3 PyComplex := ⟨↟(fin 0), ↟(fin 0), ↟(fin 0)⟩
  let em := if src.z ≠ 0 then em + ⟨↟(fin src.z * fin (Real.cos angle)) * Hr, ↟(fin src.z * fin (Real.sin angle)) * Hr,
      ↟(fin src.z * fin 2) / (k ^ 2 * ↟(r ^ 5)) *
        (↟(fin 9) - (↟(fin 9) + ↟(fin 9) * ℑ * k * ↟r - ↟(fin 4) * k ^ 2 * ↟(r ^ 2) - ℑ * k ^ 3 * ↟(r ^ 3)) * PyComplex.exp (-ℑ * k * ↟r))⟩
    else em
  let em := if src.x ≠ 0 ∨ src.y ≠ 0 then
      let em := if src.x ≠ 0 then
          ⟨em.x + ↟(fin src.x * (fin (-1) / r ^ 3)) * (↟(fin y ^ 2) * phi + ↟(fin x ^ 2 * r) * dphi),
           em.y + ↟(fin src.x * (fin 1 / r ^ 3) * fin x * fin y) * (phi - ↟r * dphi),
           em.z - ↟(fin src.x) * (k ^ 2 * ↟(fin x) / ↟(r ^ 2)) * (IK1 - IK2)⟩ else em
      if src.y ≠ 0 then
          ⟨em.x + ↟(fin src.y * (fin 1 / r ^ 3) * fin x * fin y) * (phi - ↟r * dphi),
           em.y + ↟(fin src.y * (fin (-1) / r ^ 3)) * (↟(fin x ^ 2) * phi + ↟(fin y ^ 2 * r) * dphi),
           em.z - ↟(fin src.y) * (k ^ 2 * ↟(fin y) / ↟(r ^ 2)) * (IK1 - IK2)⟩ else em
    else em
  if field = "secondary" then
    let mdotr := fin src.x * fin x + fin src.y * fin y
    em - (⟨fin 3 * fin x * mdotr / r ^ 5 - fin src.x / r ^ 3, fin 3 * fin y * mdotr / r ^ 5 - fin src.y / r ^ 3, -fin src.z / r ^ 3⟩ : V3 PyFloat).map
      (fun c => ↟c)
  else em

/-- `MagneticDipoleHalfSpace.magnetic_field`: em/fdem/halfspace.py:87-138. -/
noncomputable def HalfDipole.magneticFieldF (iv kv : ℕ → PyComplex → PyComplex) (mu0 : ℝ) (s : HalfDipole) (xy : V3 ℝ) (field : String) : V3 PyComplex :=
  let d := xy - s.location
  (halfEmF iv kv (s.k mu0) s.orientation d.x d.y field).map (fun c => ↟(fin s.moment / (fin 4 * fin Real.pi)) * c)

/-! ## Magnetic dipole over layers -/

/-- The coefficients of the two transforms: layered.py:437-462. -/
noncomputable def coefficientsF (src : V3 ℝ) (x y offset lambd : PyFloat) : V3 PyFloat × V3 PyFloat :=
  let C0 : V3 PyFloat := ⟨fin 0, fin 0, fin 0⟩
  let C1 : V3 PyFloat := ⟨fin 0, fin 0, fin 0⟩
  let (C0, C1) := if src.x ≠ 0 then
      ((⟨C0.x + fin src.x * (x ^ 2 / offset ^ 2) * lambd ^ 2, C0.y + fin src.x * (x * y / offset ^ 2) * lambd ^ 2, C0.z⟩ : V3 PyFloat),
       (⟨C1.x + fin src.x * (fin 1 / offset - fin 2 * x ^ 2 / offset ^ 3) * lambd, C1.y - fin src.x * (fin 2 * x * y / offset ^ 3) * lambd,
         C1.z - fin src.x * x / offset * lambd ^ 2⟩ : V3 PyFloat))
    else (C0, C1)
  let (C0, C1) := if src.y ≠ 0 then
      ((⟨C0.x + fin src.y * (x * y / offset ^ 2) * lambd ^ 2, C0.y + fin src.y * (y ^ 2 / offset ^ 2) * lambd ^ 2, C0.z⟩ : V3 PyFloat),
       (⟨C1.x - fin src.y * (fin 2 * x * y / offset ^ 3) * lambd, C1.y + fin src.y * (fin 1 / offset - fin 2 * y ^ 2 / offset ^ 3) * lambd,
         C1.z - fin src.y * y / offset * lambd ^ 2⟩ : V3 PyFloat))
    else (C0, C1)
  if src.z ≠ 0 then
    (⟨C0.x, C0.y, C0.z + fin src.z * lambd ^ 2⟩,
     ⟨C1.x + fin src.z * x / offset * lambd ^ 2, C1.y + fin src.z * y / offset * lambd ^ 2, C1.z⟩)
  else (C0, C1)

/-- `(C*rTE) @ filt`: layered.py:465-467. -/
noncomputable def transformF (filter : List Tap) (f : Tap → PyComplex) : PyComplex := (filter.map f).foldr (· + ·) (PyComplex.fin 0)

/-- `MagneticDipoleLayeredHalfSpace.magnetic_field` at one point: layered.py:402-478.  `reflection` is the result of `rTE_forward` at a wave number
that may be infinite. -/
noncomputable def LayeredDipole.fieldAtF (filter : List Tap) (reflection : PyFloat → PyComplex) (s : LayeredDipole) (xyz : V3 ℝ) (field : String) :
    V3 PyComplex :=
  let h := fin s.location.z
  let d := fl xyz - fl s.location
  let offset := PyFloat.sqrt (d.x ^ 2 + d.y ^ 2)
  let rTE : PyFloat → PyComplex := fun lambd => reflection lambd * ↟(PyFloat.exp (-lambd * (fin xyz.z + h)))
  let src := s.orientation
  let C := fun t : Tap => coefficientsF src d.x d.y offset (fin t.base / offset)
  let em : V3 PyComplex :=
    ⟨(transformF filter (fun t => ↟(C t).1.x * rTE (fin t.base / offset) * ↟(fin t.j0)) +
        transformF filter (fun t => ↟(C t).2.x * rTE (fin t.base / offset) * ↟(fin t.j1))) / ↟offset,
     (transformF filter (fun t => ↟(C t).1.y * rTE (fin t.base / offset) * ↟(fin t.j0)) +
        transformF filter (fun t => ↟(C t).2.y * rTE (fin t.base / offset) * ↟(fin t.j1))) / ↟offset,
     (transformF filter (fun t => ↟(C t).1.z * rTE (fin t.base / offset) * ↟(fin t.j0)) +
        transformF filter (fun t => ↟(C t).2.z * rTE (fin t.base / offset) * ↟(fin t.j1))) / ↟offset⟩
  let em := if field = "total" then
      let r := d.norm
      let mdotr := fin src.x * d.x + fin src.y * d.y + fin src.z * d.z
      em + (⟨fin 3 * d.x * mdotr / r ^ 5 - fin src.x / r ^ 3, fin 3 * d.y * mdotr / r ^ 5 - fin src.y / r ^ 3,
        fin 3 * d.z * mdotr / r ^ 5 - fin src.z / r ^ 3⟩ : V3 PyFloat).map (fun c => ↟c)
    else em
  em.map (fun c => ↟(fin s.moment / (fin 4 * fin Real.pi)) * c)

end Verif.Fdem
