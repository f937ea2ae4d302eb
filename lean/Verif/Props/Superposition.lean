import Verif.Model.Fdem
import Verif.Model.Tdem
import Mathlib.Tactic.Ring
import Mathlib.Tactic.FieldSimp
import Mathlib.Tactic.LinearCombination

/-!
# C115: fields are linear in the strength and direction of their source
-/

namespace Verif.Fdem

open Complex V3

/-- Current times length, along the orientation. -/
noncomputable def ElectricDipole.momentVector (s : ElectricDipole) : V3 ℝ := (s.current * s.length) • s.orientation

/-- The same medium, frequency and place. -/
def ElectricDipole.Alike (s t : ElectricDipole) : Prop := s.toMedium = t.toMedium ∧ s.location = t.location

/-- **C115.** If the moment of a harmonic electric dipole is a combination of the moments of two dipoles at its place, then each of its
fields is the same combination of theirs. -/
theorem ElectricDipole.superposition {s s1 s2 : ElectricDipole} (h1 : s1.Alike s) (h2 : s2.Alike s) {a b : ℝ}
    (hm : s.momentVector = a • s1.momentVector + b • s2.momentVector) (p : V3 ℝ) :
    s.vectorPotential p = a • s1.vectorPotential p + b • s2.vectorPotential p ∧
    s.electricField p = a • s1.electricField p + b • s2.electricField p ∧
    s.currentDensity p = a • s1.currentDensity p + b • s2.currentDensity p ∧
    s.magneticField p = a • s1.magneticField p + b • s2.magneticField p ∧
    s.magneticFluxDensity p = a • s1.magneticFluxDensity p + b • s2.magneticFluxDensity p := by
  obtain ⟨m, l, o, len, c⟩ := s
  obtain ⟨m1, l1, o1, len1, c1⟩ := s1
  obtain ⟨m2, l2, o2, len2, c2⟩ := s2
  obtain ⟨e1, e2⟩ := h1
  obtain ⟨e3, e4⟩ := h2
  simp only at e1 e2 e3 e4
  subst e1 e2 e3 e4
  have hx : (c * len * o.x : ℂ) = a * (c1 * len1 * o1.x) + b * (c2 * len2 * o2.x) := by
    exact_mod_cast congrArg V3.x hm
  have hy : (c * len * o.y : ℂ) = a * (c1 * len1 * o1.y) + b * (c2 * len2 * o2.y) := by
    exact_mod_cast congrArg V3.y hm
  have hz : (c * len * o.z : ℂ) = a * (c1 * len1 * o1.z) + b * (c2 * len2 * o2.z) := by
    exact_mod_cast congrArg V3.z hm
  have hA : (⟨m2, l2, o, len, c⟩ : ElectricDipole).vectorPotential p =
      a • (⟨m2, l2, o1, len1, c1⟩ : ElectricDipole).vectorPotential p + b • (⟨m2, l2, o2, len2, c2⟩ : ElectricDipole).vectorPotential p := by
    ext
    · simp only [ElectricDipole.vectorPotential, V3.map, V3.add_x, V3.smul_x, Complex.real_smul]
      linear_combination (1 / (4 * Real.pi * ((p - l2).len : ℂ)) * Complex.exp (-I * m2.wavenumber * (p - l2).len)) * hx
    · simp only [ElectricDipole.vectorPotential, V3.map, V3.add_y, V3.smul_y, Complex.real_smul]
      linear_combination (1 / (4 * Real.pi * ((p - l2).len : ℂ)) * Complex.exp (-I * m2.wavenumber * (p - l2).len)) * hy
    · simp only [ElectricDipole.vectorPotential, V3.map, V3.add_z, V3.smul_z, Complex.real_smul]
      linear_combination (1 / (4 * Real.pi * ((p - l2).len : ℂ)) * Complex.exp (-I * m2.wavenumber * (p - l2).len)) * hz
  have hE : (⟨m2, l2, o, len, c⟩ : ElectricDipole).electricField p =
      a • (⟨m2, l2, o1, len1, c1⟩ : ElectricDipole).electricField p + b • (⟨m2, l2, o2, len2, c2⟩ : ElectricDipole).electricField p := by
    simp only [ElectricDipole.electricField, V3.map, V3.dot]
    generalize (p - l2).len = r
    generalize p - l2 = v
    generalize Complex.exp (-(I * (m2.wavenumber * ↑r))) = e
    generalize m2.wavenumber = k
    push_cast
    ext <;> simp only [V3.add_x, V3.add_y, V3.add_z, V3.smul_x, V3.smul_y, V3.smul_z, Complex.real_smul]
    · linear_combination (e / (4 * Real.pi * m2.sigma * r ^ 3)) * (((k * r) ^ 2 - I * (k * r) - 1) * hx + (-(k * r) ^ 2 + 3 * (I * (k * r)) + 3) * (v.x / r) * (v.x / r * hx + v.y / r * hy + v.z / r * hz))
    · linear_combination (e / (4 * Real.pi * m2.sigma * r ^ 3)) * (((k * r) ^ 2 - I * (k * r) - 1) * hy + (-(k * r) ^ 2 + 3 * (I * (k * r)) + 3) * (v.y / r) * (v.x / r * hx + v.y / r * hy + v.z / r * hz))
    · linear_combination (e / (4 * Real.pi * m2.sigma * r ^ 3)) * (((k * r) ^ 2 - I * (k * r) - 1) * hz + (-(k * r) ^ 2 + 3 * (I * (k * r)) + 3) * (v.z / r) * (v.x / r * hx + v.y / r * hy + v.z / r * hz))
  have hH : (⟨m2, l2, o, len, c⟩ : ElectricDipole).magneticField p =
      a • (⟨m2, l2, o1, len1, c1⟩ : ElectricDipole).magneticField p + b • (⟨m2, l2, o2, len2, c2⟩ : ElectricDipole).magneticField p := by
    simp only [ElectricDipole.magneticField, V3.map, V3.cross]
    generalize (p - l2).len = r
    generalize p - l2 = v
    generalize Complex.exp (-(I * (m2.wavenumber * ↑r))) = e
    generalize m2.wavenumber = k
    push_cast
    ext <;> simp only [V3.add_x, V3.add_y, V3.add_z, V3.smul_x, V3.smul_y, V3.smul_z, Complex.real_smul]
    · linear_combination (e / (4 * Real.pi * r ^ 2)) * (I * (k * r) + 1) * (v.z / r * hy - v.y / r * hz)
    · linear_combination (e / (4 * Real.pi * r ^ 2)) * (I * (k * r) + 1) * (v.x / r * hz - v.z / r * hx)
    · linear_combination (e / (4 * Real.pi * r ^ 2)) * (I * (k * r) + 1) * (v.y / r * hx - v.x / r * hy)
  refine ⟨hA, hE, ?_, hH, ?_⟩
  · unfold ElectricDipole.currentDensity
    rw [hE]
    ext <;> simp only [V3.map, V3.add_x, V3.add_y, V3.add_z, V3.smul_x, V3.smul_y, V3.smul_z, Complex.real_smul] <;> ring
  · unfold ElectricDipole.magneticFluxDensity
    rw [hH]
    ext <;> simp only [V3.map, V3.add_x, V3.add_y, V3.add_z, V3.smul_x, V3.smul_y, V3.smul_z, Complex.real_smul] <;> ring

/-- Moment along the orientation. -/
noncomputable def MagneticDipole.momentVector (s : MagneticDipole) : V3 ℝ := s.moment • s.orientation

/-- The same medium, frequency and place. -/
def MagneticDipole.Alike (s t : MagneticDipole) : Prop := s.toMedium = t.toMedium ∧ s.location = t.location

/-- **C115.** The same for a harmonic magnetic dipole. -/
theorem MagneticDipole.superposition {s s1 s2 : MagneticDipole} (h1 : s1.Alike s) (h2 : s2.Alike s) {a b : ℝ}
    (hm : s.momentVector = a • s1.momentVector + b • s2.momentVector) (p : V3 ℝ) :
    s.vectorPotential p = a • s1.vectorPotential p + b • s2.vectorPotential p ∧
    s.electricField p = a • s1.electricField p + b • s2.electricField p ∧
    s.currentDensity p = a • s1.currentDensity p + b • s2.currentDensity p ∧
    s.magneticField p = a • s1.magneticField p + b • s2.magneticField p ∧
    s.magneticFluxDensity p = a • s1.magneticFluxDensity p + b • s2.magneticFluxDensity p := by
  obtain ⟨m, l, o, c⟩ := s
  obtain ⟨m1, l1, o1, c1⟩ := s1
  obtain ⟨m2, l2, o2, c2⟩ := s2
  obtain ⟨e1, e2⟩ := h1
  obtain ⟨e3, e4⟩ := h2
  simp only at e1 e2 e3 e4
  subst e1 e2 e3 e4
  have hx : (c * o.x : ℂ) = a * (c1 * o1.x) + b * (c2 * o2.x) := by
    exact_mod_cast congrArg V3.x hm
  have hy : (c * o.y : ℂ) = a * (c1 * o1.y) + b * (c2 * o2.y) := by
    exact_mod_cast congrArg V3.y hm
  have hz : (c * o.z : ℂ) = a * (c1 * o1.z) + b * (c2 * o2.z) := by
    exact_mod_cast congrArg V3.z hm
  have hA : (⟨m2, l2, o, c⟩ : MagneticDipole).vectorPotential p =
      a • (⟨m2, l2, o1, c1⟩ : MagneticDipole).vectorPotential p + b • (⟨m2, l2, o2, c2⟩ : MagneticDipole).vectorPotential p := by
    simp only [MagneticDipole.vectorPotential, V3.map]
    generalize (p - l2).len = r
    generalize Complex.exp (-I * m2.wavenumber * ↑r) = e
    ext <;> simp only [V3.add_x, V3.add_y, V3.add_z, V3.smul_x, V3.smul_y, V3.smul_z, Complex.real_smul]
    · linear_combination (I * m2.omega * m2.mu / (4 * Real.pi * r) * e) * hx
    · linear_combination (I * m2.omega * m2.mu / (4 * Real.pi * r) * e) * hy
    · linear_combination (I * m2.omega * m2.mu / (4 * Real.pi * r) * e) * hz
  have hH : (⟨m2, l2, o, c⟩ : MagneticDipole).magneticField p =
      a • (⟨m2, l2, o1, c1⟩ : MagneticDipole).magneticField p + b • (⟨m2, l2, o2, c2⟩ : MagneticDipole).magneticField p := by
    simp only [MagneticDipole.magneticField, V3.map, V3.dot]
    generalize (p - l2).len = r
    generalize p - l2 = v
    generalize Complex.exp (-(I * (m2.wavenumber * ↑r))) = e
    generalize m2.wavenumber = k
    push_cast
    ext <;> simp only [V3.add_x, V3.add_y, V3.add_z, V3.smul_x, V3.smul_y, V3.smul_z, Complex.real_smul]
    · linear_combination (e / (4 * Real.pi * r ^ 3)) * (((k * r) ^ 2 - I * (k * r) - 1) * hx + (-(k * r) ^ 2 + 3 * (I * (k * r)) + 3) * (v.x / r) * (v.x / r * hx + v.y / r * hy + v.z / r * hz))
    · linear_combination (e / (4 * Real.pi * r ^ 3)) * (((k * r) ^ 2 - I * (k * r) - 1) * hy + (-(k * r) ^ 2 + 3 * (I * (k * r)) + 3) * (v.y / r) * (v.x / r * hx + v.y / r * hy + v.z / r * hz))
    · linear_combination (e / (4 * Real.pi * r ^ 3)) * (((k * r) ^ 2 - I * (k * r) - 1) * hz + (-(k * r) ^ 2 + 3 * (I * (k * r)) + 3) * (v.z / r) * (v.x / r * hx + v.y / r * hy + v.z / r * hz))
  have hE : (⟨m2, l2, o, c⟩ : MagneticDipole).electricField p =
      a • (⟨m2, l2, o1, c1⟩ : MagneticDipole).electricField p + b • (⟨m2, l2, o2, c2⟩ : MagneticDipole).electricField p := by
    simp only [MagneticDipole.electricField, V3.map, V3.cross]
    generalize (p - l2).len = r
    generalize p - l2 = v
    generalize Complex.exp (-(I * (m2.wavenumber * ↑r))) = e
    generalize m2.wavenumber = k
    push_cast
    ext <;> simp only [V3.add_x, V3.add_y, V3.add_z, V3.smul_x, V3.smul_y, V3.smul_z, Complex.real_smul]
    · linear_combination (I * m2.omega * m2.mu * e / (4 * Real.pi * r ^ 2)) * (I * (k * r) + 1) * (v.y / r * hz - v.z / r * hy)
    · linear_combination (I * m2.omega * m2.mu * e / (4 * Real.pi * r ^ 2)) * (I * (k * r) + 1) * (v.z / r * hx - v.x / r * hz)
    · linear_combination (I * m2.omega * m2.mu * e / (4 * Real.pi * r ^ 2)) * (I * (k * r) + 1) * (v.x / r * hy - v.y / r * hx)
  refine ⟨hA, hE, ?_, hH, ?_⟩
  · unfold MagneticDipole.currentDensity
    rw [hE]
    ext <;> simp only [V3.map, V3.add_x, V3.add_y, V3.add_z, V3.smul_x, V3.smul_y, V3.smul_z, Complex.real_smul] <;> ring
  · unfold MagneticDipole.magneticFluxDensity
    rw [hH]
    ext <;> simp only [V3.map, V3.add_x, V3.add_y, V3.add_z, V3.smul_x, V3.smul_y, V3.smul_z, Complex.real_smul] <;> ring

/-- **C115.** A harmonic plane wave is linear in its amplitude and direction. -/
theorem PlaneWave.superposition {s s1 s2 : PlaneWave} (h1 : s1.toMedium = s.toMedium) (h2 : s2.toMedium = s.toMedium) {a b : ℝ}
    (hm : s.amplitude • s.orientation = a • (s1.amplitude • s1.orientation) + b • (s2.amplitude • s2.orientation)) (p : V3 ℝ) :
    s.electricField p = a • s1.electricField p + b • s2.electricField p ∧
    s.currentDensity p = a • s1.currentDensity p + b • s2.currentDensity p ∧
    s.magneticFluxDensity p = a • s1.magneticFluxDensity p + b • s2.magneticFluxDensity p ∧
    s.magneticField p = a • s1.magneticField p + b • s2.magneticField p := by
  obtain ⟨m, c, o⟩ := s
  obtain ⟨m1, c1, o1⟩ := s1
  obtain ⟨m2, c2, o2⟩ := s2
  simp only at h1 h2
  subst h1 h2
  have hx : (c * o.x : ℂ) = a * (c1 * o1.x) + b * (c2 * o2.x) := by
    exact_mod_cast congrArg V3.x hm
  have hy : (c * o.y : ℂ) = a * (c1 * o1.y) + b * (c2 * o2.y) := by
    exact_mod_cast congrArg V3.y hm
  have hz : (c * o.z : ℂ) = a * (c1 * o1.z) + b * (c2 * o2.z) := by
    exact_mod_cast congrArg V3.z hm
  have hE : (⟨m2, c, o⟩ : PlaneWave).electricField p =
      a • (⟨m2, c1, o1⟩ : PlaneWave).electricField p + b • (⟨m2, c2, o2⟩ : PlaneWave).electricField p := by
    simp only [PlaneWave.electricField, V3.map]
    generalize Complex.exp (I * m2.wavenumber * ↑p.z) = e
    ext <;> simp only [V3.add_x, V3.add_y, V3.add_z, V3.smul_x, V3.smul_y, V3.smul_z, Complex.real_smul]
    · linear_combination e * hx
    · linear_combination e * hy
    · linear_combination e * hz
  have hB : (⟨m2, c, o⟩ : PlaneWave).magneticFluxDensity p =
      a • (⟨m2, c1, o1⟩ : PlaneWave).magneticFluxDensity p + b • (⟨m2, c2, o2⟩ : PlaneWave).magneticFluxDensity p := by
    simp only [PlaneWave.magneticFluxDensity, V3.map, V3.cross]
    generalize Complex.exp (I * (m2.wavenumber * ↑p.z)) = e
    push_cast
    ext <;> simp only [V3.add_x, V3.add_y, V3.add_z, V3.smul_x, V3.smul_y, V3.smul_z, Complex.real_smul]
    · linear_combination (m2.wavenumber / m2.omega * e) * hy
    · linear_combination -(m2.wavenumber / m2.omega * e) * hx
    · ring
  refine ⟨hE, ?_, hB, ?_⟩
  · unfold PlaneWave.currentDensity
    rw [hE]
    ext <;> simp only [V3.map, V3.add_x, V3.add_y, V3.add_z, V3.smul_x, V3.smul_y, V3.smul_z, Complex.real_smul] <;> ring
  · unfold PlaneWave.magneticField
    rw [hB]
    ext <;> simp only [V3.map, V3.add_x, V3.add_y, V3.add_z, V3.smul_x, V3.smul_y, V3.smul_z, Complex.real_smul] <;> ring

end Verif.Fdem

namespace Verif.Tdem

open V3

/-- Current times length, along the orientation. -/
noncomputable def ElectricDipole.momentVector (s : ElectricDipole) : V3 ℝ := (s.current * s.length) • s.orientation

/-- The same medium, time and place. -/
def ElectricDipole.Alike (s t : ElectricDipole) : Prop := s.toMedium = t.toMedium ∧ s.location = t.location

/-- **C115.** The same for a transient electric dipole. -/
theorem ElectricDipole.superposition {s s1 s2 : ElectricDipole} (h1 : s1.Alike s) (h2 : s2.Alike s) {a b : ℝ}
    (hm : s.momentVector = a • s1.momentVector + b • s2.momentVector) (p : V3 ℝ) :
    s.vectorPotential p = a • s1.vectorPotential p + b • s2.vectorPotential p ∧
    s.electricField p = a • s1.electricField p + b • s2.electricField p ∧
    s.currentDensity p = a • s1.currentDensity p + b • s2.currentDensity p ∧
    s.magneticField p = a • s1.magneticField p + b • s2.magneticField p ∧
    s.magneticFieldTimeDeriv p = a • s1.magneticFieldTimeDeriv p + b • s2.magneticFieldTimeDeriv p ∧
    s.magneticFluxDensity p = a • s1.magneticFluxDensity p + b • s2.magneticFluxDensity p ∧
    s.magneticFluxDensityTimeDeriv p = a • s1.magneticFluxDensityTimeDeriv p + b • s2.magneticFluxDensityTimeDeriv p := by
  obtain ⟨m, l, o, len, c⟩ := s
  obtain ⟨m1, l1, o1, len1, c1⟩ := s1
  obtain ⟨m2, l2, o2, len2, c2⟩ := s2
  obtain ⟨e1, e2⟩ := h1
  obtain ⟨e3, e4⟩ := h2
  simp only at e1 e2 e3 e4
  subst e1 e2 e3 e4
  have hx : c * len * o.x = a * (c1 * len1 * o1.x) + b * (c2 * len2 * o2.x) := congrArg V3.x hm
  have hy : c * len * o.y = a * (c1 * len1 * o1.y) + b * (c2 * len2 * o2.y) := congrArg V3.y hm
  have hz : c * len * o.z = a * (c1 * len1 * o1.z) + b * (c2 * len2 * o2.z) := congrArg V3.z hm
  have hA : (⟨m2, l2, o, len, c⟩ : ElectricDipole).vectorPotential p =
      a • (⟨m2, l2, o1, len1, c1⟩ : ElectricDipole).vectorPotential p + b • (⟨m2, l2, o2, len2, c2⟩ : ElectricDipole).vectorPotential p := by
    simp only [ElectricDipole.vectorPotential, V3.map]
    generalize (p - l2).len = r
    generalize erf (m2.theta * r) = e
    ext <;> simp only [V3.add_x, V3.add_y, V3.add_z, V3.smul_x, V3.smul_y, V3.smul_z, smul_eq_mul]
    · linear_combination (1 / (4 * Real.pi * r) * e) * hx
    · linear_combination (1 / (4 * Real.pi * r) * e) * hy
    · linear_combination (1 / (4 * Real.pi * r) * e) * hz
  have hE : (⟨m2, l2, o, len, c⟩ : ElectricDipole).electricField p =
      a • (⟨m2, l2, o1, len1, c1⟩ : ElectricDipole).electricField p + b • (⟨m2, l2, o2, len2, c2⟩ : ElectricDipole).electricField p := by
    simp only [ElectricDipole.electricField, V3.map, V3.dot]
    generalize (p - l2).len = r
    generalize p - l2 = v
    generalize 3 * erf (m2.theta * r) - (4 * (m2.theta * r) ^ 2 + 6) * (m2.theta * r / √Real.pi * Real.exp (-(m2.theta * r) ^ 2)) = S
    generalize erf (m2.theta * r) - (4 * (m2.theta * r) ^ 2 + 2) * (m2.theta * r / √Real.pi * Real.exp (-(m2.theta * r) ^ 2)) = O
    ext <;> simp only [V3.add_x, V3.add_y, V3.add_z, V3.sub_x, V3.sub_y, V3.sub_z, V3.smul_x, V3.smul_y, V3.smul_z, smul_eq_mul]
    · linear_combination (1 / (4 * Real.pi * m2.sigma * r ^ 3)) * (S * (v.x / r) * (v.x / r * hx + v.y / r * hy + v.z / r * hz) - O * hx)
    · linear_combination (1 / (4 * Real.pi * m2.sigma * r ^ 3)) * (S * (v.y / r) * (v.x / r * hx + v.y / r * hy + v.z / r * hz) - O * hy)
    · linear_combination (1 / (4 * Real.pi * m2.sigma * r ^ 3)) * (S * (v.z / r) * (v.x / r * hx + v.y / r * hy + v.z / r * hz) - O * hz)
  have hH : (⟨m2, l2, o, len, c⟩ : ElectricDipole).magneticField p =
      a • (⟨m2, l2, o1, len1, c1⟩ : ElectricDipole).magneticField p + b • (⟨m2, l2, o2, len2, c2⟩ : ElectricDipole).magneticField p := by
    simp only [ElectricDipole.magneticField, V3.map, V3.cross]
    generalize (p - l2).len = r
    generalize p - l2 = v
    generalize erf (m2.theta * r) - 2 / √Real.pi * (m2.theta * r) * Real.exp (-(m2.theta * r) ^ 2) = T
    ext <;> simp only [V3.add_x, V3.add_y, V3.add_z, V3.smul_x, V3.smul_y, V3.smul_z, smul_eq_mul]
    · linear_combination (T / (4 * Real.pi * r ^ 2)) * (v.z / r * hy - v.y / r * hz)
    · linear_combination (T / (4 * Real.pi * r ^ 2)) * (v.x / r * hz - v.z / r * hx)
    · linear_combination (T / (4 * Real.pi * r ^ 2)) * (v.y / r * hx - v.x / r * hy)
  have hD : (⟨m2, l2, o, len, c⟩ : ElectricDipole).magneticFieldTimeDeriv p =
      a • (⟨m2, l2, o1, len1, c1⟩ : ElectricDipole).magneticFieldTimeDeriv p + b • (⟨m2, l2, o2, len2, c2⟩ : ElectricDipole).magneticFieldTimeDeriv p := by
    simp only [ElectricDipole.magneticFieldTimeDeriv, V3.map, V3.cross]
    generalize (p - l2).len = r
    generalize p - l2 = v
    generalize -2 * (m2.theta * r) ^ 3 / (√Real.pi * m2.time) * Real.exp (-(m2.theta * r) ^ 2) = T
    ext <;> simp only [V3.add_x, V3.add_y, V3.add_z, V3.smul_x, V3.smul_y, V3.smul_z, smul_eq_mul]
    · linear_combination (T / (4 * Real.pi * r ^ 2)) * (v.z / r * hy - v.y / r * hz)
    · linear_combination (T / (4 * Real.pi * r ^ 2)) * (v.x / r * hz - v.z / r * hx)
    · linear_combination (T / (4 * Real.pi * r ^ 2)) * (v.y / r * hx - v.x / r * hy)
  refine ⟨hA, hE, ?_, hH, hD, ?_, ?_⟩
  · unfold ElectricDipole.currentDensity
    rw [hE]
    ext <;> simp only [V3.map, V3.add_x, V3.add_y, V3.add_z, V3.smul_x, V3.smul_y, V3.smul_z, smul_eq_mul] <;> ring
  · unfold ElectricDipole.magneticFluxDensity
    rw [hH]
    ext <;> simp only [V3.map, V3.add_x, V3.add_y, V3.add_z, V3.smul_x, V3.smul_y, V3.smul_z, smul_eq_mul] <;> ring
  · unfold ElectricDipole.magneticFluxDensityTimeDeriv
    rw [hD]
    ext <;> simp only [V3.map, V3.add_x, V3.add_y, V3.add_z, V3.smul_x, V3.smul_y, V3.smul_z, smul_eq_mul] <;> ring

/-- **C115.** A transient plane wave is linear in its amplitude and direction. -/
theorem PlaneWave.superposition {s s1 s2 : PlaneWave} (h1 : s1.toMedium = s.toMedium) (h2 : s2.toMedium = s.toMedium) {a b : ℝ}
    (hm : s.amplitude • s.orientation = a • (s1.amplitude • s1.orientation) + b • (s2.amplitude • s2.orientation)) (p : V3 ℝ) :
    s.electricField p = a • s1.electricField p + b • s2.electricField p ∧
    s.currentDensity p = a • s1.currentDensity p + b • s2.currentDensity p ∧
    s.magneticFluxDensity p = a • s1.magneticFluxDensity p + b • s2.magneticFluxDensity p ∧
    s.magneticField p = a • s1.magneticField p + b • s2.magneticField p := by
  obtain ⟨m, c, o⟩ := s
  obtain ⟨m1, c1, o1⟩ := s1
  obtain ⟨m2, c2, o2⟩ := s2
  simp only at h1 h2
  subst h1 h2
  have hx : c * o.x = a * (c1 * o1.x) + b * (c2 * o2.x) := congrArg V3.x hm
  have hy : c * o.y = a * (c1 * o1.y) + b * (c2 * o2.y) := congrArg V3.y hm
  have hz : c * o.z = a * (c1 * o1.z) + b * (c2 * o2.z) := congrArg V3.z hm
  have hE : (⟨m2, c, o⟩ : PlaneWave).electricField p =
      a • (⟨m2, c1, o1⟩ : PlaneWave).electricField p + b • (⟨m2, c2, o2⟩ : PlaneWave).electricField p := by
    simp only [PlaneWave.electricField, V3.map]
    generalize Real.exp (-(m2.mu * m2.sigma * p.z ^ 2) / (4 * m2.time)) = e
    generalize (m2.mu * m2.sigma) ^ (0.5 : ℝ) = f
    generalize 2 * Real.pi ^ (0.5 : ℝ) * m2.time ^ (1.5 : ℝ) = g
    ext <;> simp only [V3.add_x, V3.add_y, V3.add_z, V3.smul_x, V3.smul_y, V3.smul_z, smul_eq_mul]
    · linear_combination -(f * p.z * e / g) * hx
    · linear_combination -(f * p.z * e / g) * hy
    · linear_combination -(f * p.z * e / g) * hz
  have hB : (⟨m2, c, o⟩ : PlaneWave).magneticFluxDensity p =
      a • (⟨m2, c1, o1⟩ : PlaneWave).magneticFluxDensity p + b • (⟨m2, c2, o2⟩ : PlaneWave).magneticFluxDensity p := by
    simp only [PlaneWave.magneticFluxDensity, V3.map, V3.cross]
    generalize Real.exp (-m2.mu * m2.sigma * p.z ^ 2 / (4 * m2.time)) = e
    generalize √(m2.sigma * m2.mu / (Real.pi * m2.time)) = f
    ext <;> simp only [V3.add_x, V3.add_y, V3.add_z, V3.smul_x, V3.smul_y, V3.smul_z, smul_eq_mul]
    · linear_combination (f * e) * hy
    · linear_combination -(f * e) * hx
    · ring
  refine ⟨hE, ?_, hB, ?_⟩
  · unfold PlaneWave.currentDensity
    rw [hE]
    ext <;> simp only [V3.map, V3.add_x, V3.add_y, V3.add_z, V3.smul_x, V3.smul_y, V3.smul_z, smul_eq_mul] <;> ring
  · unfold PlaneWave.magneticField
    rw [hB]
    ext <;> simp only [V3.map, V3.add_x, V3.add_y, V3.add_z, V3.smul_x, V3.smul_y, V3.smul_z, smul_eq_mul] <;> ring

end Verif.Tdem

/-- A dipole of moment 5 in the plane is 3 times one along x and 2 times one along y of length 2. -/
example (m : Verif.Fdem.Medium) (p : Verif.V3 ℝ) :
    (⟨m, 0, ⟨3 / 5, 4 / 5, 0⟩, 1, 5⟩ : Verif.Fdem.ElectricDipole).electricField p =
      (3 : ℝ) • (⟨m, 0, ⟨1, 0, 0⟩, 1, 1⟩ : Verif.Fdem.ElectricDipole).electricField p +
      (2 : ℝ) • (⟨m, 0, ⟨0, 1, 0⟩, 2, 1⟩ : Verif.Fdem.ElectricDipole).electricField p := by
  refine (Verif.Fdem.ElectricDipole.superposition (s := ⟨m, 0, ⟨3 / 5, 4 / 5, 0⟩, 1, 5⟩)
    (s1 := ⟨m, 0, ⟨1, 0, 0⟩, 1, 1⟩) (s2 := ⟨m, 0, ⟨0, 1, 0⟩, 2, 1⟩) (a := 3) (b := 2)
    ⟨rfl, rfl⟩ ⟨rfl, rfl⟩ ?_ p).2.1
  ext <;> simp [Verif.Fdem.ElectricDipole.momentVector] <;> norm_num
