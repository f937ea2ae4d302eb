import Verif.Props.FdemDipoles
import Verif.Props.StaticHalfspace
import Verif.Lemmas.Distance
import Verif.Model.Gravity
import Verif.Model.Tdem

/-!
# C104: exchanging source and receiver

Point-like sources.  The wires are in `Verif.Props.ReciprocityWires`.
-/

namespace Verif

open V3

/-! ## Masses -/

namespace Gravity.PointMass

variable (a b : PointMass)

/-- **C104.** Action and reaction: the forces that two masses exert on each other are opposite. -/
theorem action_reaction : b.mass • a.gravitationalField b.location = -(a.mass • b.gravitationalField a.location) := by
  have h := len_sub_comm b.location a.location
  ext <;> simp only [gravitationalField, smul_x, smul_y, smul_z, neg_x, neg_y, neg_z, map_x, map_y, map_z, h, smul_eq_mul, sub_x, sub_y, sub_z] <;>
    ring

/-- **C104.** The energy of two masses does not depend on which of them is the source. -/
theorem energy_symm : b.mass * a.gravitationalPotential b.location = a.mass * b.gravitationalPotential a.location := by
  simp only [gravitationalPotential, len_sub_comm b.location a.location]
  ring

/-- **C104.** So are the tidal tensors, per unit of mass of the source. -/
theorem tides_symm : b.mass • a.gravitationalGradient b.location = a.mass • b.gravitationalGradient a.location := by
  have h := len_sub_comm b.location a.location
  ext <;> simp only [gravitationalGradient, smul_x, smul_y, smul_z, map_x, map_y, map_z, h, smul_eq_mul, sub_x, sub_y, sub_z] <;> ring

end Gravity.PointMass

/-! ## Static magnetic dipoles -/

namespace Static

/-- **C104.** In one medium the energy of a magnetic dipole in the field of another is that of the other in its field. -/
theorem MagDipole.reciprocal (a b : MagDipole) (hmu : a.mu = b.mu) :
    b.moment * b.orientation.dot (a.magneticFluxDensity b.location) = a.moment * a.orientation.dot (b.magneticFluxDensity a.location) ∧
    b.moment * b.orientation.dot (a.magneticField b.location) = a.moment * a.orientation.dot (b.magneticField a.location) := by
  have h := len_sub_comm b.location a.location
  constructor <;>
    simp only [magneticField, magneticFluxDensity, dot, map_x, map_y, map_z, sub_x, sub_y, sub_z, h, hmu] <;> ring

/-- **C104.** Two poles repel each other with opposite forces. -/
theorem MagDipole.poles_reaction (a b : MagDipole) (hmu : a.mu = b.mu) :
    b.moment • a.poleFluxDensity b.location = -(a.moment • b.poleFluxDensity a.location) ∧
    b.moment • a.poleField b.location = -(a.moment • b.poleField a.location) := by
  have h := len_sub_comm b.location a.location
  constructor <;> ext <;> simp only [poleField, poleFluxDensity, smul_x, smul_y, smul_z, neg_x, neg_y, neg_z, map_x, map_y, map_z, h, smul_eq_mul,
    sub_x, sub_y, sub_z, hmu] <;> ring

/-- **C104.** The potential of a point current at the place of another one, times the current of that one, does not depend on which of the
two is the source. -/
theorem pointCurrent_reciprocal (mu0 rho i j : ℝ) (p q : V3 ℝ) :
    ∃ v w, (pointCurrent mu0 rho i p).scalarPotential q = .ok v ∧ (pointCurrent mu0 rho j q).scalarPotential p = .ok w ∧ j * v = i * w := by
  refine ⟨_, _, rfl, rfl, ?_⟩
  simp only [pointCurrent, len_sub_comm q p]
  ring

end Static

/-! ## Harmonic dipoles -/

namespace Fdem

open Complex (I)

/-- The component of a complex field along a direction, times a strength: what a dipole of that strength and direction picks up. -/
noncomputable def picked (strength : ℝ) (o : V3 ℝ) (f : V3 ℂ) : ℂ := strength * (o.x * f.x + o.y * f.y + o.z * f.z)

/-- **C104.** Two electric dipoles in one medium, at one frequency: the voltage that the one picks up from the other does not depend on
which of them transmits. -/
theorem ElectricDipole.reciprocal (a b : ElectricDipole) (hm : a.toMedium = b.toMedium) :
    picked (b.current * b.length) b.orientation (a.electricField b.location) =
      picked (a.current * a.length) a.orientation (b.electricField a.location) ∧
    picked (b.current * b.length) b.orientation (a.currentDensity b.location) =
      picked (a.current * a.length) a.orientation (b.currentDensity a.location) ∧
    picked (b.current * b.length) b.orientation (a.vectorPotential b.location) =
      picked (a.current * a.length) a.orientation (b.vectorPotential a.location) := by
  have h := len_sub_comm b.location a.location
  refine ⟨?_, ?_, ?_⟩ <;>
    · simp only [picked, currentDensity, electricField, vectorPotential, dot, map_x, map_y, map_z, add_x, add_y, add_z, sub_x, sub_y, sub_z, h, hm]
      push_cast
      ring

/-- **C104.** The same holds of their magnetic fields. -/
theorem ElectricDipole.magnetic_reciprocal (a b : ElectricDipole) (hm : a.toMedium = b.toMedium) :
    picked (b.current * b.length) b.orientation (a.magneticField b.location) =
      picked (a.current * a.length) a.orientation (b.magneticField a.location) := by
  have h := len_sub_comm b.location a.location
  simp only [picked, magneticField, map_x, map_y, map_z, cross_x, cross_y, cross_z, sub_x, sub_y, sub_z, h, hm]
  push_cast
  ring

/-- **C104.** Two magnetic dipoles in one medium, at one frequency. -/
theorem MagneticDipole.reciprocal (a b : MagneticDipole) (hm : a.toMedium = b.toMedium) :
    picked b.moment b.orientation (a.magneticField b.location) = picked a.moment a.orientation (b.magneticField a.location) ∧
    picked b.moment b.orientation (a.magneticFluxDensity b.location) = picked a.moment a.orientation (b.magneticFluxDensity a.location) ∧
    picked b.moment b.orientation (a.vectorPotential b.location) = picked a.moment a.orientation (b.vectorPotential a.location) := by
  have h := len_sub_comm b.location a.location
  refine ⟨?_, ?_, ?_⟩ <;>
    · simp only [picked, magneticFluxDensity, magneticField, vectorPotential, dot, map_x, map_y, map_z, add_x, add_y, add_z, sub_x, sub_y, sub_z, h, hm]
      push_cast
      ring

/-- **C104.** An electric and a magnetic dipole in one medium, at one frequency: what the magnetic dipole picks up of `i w B` of the
electric one is minus what the electric dipole picks up of the electric field of the magnetic one (Lorentz' reciprocity, with the sign of
a magnetic source). -/
theorem mixed_reciprocal (e : ElectricDipole) (m : MagneticDipole) (hm : e.toMedium = m.toMedium) :
    I * m.omega * picked m.moment m.orientation (e.magneticFluxDensity m.location) =
      -picked (e.current * e.length) e.orientation (m.electricField e.location) := by
  have h := len_sub_comm m.location e.location
  simp only [picked, ElectricDipole.magneticFluxDensity, ElectricDipole.magneticField, MagneticDipole.electricField, map_x, map_y, map_z, cross_x,
    cross_y, cross_z, sub_x, sub_y, sub_z, h, hm]
  push_cast
  ring

/-- Non-vacuity: two dipoles of different kinds and directions in one medium that do couple. -/
example : ∃ (e : ElectricDipole) (m : MagneticDipole), e.toMedium = m.toMedium ∧ e.location ≠ m.location ∧
    picked (e.current * e.length) e.orientation (m.electricField e.location) ≠ 0 := by
  refine ⟨⟨⟨1, 1, 1, 1, .bool true⟩, ⟨0, 1, 0⟩, ⟨0, 0, 1⟩, 1, 1⟩, ⟨⟨1, 1, 1, 1, .bool true⟩, ⟨0, 0, 0⟩, ⟨1, 0, 0⟩, 1⟩, rfl, by simp [V3.ext_iff], ?_⟩
  have hlen : ((⟨0, 1, 0⟩ : V3 ℝ) - ⟨0, 0, 0⟩).len = 1 := by simp [V3.len]
  have hq := (wavenumber_quadrant (f := 1) (sigma := 1) (mu := 1) (epsilon := 1) one_pos one_pos one_pos (.bool true)).2
  have hk : I * wavenumber 1 1 1 1 (.bool true) + 1 ≠ 0 := by
    intro h
    have := congrArg Complex.re h
    simp at this
    linarith
  simp [picked, MagneticDipole.electricField, hlen, Complex.exp_ne_zero, Medium.wavenumber, Medium.omega, omega, hk]

end Fdem

/-! ## Transient dipoles -/

namespace Tdem

/-- **C104.** Two electric dipoles switched off at the same time in one medium. -/
theorem ElectricDipole.reciprocal (a b : ElectricDipole) (hm : a.toMedium = b.toMedium) :
    b.current * b.length * b.orientation.dot (a.electricField b.location) =
      a.current * a.length * a.orientation.dot (b.electricField a.location) ∧
    b.current * b.length * b.orientation.dot (a.currentDensity b.location) =
      a.current * a.length * a.orientation.dot (b.currentDensity a.location) ∧
    b.current * b.length * b.orientation.dot (a.vectorPotential b.location) =
      a.current * a.length * a.orientation.dot (b.vectorPotential a.location) := by
  have h := len_sub_comm b.location a.location
  refine ⟨?_, ?_, ?_⟩ <;>
    · simp only [currentDensity, electricField, vectorPotential, dot, map_x, map_y, map_z, sub_x, sub_y, sub_z, h, hm]
      ring

/-- **C104.** The same holds of the magnetic field. -/
theorem ElectricDipole.magnetic_reciprocal (a b : ElectricDipole) (hm : a.toMedium = b.toMedium) :
    b.current * b.length * b.orientation.dot (a.magneticField b.location) =
      a.current * a.length * a.orientation.dot (b.magneticField a.location) := by
  have h := len_sub_comm b.location a.location
  simp only [magneticField, dot, map_x, map_y, map_z, cross_x, cross_y, cross_z, sub_x, sub_y, sub_z, h, hm]
  ring

end Tdem

end Verif
