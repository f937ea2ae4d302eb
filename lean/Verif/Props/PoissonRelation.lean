import Verif.Props.SphereInduced
import Verif.Model.Prism
import Verif.Model.StaticWholeSpace
import Verif.Model.StaticHalfspace

/-!
# C130: Poisson's relation between gravity, magnetics and direct currents

The magnetic potential of a body with uniform magnetisation `M` is the attraction of the same body with uniform density `rho` along `M`, over
`4 pi G rho`; the magnetic field is the gradient tensor of gravity applied to `M`, over the same number.
-/

namespace Verif

open Gravity (G PointMass)

theorem G_pos : 0 < G := by unfold G; norm_num

namespace Prism

/-- **C130.** Scalar potential of a magnetised prism and attraction of a prism of any density with the same corners, at every point. -/
theorem MagPrism.poisson_potential (s : MagPrism) {rho : ℝ} (h : rho ≠ 0) (p : V3 ℝ) :
    s.scalarPotential p = s.magnetization.dot ((⟨s.box, rho⟩ : GravPrism).gravitationalField p) / (4 * Real.pi * G * rho) := by
  have hG := G_pos.ne'
  have hpi := Real.pi_ne_zero
  simp only [MagPrism.scalarPotential, GravPrism.gravitationalField, V3.dot]
  generalize s.box.evalDefInt Py.prismFz p 1 = a
  generalize s.box.evalDefInt Py.prismFz p 2 = b
  generalize s.box.evalDefInt Py.prismFz p 0 = c
  generalize G = g at *
  field_simp
  norm_num
  ring

/-- **C130.** Magnetic field of a magnetised prism and gradient tensor of a prism of any density with the same corners, at every point. -/
theorem MagPrism.poisson_field (s : MagPrism) {rho : ℝ} (h : rho ≠ 0) (p : V3 ℝ) :
    s.magneticField p = (1 / (4 * Real.pi * G * rho)) • ((⟨s.box, rho⟩ : GravPrism).gravitationalGradient p).mulVec s.magnetization := by
  have hG := G_pos.ne'
  have hpi := Real.pi_ne_zero
  simp only [MagPrism.magneticField, GravPrism.gravitationalGradient]
  generalize s.box.evalDefInt Py.prismFzz p 1 = xx
  generalize s.box.evalDefInt Py.prismFzx p 1 = xy
  generalize s.box.evalDefInt Py.prismFzx p 0 = xz
  generalize s.box.evalDefInt Py.prismFzz p 2 = yy
  generalize s.box.evalDefInt Py.prismFzy p 0 = yz
  generalize s.box.evalDefInt Py.prismFzz p 0 = zz
  generalize G = g at *
  ext <;> simp only [V3.smul_x, V3.smul_y, V3.smul_z, smul_eq_mul, M3.mulVec, V3.dot] <;> field_simp <;> norm_num <;> ring

end Prism

namespace Static

/-- **C130.** Flux density of a magnetic dipole and gradient tensor of a point mass at the same place. -/
theorem MagDipole.poisson (s : MagDipole) {m : ℝ} (hm : m ≠ 0) (p : V3 ℝ) :
    s.magneticFluxDensity p =
      (s.mu * s.moment / (4 * Real.pi * G * m)) • ((⟨m, s.location⟩ : PointMass).gravitationalGradient p).mulVec s.orientation := by
  have hG := G_pos.ne'
  have hpi := Real.pi_ne_zero
  simp only [MagDipole.magneticFluxDensity, PointMass.gravitationalGradient]
  generalize G = g at *
  by_cases hr : (p - s.location).len = 0
  · ext <;> simp [hr, M3.mulVec, V3.dot]
  generalize (p - s.location).len = r at *
  ext <;> simp only [V3.smul_x, V3.smul_y, V3.smul_z, smul_eq_mul, M3.mulVec, V3.dot, V3.map_x, V3.map_y, V3.map_z] <;> field_simp <;> ring

/-- **C130.** Flux density of a magnetic pole and attraction of a point mass at the same place. -/
theorem MagDipole.pole_poisson (s : MagDipole) {m : ℝ} (hm : m ≠ 0) (p : V3 ℝ) :
    s.poleFluxDensity p = (-(s.mu * s.moment / (4 * Real.pi * G * m))) • (⟨m, s.location⟩ : PointMass).gravitationalField p := by
  have hG := G_pos.ne'
  have hpi := Real.pi_ne_zero
  simp only [MagDipole.poleFluxDensity, PointMass.gravitationalField]
  generalize G = g at *
  ext <;> simp only [V3.smul_x, V3.smul_y, V3.smul_z, smul_eq_mul, V3.map_x, V3.map_y, V3.map_z] <;> field_simp

/-- **C130.** Potential and electric field of a point current and potential and attraction of a point mass at the same place. -/
theorem pointCurrent_poisson (mu0 rho current : ℝ) (location : V3 ℝ) {m : ℝ} (hm : m ≠ 0) (p : V3 ℝ) :
    pointPotential (pointCurrent mu0 rho current location) p =
      .ok (rho * current / (4 * Real.pi * G * m) * (⟨m, location⟩ : PointMass).gravitationalPotential p) ∧
    pointElectricField (pointCurrent mu0 rho current location) p =
      .ok ((-(rho * current / (4 * Real.pi * G * m))) • (⟨m, location⟩ : PointMass).gravitationalField p) := by
  have hG := G_pos.ne'
  have hpi := Real.pi_ne_zero
  constructor
  · refine congrArg Except.ok ?_
    simp only [PointMass.gravitationalPotential]
    generalize G = g at *
    simp only [pointCurrent]
    by_cases hr : (p - location).len = 0
    · simp [hr]
    by_cases hrho : rho = 0
    · simp [hrho]
    field_simp
  · refine congrArg Except.ok ?_
    simp only [PointMass.gravitationalField]
    generalize G = g at *
    simp only [pointCurrent]
    by_cases hrho : rho = 0
    · ext <;> simp [hrho]
    by_cases hr : (p - location).len = 0
    · ext <;> simp [hr]
    generalize (p - location).len = r at *
    ext <;> simp only [V3.smul_x, V3.smul_y, V3.smul_z, smul_eq_mul, V3.map_x, V3.map_y, V3.map_z] <;> field_simp

end Static

namespace Sphere

open Prism

/-- **C130.** Secondary potential of a conducting sphere and attraction of a ball of any density in its place, at every point. -/
theorem Electro.poisson (s : Electro) (hr : 0 < s.radius) (h1 : 0 < s.sigmaSphere) (h0 : 0 < s.sigmaBackground) {rho : ℝ} (h : rho ≠ 0)
    (p : V3 ℝ) :
    s.potentialTotal p - s.potentialPrimary p =
      -((1 / s.sigmaBackground) • (s.currentTotal s.location - s.sigmaBackground • s.fieldTotal s.location)).dot
        ((⟨s.radius, rho, s.location⟩ : Gravity.Sphere).gravitationalField p) / (4 * Real.pi * G * rho) := by
  have hG := G_pos.ne'
  have hpi := Real.pi_ne_zero
  have hd : s.sigmaSphere + 2 * s.sigmaBackground ≠ 0 := by positivity
  have hc : (s.location - s.location).len ≤ s.radius := by rw [sub_self, V3.len_eq_zero.2 rfl]; exact hr.le
  rw [s.excess, if_pos hc]
  simp only [Electro.potentialTotal, Electro.potentialPrimary, Gravity.Sphere.gravitationalField, Gravity.Sphere.toPointMass,
    Gravity.Sphere.mass, PointMass.gravitationalField]
  generalize G = g at *
  by_cases hp : (p - s.location).len > s.radius
  · have hl : (p - s.location).len ≠ 0 := by linarith
    rw [if_pos hp, if_pos hp]
    generalize (p - s.location).len = r at *
    simp only [V3.dot, V3.smul_x, V3.smul_y, V3.smul_z, smul_eq_mul, V3.map_x, V3.map_y, V3.map_z, V3.neg_x, V3.neg_y, V3.neg_z]
    field_simp
    ring
  · rw [if_neg hp, if_neg hp]
    simp only [V3.dot, V3.smul_x, V3.smul_y, V3.smul_z, smul_eq_mul, V3.map_x, V3.map_y, V3.map_z, V3.neg_x, V3.neg_y, V3.neg_z]
    field_simp
    ring

/-- **C130.** The same for the magnetic potential of a permeable sphere. -/
theorem Magneto.poisson (s : Magneto) (hr : 0 < s.radius) (h1 : 0 < s.muSphere) (h0 : 0 < s.muBackground) {rho : ℝ} (h : rho ≠ 0) (p : V3 ℝ) :
    s.potentialTotal p - s.potentialPrimary p =
      -((1 / s.muBackground) • (s.fluxTotal s.location - s.muBackground • s.fieldTotal s.location)).dot
        ((⟨s.radius, rho, s.location⟩ : Gravity.Sphere).gravitationalField p) / (4 * Real.pi * G * rho) :=
  s.toElectro.poisson hr h1 h0 h p

end Sphere

end Verif
