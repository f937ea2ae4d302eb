import Verif.Model.Fdem
import Verif.Model.Tdem
import Verif.Model.StaticWholeSpace
import Verif.Model.StaticHalfspace
import Verif.Model.StaticSphere
import Verif.Model.Prism
import Verif.Model.CircularLoop

/-! # Flux and field, current density and electric field go together in every class that offers both (C60)

The classes with a Python error branch are compared with `Except.map`: the two methods raise on the same inputs. -/

namespace Verif.Wrappers

private theorem map_div {m : ℝ} (h : m ≠ 0) (v : V3 ℝ) : v = m • v.map (· / m) := by
  ext <;> simp only [V3.smul_x, V3.smul_y, V3.smul_z, smul_eq_mul, V3.map_x, V3.map_y, V3.map_z] <;> field_simp

private theorem map_divC {m : ℝ} (h : m ≠ 0) (v : V3 ℂ) : v = (m : ℂ) • v.map (· / (m : ℂ)) := by
  have h' : (m : ℂ) ≠ 0 := by exact_mod_cast h
  ext <;> simp only [V3.smul_x, V3.smul_y, V3.smul_z, smul_eq_mul, V3.map_x, V3.map_y, V3.map_z] <;> field_simp

/-- **C60.** Harmonic sources. -/
theorem fdem_electricDipole (s : Fdem.ElectricDipole) (p : V3 ℝ) :
    s.magneticFluxDensity p = (s.mu : ℂ) • s.magneticField p ∧ s.currentDensity p = (s.sigma : ℂ) • s.electricField p := ⟨rfl, rfl⟩

theorem fdem_magneticDipole (s : Fdem.MagneticDipole) (p : V3 ℝ) :
    s.magneticFluxDensity p = (s.mu : ℂ) • s.magneticField p ∧ s.currentDensity p = (s.sigma : ℂ) • s.electricField p := ⟨rfl, rfl⟩

theorem fdem_planeWave (s : Fdem.PlaneWave) (hmu : s.mu ≠ 0) (p : V3 ℝ) :
    s.magneticFluxDensity p = (s.mu : ℂ) • s.magneticField p ∧ s.currentDensity p = (s.sigma : ℂ) • s.electricField p :=
  ⟨map_divC hmu _, rfl⟩

/-- **C60.** Transient sources. -/
theorem tdem_electricDipole (s : Tdem.ElectricDipole) (p : V3 ℝ) :
    s.magneticFluxDensity p = s.mu • s.magneticField p ∧ s.currentDensity p = s.sigma • s.electricField p ∧
    s.magneticFluxDensityTimeDeriv p = s.mu • s.magneticFieldTimeDeriv p := ⟨rfl, rfl, rfl⟩

theorem tdem_planeWave (s : Tdem.PlaneWave) (hmu : s.mu ≠ 0) (p : V3 ℝ) :
    s.magneticFluxDensity p = s.mu • s.magneticField p ∧ s.currentDensity p = s.sigma • s.electricField p := ⟨map_div hmu _, rfl⟩

/-- **C60.** Static dipole and pole. -/
theorem static_dipole (s : Static.MagDipole) (hmu : s.mu ≠ 0) (p : V3 ℝ) :
    s.magneticFluxDensity p = s.mu • s.magneticField p ∧ s.poleFluxDensity p = s.mu • s.poleField p :=
  ⟨map_div hmu _, map_div hmu _⟩

/-- **C60.** Line currents of any number of nodes. -/
theorem static_line (s : Static.LineCurrent) (hmu : s.mu ≠ 0) (p : V3 ℝ) :
    s.magneticFluxDensity p = (s.magneticField p).map (s.mu • ·) ∧ s.currentDensity p = (s.electricField p).map (s.sigma • ·) := by
  constructor
  · simp only [Static.LineCurrent.magneticField]
    cases s.magneticFluxDensity p with
    | error e => rfl
    | ok b => exact congrArg Except.ok (map_div hmu b)
  · simp only [Static.LineCurrent.currentDensity]
    cases s.electricField p <;> rfl

/-- **C60.** Current loop, in either coordinate system. -/
theorem static_loop (s : Static.Loop) (hmu : s.mu ≠ 0) (coordinates : String) (p : V3 ℝ) :
    s.magneticFluxDensityIn coordinates p = (s.magneticFieldIn coordinates p).map (Option.map (s.mu • ·)) := by
  simp only [Static.Loop.magneticFieldIn]
  cases s.magneticFluxDensityIn coordinates p with
  | error e => rfl
  | ok b =>
    cases b with
    | none => rfl
    | some v => exact congrArg (Except.ok ∘ some) (map_div hmu v)

/-- **C60.** Point and dipole currents in a halfspace. -/
theorem static_halfspace (s : Static.PointHalf) (d : Static.DipoleHalf) (p : V3 ℝ) (n : Option (V3 ℝ)) :
    s.currentDensity p = (s.electricField p).map ((1 / s.rho) • ·) ∧
    d.currentDensity p n = (d.electricField p n).map ((1 / d.rho) • ·) := by
  have key : ∀ (r : ℝ) (e : V3 ℝ), e.map (· / r) = (1 / r) • e := fun r e => by
    ext <;> simp only [V3.smul_x, V3.smul_y, V3.smul_z, smul_eq_mul, V3.map_x, V3.map_y, V3.map_z] <;> ring
  constructor
  · simp only [Static.PointHalf.currentDensity]
    cases s.electricField p with
    | error e => rfl
    | ok e => exact congrArg Except.ok (key _ e)
  · simp only [Static.DipoleHalf.currentDensity]
    cases d.electricField p n with
    | error e => rfl
    | ok e => exact congrArg Except.ok (key _ e)

open Classical in
/-- **C60.** Magnetized prism: `B = mu0 (H + M)` with the magnetization counted inside the closed box. -/
theorem magnetic_prism (s : Prism.MagPrism) (p : V3 ℝ) :
    s.magneticFluxDensity p = Prism.mu0 • (s.magneticField p +
      if (s.box.min.x ≤ p.x ∧ p.x ≤ s.box.max.x) ∧ (s.box.min.y ≤ p.y ∧ p.y ≤ s.box.max.y) ∧ (s.box.min.z ≤ p.z ∧ p.z ≤ s.box.max.z)
      then s.magnetization else 0) := by
  simp only [Prism.MagPrism.magneticFluxDensity, Prism.MagPrism.isInside, ge_iff_le]
  by_cases h : (s.box.min.x ≤ p.x ∧ p.x ≤ s.box.max.x) ∧ (s.box.min.y ≤ p.y ∧ p.y ≤ s.box.max.y) ∧ (s.box.min.z ≤ p.z ∧ p.z ≤ s.box.max.z)
  · rw [if_pos h, if_pos ⟨⟨h.1.1, h.2.1.1, h.2.2.1⟩, h.1.2, h.2.1.2, h.2.2.2⟩]; rfl
  · rw [if_neg h, if_neg fun g => h ⟨⟨g.1.1, g.2.1⟩, ⟨g.1.2.1, g.2.2.1⟩, g.1.2.2, g.2.2.2⟩, add_zero]; rfl

open Classical in
/-- **C60.** Spheres: the total current density (flux) is the field times the property of the medium the point is in, and the primary
one is the primary field times the property of the background. -/
theorem spheres (s : Sphere.Electro) (m : Sphere.Magneto) (p : V3 ℝ) :
    s.currentTotal p = (if (p - s.location).len ≤ s.radius then s.sigmaSphere else s.sigmaBackground) • s.fieldTotal p ∧
    s.currentPrimary p = s.sigmaBackground • s.fieldPrimary p ∧
    m.fluxTotal p = (if (p - m.location).len ≤ m.radius then m.muSphere else m.muBackground) • m.fieldTotal p ∧
    m.fluxPrimary p = m.muBackground • m.fieldPrimary p := ⟨rfl, rfl, rfl, rfl⟩

/-- Non-vacuity: a line current with a permeable medium, of two nodes. -/
example : (⟨2, 1, 3, [⟨0, 0, 0⟩, ⟨1, 0, 0⟩]⟩ : Static.LineCurrent).mu ≠ 0 := two_ne_zero

end Verif.Wrappers
