import Verif.Spec.Calculus
import Verif.Model.Gravity
import Verif.Model.StaticWholeSpace
import Verif.Model.StaticHalfspace
import Verif.Lemmas.Rotation
import Verif.Props.StaticDipole
import Mathlib.Analysis.Calculus.Deriv.Inv
import Mathlib.Analysis.Calculus.Deriv.Pow
import Mathlib.Analysis.Calculus.Deriv.ZPow

/-!
# C131: Euler's homogeneity equation

The derivative of the field of a small source along the vector from the source to the point is minus the structural index times the field.
-/

namespace Verif

open Filter Topology

/-- `f` falls off with the power `n` of the distance from `c`, along every ray. -/
def FallsOff (f : V3 ℝ → ℝ) (n : ℕ) (c p : V3 ℝ) : Prop := ∀ t : ℝ, 0 < t → f (c + t • (p - c)) = f p / t ^ n

theorem FallsOff.euler {f : V3 ℝ → ℝ} {n : ℕ} {c p : V3 ℝ} (h : FallsOff f n c p) {g : V3 ℝ} (hg : HasGrad f g p) :
    g.dot (p - c) = -(n : ℝ) * f p := by
  have h1 := hg (p - c)
  have h2 : HasDerivAt (fun t : ℝ => f p * ((1 + t) ^ n)⁻¹) (f p * (-(n * (1 + 0) ^ (n - 1) * 1) / ((1 + 0) ^ n) ^ 2)) (0 : ℝ) := by
    have h3 : HasDerivAt (fun t : ℝ => 1 + t) 1 (0 : ℝ) := (hasDerivAt_id (0 : ℝ)).const_add 1
    have h4 := (h3.fun_pow n).fun_inv (by norm_num)
    exact h4.const_mul (f p)
  have h5 : (fun t : ℝ => f (p + t • (p - c))) =ᶠ[𝓝 0] fun t => f p * ((1 + t) ^ n)⁻¹ := by
    filter_upwards [Ioi_mem_nhds (show (-1 : ℝ) < 0 by norm_num)] with t ht
    have ht : -1 < t := ht
    rw [← div_eq_mul_inv, ← h (1 + t) (by linarith)]
    congr 1
    ext <;> simp <;> ring
  have h6 := (h2.congr_of_eventuallyEq h5).unique h1
  simp only [V3.app, smul_eq_mul, add_zero, one_pow, mul_one, div_one] at h6
  simp only [V3.dot]
  linarith

theorem ray (c p : V3 ℝ) (t : ℝ) : c + t • (p - c) - c = t • (p - c) := add_sub_cancel_left _ _

theorem ray_len (c p : V3 ℝ) {t : ℝ} (ht : 0 < t) : (t • (p - c)).len = t * (p - c).len := by
  rw [V3.len_smul, abs_of_pos ht]

namespace Gravity

/-- **C131.** The attraction of a point mass in the direction of the mass is the potential over the distance, and the gradient tensor applied to
the vector from the mass is minus twice the attraction. -/
theorem PointMass.euler (m : PointMass) {p : V3 ℝ} (hp : p ≠ m.location) :
    (m.gravitationalField p).dot (p - m.location) = -m.gravitationalPotential p ∧
    (m.gravitationalGradient p).mulVec (p - m.location) = (-2 : ℝ) • m.gravitationalField p := by
  have hl := V3.len_sub_ne_zero hp
  have hs := V3.len_sq (p - m.location)
  simp only [PointMass.gravitationalField, PointMass.gravitationalPotential, PointMass.gravitationalGradient]
  generalize G = g at *
  generalize (p - m.location).len = r at *
  generalize p - m.location = w at *
  constructor
  · simp only [V3.dot, V3.map_x, V3.map_y, V3.map_z]
    field_simp
    grind
  · ext <;> simp only [M3.mulVec, V3.dot, V3.smul_x, V3.smul_y, V3.smul_z, smul_eq_mul, V3.map_x, V3.map_y, V3.map_z] <;> field_simp <;> grind

/-- **C131.** The same outside a ball, whose own tensor is used; inside, the tensor applied to the vector from the centre is the attraction. -/
theorem Sphere.euler (s : Sphere) (hr : 0 ≤ s.radius) (p : V3 ℝ) :
    (s.radius < (p - s.location).len →
      (s.gravitationalField p).dot (p - s.location) = -s.gravitationalPotential p ∧
      ∃ J, s.gravitationalGradient p = some J ∧ J.mulVec (p - s.location) = (-2 : ℝ) • s.gravitationalField p) ∧
    ((p - s.location).len < s.radius → ∃ J, s.gravitationalGradient p = some J ∧ J.mulVec (p - s.location) = s.gravitationalField p) := by
  refine ⟨fun h => ?_, fun h => ?_⟩
  · have hp : p ≠ s.toPointMass.location := by
      rintro rfl
      have : (s.toPointMass.location - s.location).len = 0 := by
        rw [show s.toPointMass.location = s.location from rfl, sub_self]; exact V3.len_eq_zero.2 rfl
      linarith
    obtain ⟨h1, h2⟩ := s.toPointMass.euler hp
    simp only [Sphere.gravitationalField, Sphere.gravitationalPotential, Sphere.gravitationalGradient, if_pos h, if_neg h.ne']
    exact ⟨h1, _, rfl, h2⟩
  · simp only [Sphere.gravitationalField, Sphere.gravitationalGradient, if_neg (not_lt.2 h.le), if_neg h.ne]
    refine ⟨_, rfl, ?_⟩
    ext <;> simp [M3.mulVec, V3.dot]

end Gravity

namespace Static

/-- **C131.** Whatever the Jacobian of the flux density of a magnetic dipole is, applied to the vector from the dipole it is minus three times the
flux density; for the vector potential, and for the flux density of a pole, it is minus twice. -/
theorem MagDipole.euler (s : MagDipole) (p : V3 ℝ) (J : M3 ℝ) :
    (HasJac s.magneticFluxDensity J p → J.mulVec (p - s.location) = (-3 : ℝ) • s.magneticFluxDensity p) ∧
    (HasJac s.vectorPotential J p → J.mulVec (p - s.location) = (-2 : ℝ) • s.vectorPotential p) ∧
    (HasJac s.poleFluxDensity J p → J.mulVec (p - s.location) = (-2 : ℝ) • s.poleFluxDensity p) := by
  refine ⟨fun h => ?_, fun h => ?_, fun h => ?_⟩
  · have key : FallsOff (fun q => (s.magneticFluxDensity q).x) 3 s.location p ∧ FallsOff (fun q => (s.magneticFluxDensity q).y) 3 s.location p ∧
        FallsOff (fun q => (s.magneticFluxDensity q).z) 3 s.location p := by
      refine ⟨fun t ht => ?_, fun t ht => ?_, fun t ht => ?_⟩
      all_goals
        simp only [MagDipole.magneticFluxDensity, ray, ray_len _ _ ht, V3.dot, V3.map_x, V3.map_y, V3.map_z, V3.smul_x, V3.smul_y, V3.smul_z,
          smul_eq_mul]
        have := ht.ne'
        have := Real.pi_ne_zero
        by_cases hr : (p - s.location).len = 0
        · simp [hr]
        generalize (p - s.location).len = r at *
        field_simp
    ext
    · simpa [M3.mulVec] using key.1.euler h.1
    · simpa [M3.mulVec] using key.2.1.euler h.2.1
    · simpa [M3.mulVec] using key.2.2.euler h.2.2
  · have key : FallsOff (fun q => (s.vectorPotential q).x) 2 s.location p ∧ FallsOff (fun q => (s.vectorPotential q).y) 2 s.location p ∧
        FallsOff (fun q => (s.vectorPotential q).z) 2 s.location p := by
      refine ⟨fun t ht => ?_, fun t ht => ?_, fun t ht => ?_⟩
      all_goals
        simp only [MagDipole.vectorPotential, ray, ray_len _ _ ht, V3.cross, V3.map_x, V3.map_y, V3.map_z, V3.smul_x, V3.smul_y, V3.smul_z,
          smul_eq_mul]
        have := ht.ne'
        have := Real.pi_ne_zero
        by_cases hr : (p - s.location).len = 0
        · simp [hr]
        generalize (p - s.location).len = r at *
        field_simp
    ext
    · simpa [M3.mulVec] using key.1.euler h.1
    · simpa [M3.mulVec] using key.2.1.euler h.2.1
    · simpa [M3.mulVec] using key.2.2.euler h.2.2
  · have key : FallsOff (fun q => (s.poleFluxDensity q).x) 2 s.location p ∧ FallsOff (fun q => (s.poleFluxDensity q).y) 2 s.location p ∧
        FallsOff (fun q => (s.poleFluxDensity q).z) 2 s.location p := by
      refine ⟨fun t ht => ?_, fun t ht => ?_, fun t ht => ?_⟩
      all_goals
        simp only [MagDipole.poleFluxDensity, ray, ray_len _ _ ht, V3.map_x, V3.map_y, V3.map_z, V3.smul_x, V3.smul_y, V3.smul_z,
          smul_eq_mul]
        have := ht.ne'
        have := Real.pi_ne_zero
        by_cases hr : (p - s.location).len = 0
        · simp [hr]
        generalize (p - s.location).len = r at *
        field_simp
    ext
    · simpa [M3.mulVec] using key.1.euler h.1
    · simpa [M3.mulVec] using key.2.1.euler h.2.1
    · simpa [M3.mulVec] using key.2.2.euler h.2.2

/-- Non-vacuity: these Jacobians exist off the dipole. -/
example (s : MagDipole) (p : V3 ℝ) (hp : p ≠ s.location) :
    (∃ J, HasJac s.magneticFluxDensity J p) ∧ ∃ J, HasJac s.vectorPotential J p :=
  ⟨(dipole_flux_div_free s p hp).imp fun _ h => h.1, (dipole_flux_is_curl s p hp).imp fun _ h => h.1⟩

/-- **C131.** The electric field of a point current along the vector from the source is the potential: `E · (p - c) = V`. -/
theorem pointCurrent_euler (mu0 rho current : ℝ) (location : V3 ℝ) {p : V3 ℝ} (hp : p ≠ location) :
    ∃ v e, pointPotential (pointCurrent mu0 rho current location) p = .ok v ∧
      pointElectricField (pointCurrent mu0 rho current location) p = .ok e ∧ e.dot (p - location) = v := by
  refine ⟨_, _, rfl, rfl, ?_⟩
  have hl := V3.len_sub_ne_zero hp
  have hs := V3.len_sq (p - location)
  have hpi := Real.pi_ne_zero
  simp only [V3.dot, V3.map_x, V3.map_y, V3.map_z]
  generalize (p - location).len = r at *
  generalize p - location = w at *
  by_cases hrho : rho = 0
  · simp [pointCurrent, hrho]
  simp only [pointCurrent]
  field_simp
  grind

/-- **C131.** Around an electrode at the surface of a half-space, too. -/
theorem PointHalf.euler (mu0 rho current : ℝ) (location : V3 ℝ) (hz : location.z = 0) (s : PointHalf)
    (hs : PointHalf.new mu0 rho current location = .ok s) {p : V3 ℝ} (hp : p ≠ location) (hd : p.z ≤ 0) :
    ∃ v e, s.potential p = .ok v ∧ s.electricField p = .ok e ∧ e.dot (p - location) = v := by
  have hm : mirror location = location := by ext <;> simp [mirror, hz]
  obtain ⟨v, e, hv, he, h⟩ := pointCurrent_euler mu0 rho current location hp
  unfold PointHalf.new at hs
  split_ifs at hs
  cases hs
  refine ⟨v + v, e + e, ?_, ?_, ?_⟩
  · simp only [PointHalf.potential, if_neg (not_lt.2 hd), hm, hv]
    rfl
  · simp only [PointHalf.electricField, if_neg (not_lt.2 hd), hm, he]
    rfl
  · rw [← h]
    simp only [V3.dot, V3.add_x, V3.add_y, V3.add_z]
    ring

end Static

end Verif
