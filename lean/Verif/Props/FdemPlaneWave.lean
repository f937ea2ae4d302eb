import Verif.Props.Wavenumber
import Verif.Lemmas.Spherical

/-! # C44: the harmonic plane wave satisfies Maxwell's equations -/

namespace Verif.Fdem.PlaneWave

open V3
open Complex (I)

variable (s : PlaneWave) (p : V3 ℝ)

/-- A field `a · f(z)` with a constant vector `a`. -/
theorem hasJac_planar (a : V3 ℂ) {f : ℝ → ℂ} {f' : ℂ} (h : HasDerivAt f f' p.z) :
    HasJac (fun q => a.map (fun c => c * f q.z)) ⟨⟨0, 0, a.x * f'⟩, ⟨0, 0, a.y * f'⟩, ⟨0, 0, a.z * f'⟩⟩ p := by
  have g := HasGrad.comp h (hasGrad_z p)
  refine ⟨(g.const_mul a.x).congr ?_, (g.const_mul a.y).congr ?_, (g.const_mul a.z).congr ?_⟩ <;> ext <;> simp

theorem hasDerivAt_up (k : ℂ) (z : ℝ) :
    HasDerivAt (fun z : ℝ => Complex.exp (I * k * z)) (I * k * Complex.exp (I * k * z)) z := by
  have h : HasDerivAt (fun z : ℂ => I * k * z) (I * k) (z : ℂ) := by
    simpa using (hasDerivAt_id (z : ℂ)).const_mul (I * k)
  exact (h.cexp.comp_ofReal).congr_deriv (by ring)

theorem electricField_eq : s.electricField =
    fun q => (s.orientation.map (fun c : ℝ => (s.amplitude : ℂ) * c)).map
      (fun c => c * Complex.exp (I * s.wavenumber * q.z)) := rfl

theorem magneticFluxDensity_eq : s.magneticFluxDensity =
    fun q => ((s.orientation.cross ⟨0, 0, -1⟩).map
      (fun c : ℝ => (c : ℂ) * (-(s.amplitude : ℂ) * s.wavenumber / s.omega))).map
      (fun c => c * Complex.exp (I * s.wavenumber * q.z)) := by
  funext q
  ext <;> simp [magneticFluxDensity] <;> ring_nf

/-- **C44.** Faraday's law `curl E = - i w B`, at every point, for every positive frequency. -/
theorem faraday (hf : 0 < s.frequency) (ho : s.orientation.z = 0) :
    HasCurl s.electricField ((-I * s.omega) • s.magneticFluxDensity p) p := by
  have hw : 0 < s.omega := by unfold Medium.omega Fdem.omega; positivity
  have hw' : (s.omega : ℂ) ≠ 0 := by exact_mod_cast hw.ne'
  rw [electricField_eq, magneticFluxDensity_eq]
  refine ⟨_, hasJac_planar p _ (hasDerivAt_up _ _), ?_⟩
  ext <;> simp [M3.curl, ho] <;> field_simp

/-- **C44.** Ampère's law `curl H = sigma_hat E`, at every point. -/
theorem ampere (hf : 0 < s.frequency) (hm : 0 < s.mu) (ho : s.orientation.z = 0) :
    HasCurl s.magneticField (s.sigmaHat • s.electricField p) p := by
  have hw : 0 < s.omega := by unfold Medium.omega Fdem.omega; positivity
  have hw' : (s.omega : ℂ) ≠ 0 := by exact_mod_cast hw.ne'
  have hm' : (s.mu : ℂ) ≠ 0 := by exact_mod_cast hm.ne'
  have e : s.magneticField = fun q => ((s.orientation.cross ⟨0, 0, -1⟩).map
      (fun c : ℝ => (c : ℂ) * (-(s.amplitude : ℂ) * s.wavenumber / s.omega) / s.mu)).map
      (fun c => c * Complex.exp (I * s.wavenumber * q.z)) := by
    funext q
    ext <;> simp [magneticField, magneticFluxDensity_eq] <;> ring
  have hk : s.wavenumber ^ 2 = -I * s.omega * s.mu * s.sigmaHat := wavenumber_sq_sigmaHat _ _ _ _ _
  have hk2 : I * s.wavenumber ^ 2 = s.omega * s.mu * s.sigmaHat := by
    rw [hk]; linear_combination (-s.omega * s.mu * s.sigmaHat) * Complex.I_sq
  rw [electricField_eq, e]
  refine ⟨_, hasJac_planar p _ (hasDerivAt_up _ _), ?_⟩
  ext <;> simp [M3.curl, ho] <;> field_simp
  · linear_combination ((s.orientation.x : ℂ) * s.amplitude) * hk2
  · linear_combination ((s.orientation.y : ℂ) * s.amplitude) * hk2

/-- **C44.** Both fields are divergence-free. -/
theorem div_free (ho : s.orientation.z = 0) : HasDiv s.electricField 0 p ∧ HasDiv s.magneticFluxDensity 0 p := by
  rw [electricField_eq, magneticFluxDensity_eq]
  refine ⟨⟨_, hasJac_planar p _ (hasDerivAt_up _ _), ?_⟩, ⟨_, hasJac_planar p _ (hasDerivAt_up _ _), ?_⟩⟩ <;>
    simp [M3.trace, ho]

/-- **C44.** Both fields are horizontal and orthogonal to each other at every point. -/
theorem horizontal (ho : s.orientation.z = 0) :
    (s.electricField p).z = 0 ∧ (s.magneticField p).z = 0 ∧
      (s.electricField p).dot (s.magneticField p) = 0 := by
  refine ⟨by simp [electricField, ho], by simp [magneticField, magneticFluxDensity], ?_⟩
  simp [electricField, magneticField, magneticFluxDensity, V3.dot, ho]
  ring

/-- **C44.** `B = mu H`. -/
theorem b_eq (hm : 0 < s.mu) : s.magneticFluxDensity p = (s.mu : ℂ) • s.magneticField p := by
  have hm' : (s.mu : ℂ) ≠ 0 := by exact_mod_cast hm.ne'
  ext <;> simp [magneticField] <;> field_simp

/-- **C44.** `J = sigma E`. -/
theorem j_eq : s.currentDensity p = (s.sigma : ℂ) • s.electricField p := rfl

/-- **C44.** At the surface `z = 0` the electric field is the amplitude times the orientation. -/
theorem at_surface (h0 : p.z = 0) :
    s.electricField p = (s.amplitude • s.orientation).map (fun c : ℝ => (c : ℂ)) := by
  ext <;> simp [electricField, h0]

/-- **C44.** The wave decays downward: at depth `d` below a point every component of `E` is smaller in modulus by the
factor `exp(Im k · d)`, which is less than one. -/
theorem decays (hf : 0 < s.frequency) (hs : 0 < s.sigma) (hm : 0 < s.mu) (d : ℝ) (hd : 0 < d) :
    ∃ c : ℝ, 0 < c ∧ c < 1 ∧
      ‖(s.electricField ⟨p.x, p.y, p.z - d⟩).x‖ = c * ‖(s.electricField p).x‖ ∧
      ‖(s.electricField ⟨p.x, p.y, p.z - d⟩).y‖ = c * ‖(s.electricField p).y‖ := by
  have h := (wavenumber_quadrant (epsilon := s.epsilon) hf hs hm s.quasistatic).2
  refine ⟨Real.exp (s.wavenumber.im * d), Real.exp_pos _,
    Real.exp_lt_one_iff.2 (mul_neg_of_neg_of_pos h hd), ?_, ?_⟩ <;>
  · simp only [electricField, V3.map_x, V3.map_y, norm_mul, Complex.norm_exp]
    rw [show (I * s.wavenumber * ((p.z - d : ℝ) : ℂ)).re = s.wavenumber.im * d + (I * s.wavenumber * p.z).re by
      simp; ring, Real.exp_add]
    ring

/-- Non-vacuity: a source with a horizontal unit orientation. -/
example : ∃ s : PlaneWave, 0 < s.frequency ∧ 0 < s.sigma ∧ 0 < s.mu ∧ s.orientation.z = 0 ∧
    s.orientation.len = 1 ∧ s.electricField 0 ≠ 0 := by
  refine ⟨⟨⟨1, 1, 1, 1, .bool false⟩, 2, ⟨3 / 5, 4 / 5, 0⟩⟩, one_pos, one_pos, one_pos, rfl, ?_, ?_⟩
  · simp [V3.len]; norm_num
  · intro h
    have := congrArg V3.x h
    simp [electricField] at this

end Verif.Fdem.PlaneWave
