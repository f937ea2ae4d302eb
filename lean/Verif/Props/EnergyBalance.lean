import Verif.Lemmas.Energy
import Verif.Lemmas.Rotation
import Verif.Props.FdemDipoles
import Verif.Props.FdemPlaneWave
import Verif.Props.TdemWholeSpace

/-! # C126: energy is conserved -/

namespace Verif

open Complex (I)

/-! ## helper lemmas -/

namespace Energy

theorem sqLen_nonneg (E : V3 ℂ) : 0 ≤ sqLen E := by
  unfold sqLen
  linarith [Complex.normSq_nonneg E.x, Complex.normSq_nonneg E.y, Complex.normSq_nonneg E.z]

/-- The balance for fields with `curl E = -i w mu H` and `curl H = s E`. -/
theorem balance {E H : V3 ℝ → V3 ℂ} {w mu : ℝ} {s : ℂ} {p : V3 ℝ} (hE : HasCurl E ((-I * w * mu) • H p) p) (hH : HasCurl H (s • E p) p) :
    HasDiv (fun q => meanFlow (E q) (H q)) (-(s.re * sqLen (E p) / 2)) p := by
  obtain ⟨J, hJ, e⟩ := div_meanFlow hE hH
  refine ⟨J, hJ, e.trans ?_⟩
  simp [V3.dot, sqLen, Complex.normSq_apply]
  ring

/-- The radial part of the energy flux of a magnetic dipole. -/
theorem radial_magnetic (o loc : V3 ℝ) (g a b : ℝ → ℂ) (q : V3 ℝ) :
    (meanFlow (dipX o loc g q) (dipF o loc a b q)).dot (q - loc) =
      (g (q - loc).len * starRingEnd ℂ (b (q - loc).len)).re * (o.cross (q - loc)).len ^ 2 / 2 := by
  rw [V3.len_sq]
  simp [V3.dot, meanFlow, dipX, dipF]
  ring

/-- The radial part of the energy flux of an electric dipole. -/
theorem radial_electric (o loc : V3 ℝ) (g a b : ℝ → ℂ) (q : V3 ℝ) :
    (meanFlow (dipF o loc a b q) (dipX o loc g q)).dot (q - loc) =
      -((b (q - loc).len * starRingEnd ℂ (g (q - loc).len)).re * (o.cross (q - loc)).len ^ 2 / 2) := by
  rw [V3.len_sq]
  simp [V3.dot, meanFlow, dipX, dipF]
  ring

/-- The sign of the radial part for a magnetic dipole, where `w = i k r` has the parts `x` and `y`. -/
theorem sign_magnetic (c k : ℂ) (a r : ℝ) (hr : r ≠ 0) :
    (sphG (-(I * a * c)) k r * starRingEnd ℂ (sphB c k r)).re =
      a * (k.re * r) * ((k.re * r) ^ 2 + (k.im * r) ^ 2 - 2 * (k.im * r)) * Complex.normSq c * Complex.normSq (Complex.exp (-(I * (k * r)))) / r ^ 6 := by
  generalize he : Complex.exp (-(I * (k * r))) = e
  have h : sphG (-(I * a * c)) k r * starRingEnd ℂ (sphB c k r) =
      ((Complex.normSq c * Complex.normSq e / r ^ 6 : ℝ) : ℂ) * (-(I * a) * (I * (k * r) + 1) * starRingEnd ℂ ((k * r) ^ 2 - I * (k * r) - 1)) := by
    have hr' : (r : ℂ) ≠ 0 := by exact_mod_cast hr
    simp only [sphG, sphB, he, map_mul, map_div₀, map_pow, Complex.conj_ofReal]
    push_cast
    rw [Complex.normSq_eq_conj_mul_self, Complex.normSq_eq_conj_mul_self]
    field_simp
  rw [h, Complex.re_ofReal_mul]
  simp [pow_two]
  field_simp
  ring

/-- The sign of the radial part for an electric dipole. -/
theorem sign_electric (c d k : ℂ) (t r : ℝ) (hr : r ≠ 0) (hd : d = c * t) :
    (sphB d k r * starRingEnd ℂ (sphG c k r)).re =
      -(t * (1 - 2 * (k.im * r) + 2 * (k.im * r) ^ 2 - k.im * r * ((k.re * r) ^ 2 + (k.im * r) ^ 2)) * Complex.normSq c *
        Complex.normSq (Complex.exp (-(I * (k * r)))) / r ^ 6) := by
  generalize he : Complex.exp (-(I * (k * r))) = e
  have h : sphB d k r * starRingEnd ℂ (sphG c k r) =
      ((Complex.normSq c * Complex.normSq e / r ^ 6 : ℝ) : ℂ) * (t * ((k * r) ^ 2 - I * (k * r) - 1) * starRingEnd ℂ (I * (k * r) + 1)) := by
    have hr' : (r : ℂ) ≠ 0 := by exact_mod_cast hr
    simp only [sphG, sphB, he, hd, map_mul, map_div₀, map_pow, Complex.conj_ofReal]
    push_cast
    rw [Complex.normSq_eq_conj_mul_self, Complex.normSq_eq_conj_mul_self]
    field_simp
  rw [h, Complex.re_ofReal_mul]
  simp [pow_two]
  field_simp
  ring

end Energy

open Energy

/-! ## harmonic sources -/

namespace Fdem

theorem sigmaHat_re (m : Medium) : m.sigmaHat.re = m.sigma := by
  unfold Medium.sigmaHat sigmaHat
  split <;> simp

namespace MagneticDipole

variable (s : MagneticDipole) (p : V3 ℝ)

/-- **C126.** What flows in, on average over a period, is turned into heat: the divergence of the energy flux is minus the power of the currents per volume,
half of `sigma |E|²`. -/
theorem energy_balance (hp : p ≠ s.location) :
    HasDiv (fun q => meanFlow (s.electricField q) (s.magneticField q)) (-(s.sigma * sqLen (s.electricField p) / 2)) p := by
  have := balance (s.faraday p hp) (s.ampere p hp)
  rwa [sigmaHat_re] at this

/-- **C126.** On average the energy flows away from the source, at every point off the axis of the dipole. -/
theorem energy_outward (hf : 0 < s.frequency) (hs : 0 < s.sigma) (hm : 0 < s.mu) (hmom : s.moment ≠ 0) (hp : p ≠ s.location)
    (hx : s.orientation.cross (p - s.location) ≠ 0) :
    0 < (meanFlow (s.electricField p) (s.magneticField p)).dot (p - s.location) := by
  obtain ⟨h1, h2⟩ := wavenumber_quadrant (epsilon := s.epsilon) hf hs hm s.quasistatic
  have hr := V3.len_sub_pos hp
  have hw : 0 < s.omega := by unfold Medium.omega Fdem.omega; positivity
  rw [s.electricField_eq p hp, s.magneticField_eq p hp, radial_magnetic]
  rw [show I * s.omega * s.mu * s.strength = I * ((s.omega * s.mu : ℝ) : ℂ) * s.strength by push_cast; ring, sign_magnetic _ _ _ _ hr.ne']
  have c0 : 0 < Complex.normSq s.strength := by
    rw [Complex.normSq_pos, strength]
    have := Real.pi_ne_zero
    simp [hmom]
  have e0 : 0 < Complex.normSq (Complex.exp (-(I * (s.wavenumber * (p - s.location).len)))) := Complex.normSq_pos.2 (Complex.exp_ne_zero _)
  have hx0 := V3.len_pos hx
  change 0 < s.wavenumber.re at h1
  change s.wavenumber.im < 0 at h2
  have k1 : 0 < s.wavenumber.re * (p - s.location).len := mul_pos h1 hr
  have k2 : 0 < -(s.wavenumber.im * (p - s.location).len) := by nlinarith
  have k3 : 0 < (s.wavenumber.re * (p - s.location).len) ^ 2 + (s.wavenumber.im * (p - s.location).len) ^ 2 - 2 * (s.wavenumber.im * (p - s.location).len) := by
    have := sq_nonneg (s.wavenumber.re * (p - s.location).len)
    have := sq_nonneg (s.wavenumber.im * (p - s.location).len)
    linarith
  positivity

end MagneticDipole

namespace ElectricDipole

variable (s : ElectricDipole) (p : V3 ℝ)

/-- **C126.** Energy is conserved around an electric dipole in the quasistatic setting. -/
theorem energy_balance (hq : s.quasistatic = .bool true) (hs : 0 < s.sigma) (hp : p ≠ s.location) :
    HasDiv (fun q => meanFlow (s.electricField q) (s.magneticField q)) (-(s.sigma * sqLen (s.electricField p) / 2)) p := by
  have := balance (s := s.sigma) (s.faraday_partial p hq hs hp) (s.j_is_curl_h p hs hp)
  simpa using this

/-- With displacement currents the fields of the electric dipole bring energy from nowhere, `w² mu epsilon / (2 sigma) |H|²` per volume: see C45. -/
theorem energy_from_nowhere (hq : s.quasistatic = .bool false) (hs : 0 < s.sigma) (hp : p ≠ s.location) :
    HasDiv (fun q => meanFlow (s.electricField q) (s.magneticField q))
      (-(s.sigma * sqLen (s.electricField p) / 2) + s.omega ^ 2 * s.mu * s.epsilon / s.sigma * sqLen (s.magneticField p) / 2) p := by
  obtain ⟨J, hJ, e⟩ := div_meanFlow (s.curl_e p hs hp) (s.j_is_curl_h p hs hp)
  refine ⟨J, hJ, e.trans ?_⟩
  have hk : s.wavenumber ^ 2 = -I * s.omega * s.mu * s.sigmaHat := wavenumber_sq_sigmaHat _ _ _ _ _
  have hk' : s.wavenumber ^ 2 / (s.sigma : ℂ) = ((s.omega ^ 2 * s.mu * s.epsilon / s.sigma : ℝ) : ℂ) - I * ((s.omega * s.mu : ℝ) : ℂ) := by
    have hs' : (s.sigma : ℂ) ≠ 0 := by exact_mod_cast hs.ne'
    rw [hk, Medium.sigmaHat, sigmaHat, hq]
    simp only [Flag.isTrue, Bool.false_eq_true, if_false]
    change -I * (s.omega : ℂ) * s.mu * (s.sigma + I * (s.omega : ℂ) * s.epsilon) / s.sigma = _
    push_cast
    field_simp
    linear_combination (-(s.omega : ℂ) ^ 2 * s.epsilon * s.mu) * Complex.I_sq
  rw [hk', j_eq]
  generalize s.omega ^ 2 * s.mu * s.epsilon / s.sigma = a
  generalize s.omega * s.mu = b
  simp [V3.dot, sqLen, Complex.normSq_apply]
  ring

/-- **C126.** On average the energy flows away from the source, at every point off the axis of the dipole. -/
theorem energy_outward (hf : 0 < s.frequency) (hs : 0 < s.sigma) (hm : 0 < s.mu) (hi : s.current ≠ 0) (hl : s.length ≠ 0) (hp : p ≠ s.location)
    (hx : s.orientation.cross (p - s.location) ≠ 0) :
    0 < (meanFlow (s.electricField p) (s.magneticField p)).dot (p - s.location) := by
  obtain ⟨h1, h2⟩ := wavenumber_quadrant (epsilon := s.epsilon) hf hs hm s.quasistatic
  have hr := V3.len_sub_pos hp
  rw [s.electricField_eq p hp, s.magneticField_eq p hp, radial_electric]
  rw [sign_electric s.strength _ _ (1 / s.sigma) _ hr.ne' (by push_cast; ring)]
  have c0 : 0 < Complex.normSq s.strength := by
    rw [Complex.normSq_pos, strength]
    have := Real.pi_ne_zero
    simp [hi, hl]
  have e0 : 0 < Complex.normSq (Complex.exp (-(I * (s.wavenumber * (p - s.location).len)))) := Complex.normSq_pos.2 (Complex.exp_ne_zero _)
  have hx0 := V3.len_pos hx
  change s.wavenumber.im < 0 at h2
  have k2 : 0 < -(s.wavenumber.im * (p - s.location).len) := by nlinarith
  have k3 : 0 < 1 - 2 * (s.wavenumber.im * (p - s.location).len) + 2 * (s.wavenumber.im * (p - s.location).len) ^ 2 -
      s.wavenumber.im * (p - s.location).len * ((s.wavenumber.re * (p - s.location).len) ^ 2 + (s.wavenumber.im * (p - s.location).len) ^ 2) := by
    generalize s.wavenumber.im * (p - s.location).len = u at *
    have : 0 ≤ -u * ((s.wavenumber.re * (p - s.location).len) ^ 2 + u ^ 2) := by positivity
    nlinarith [sq_nonneg u]
  rw [neg_mul, neg_div, neg_neg]
  positivity

end ElectricDipole

namespace PlaneWave

variable (s : PlaneWave) (p : V3 ℝ)

/-- **C126.** Energy is conserved in a plane wave. -/
theorem energy_balance (hf : 0 < s.frequency) (hm : 0 < s.mu) (ho : s.orientation.z = 0) :
    HasDiv (fun q => meanFlow (s.electricField q) (s.magneticField q)) (-(s.sigma * sqLen (s.electricField p) / 2)) p := by
  have h := s.faraday p hf ho
  rw [s.b_eq p hm, smul_smul] at h
  have := balance h (s.ampere p hf hm ho)
  rwa [sigmaHat_re] at this

/-- **C126.** On average its energy flows straight down, at every point. -/
theorem energy_downward (hf : 0 < s.frequency) (hs : 0 < s.sigma) (hm : 0 < s.mu) (ho : s.orientation.z = 0) (hlen : s.orientation ≠ 0) (ha : s.amplitude ≠ 0) :
    let S := meanFlow (s.electricField p) (s.magneticField p)
    S.x = 0 ∧ S.y = 0 ∧ S.z < 0 := by
  intro S
  obtain ⟨h1, h2⟩ := wavenumber_quadrant (epsilon := s.epsilon) hf hs hm s.quasistatic
  change 0 < s.wavenumber.re at h1
  have hw : 0 < s.omega := by unfold Medium.omega Fdem.omega; positivity
  have hE : Complex.normSq (Complex.exp (I * s.wavenumber * p.z)) > 0 := Complex.normSq_pos.2 (Complex.exp_ne_zero _)
  refine ⟨?_, ?_, ?_⟩
  · simp [S, meanFlow, electricField, magneticField, magneticFluxDensity, ho]
  · simp [S, meanFlow, electricField, magneticField, magneticFluxDensity, ho]
  · have e : S.z = -(s.orientation.len ^ 2 * s.amplitude ^ 2 * s.wavenumber.re * Complex.normSq (Complex.exp (I * s.wavenumber * p.z)) / (2 * s.omega * s.mu)) := by
      have key : ∀ c : ℝ, ((s.amplitude : ℂ) * c * Complex.exp (I * s.wavenumber * p.z) *
          starRingEnd ℂ ((c : ℂ) * (-(s.amplitude : ℂ) * s.wavenumber / s.omega * Complex.exp (I * (s.wavenumber * p.z))) / s.mu)).re =
          -(c ^ 2 * s.amplitude ^ 2 * s.wavenumber.re * Complex.normSq (Complex.exp (I * s.wavenumber * p.z)) / (s.omega * s.mu)) := by
        intro c
        rw [← mul_assoc I]
        generalize Complex.exp (I * s.wavenumber * p.z) = E
        have : (s.amplitude : ℂ) * c * E * starRingEnd ℂ ((c : ℂ) * (-(s.amplitude : ℂ) * s.wavenumber / s.omega * E) / s.mu) =
            ((-(c ^ 2 * s.amplitude ^ 2 * Complex.normSq E / (s.omega * s.mu)) : ℝ) : ℂ) * starRingEnd ℂ s.wavenumber := by
          simp only [map_mul, map_div₀, map_neg, Complex.conj_ofReal]
          push_cast
          rw [Complex.normSq_eq_conj_mul_self]
          field_simp
        rw [this, Complex.re_ofReal_mul, Complex.conj_re]
        ring
      have k1 := key s.orientation.x
      have k2 := key s.orientation.y
      have : S.z = (((s.amplitude : ℂ) * s.orientation.x * Complex.exp (I * s.wavenumber * p.z) *
          starRingEnd ℂ ((s.orientation.x : ℂ) * (-(s.amplitude : ℂ) * s.wavenumber / s.omega * Complex.exp (I * (s.wavenumber * p.z))) / s.mu)).re +
          ((s.amplitude : ℂ) * s.orientation.y * Complex.exp (I * s.wavenumber * p.z) *
          starRingEnd ℂ ((s.orientation.y : ℂ) * (-(s.amplitude : ℂ) * s.wavenumber / s.omega * Complex.exp (I * (s.wavenumber * p.z))) / s.mu)).re) / 2 := by
        rw [← Complex.add_re]
        simp only [S, meanFlow, electricField, magneticField, magneticFluxDensity, V3.cross_z, V3.map_x, V3.map_y, V3.map_z, V3.cross_x, V3.cross_y, ho]
        congr 2
        simp
        ring
      rw [this, k1, k2, V3.len_sq, ho]
      field_simp
      ring
    rw [e]
    have := V3.len_pos hlen
    have : 0 < s.amplitude ^ 2 := by positivity
    have : 0 < s.orientation.len ^ 2 * s.amplitude ^ 2 * s.wavenumber.re * Complex.normSq (Complex.exp (I * s.wavenumber * p.z)) / (2 * s.omega * s.mu) := by
      positivity
    linarith

end PlaneWave
end Fdem

/-! ## transients -/

namespace Tdem

namespace ElectricDipole

variable (s : ElectricDipole) (p : V3 ℝ)

/-- **C126.** At every time what flows in is turned into heat, `sigma |E|²`, or stored in the magnetic field: the divergence of the energy flux is minus the
heat and minus the rate of change of the energy density `mu/2 |H|²`. -/
theorem energy_balance (ht : 0 < s.time) (hs : 0 < s.sigma) (hm : 0 < s.mu) (hp : p ≠ s.location) :
    ∃ w, HasDerivAt (fun t => s.mu / 2 * ({ s with time := t }.magneticField p).len ^ 2) w s.time ∧
      HasDiv (fun q => flow (s.electricField q) (s.magneticField q)) (-(s.sigma * (s.electricField p).len ^ 2) - w) p := by
  obtain ⟨h1, h2, h3⟩ := s.time_deriv p ht hs hm
  refine ⟨s.mu * (s.magneticField p).dot (s.magneticFieldTimeDeriv p), ?_, ?_⟩
  · have := (((h1.fun_pow 2).fun_add (h2.fun_pow 2)).fun_add (h3.fun_pow 2)).const_mul (s.mu / 2)
    refine (this.congr_of_eventuallyEq (Filter.Eventually.of_forall fun t => by simp only [V3.len_sq])).congr_deriv ?_
    simp only [V3.dot]
    push_cast
    ring
  · obtain ⟨J, hJ, e⟩ := div_flow (s.faraday p ht hs hm hp) (s.ampere p hs hp)
    refine ⟨J, hJ, e.trans ?_⟩
    rw [V3.len_sq]
    simp only [V3.dot, V3.neg_x, V3.neg_y, V3.neg_z, V3.smul_x, V3.smul_y, V3.smul_z, smul_eq_mul]
    ring

end ElectricDipole

namespace PlaneWave

variable (s : PlaneWave) (p : V3 ℝ)

/-- **C126.** The same for a plane wave. -/
theorem energy_balance (ht : 0 < s.time) (hs : 0 < s.sigma) (hm : 0 < s.mu) (ho : s.orientation.z = 0) :
    ∃ w, HasDerivAt (fun t => s.mu / 2 * ({ s with time := t }.magneticField p).len ^ 2) w s.time ∧
      HasDiv (fun q => flow (s.electricField q) (s.magneticField q)) (-(s.sigma * (s.electricField p).len ^ 2) - w) p := by
  obtain ⟨D, hD, h1, h2, h3⟩ := s.faraday p ht hs hm
  refine ⟨(s.magneticField p).dot D, ?_, ?_⟩
  · have := ((((h1.div_const s.mu).fun_pow 2).fun_add ((h2.div_const s.mu).fun_pow 2)).fun_add ((h3.div_const s.mu).fun_pow 2)).const_mul (s.mu / 2)
    refine (this.congr_of_eventuallyEq (Filter.Eventually.of_forall fun t => by simp only [V3.len_sq, magneticField, V3.map])).congr_deriv ?_
    simp only [V3.dot, magneticField, V3.map]
    push_cast
    field_simp
  · obtain ⟨J, hJ, e⟩ := div_flow hD (s.ampere p ht hs hm ho)
    refine ⟨J, hJ, e.trans ?_⟩
    rw [V3.len_sq]
    simp only [V3.dot, V3.neg_x, V3.neg_y, V3.neg_z, V3.smul_x, V3.smul_y, V3.smul_z, smul_eq_mul]
    ring

/-- **C126.** Below the surface the energy of the transient wave flows straight down at every time. -/
theorem energy_downward (ht : 0 < s.time) (hs : 0 < s.sigma) (hm : 0 < s.mu) (ho : s.orientation.z = 0) (hlen : s.orientation ≠ 0) (ha : s.amplitude ≠ 0)
    (hz : p.z < 0) :
    let S := flow (s.electricField p) (s.magneticField p)
    S.x = 0 ∧ S.y = 0 ∧ S.z < 0 := by
  intro S
  refine ⟨?_, ?_, ?_⟩
  · simp [S, flow, electricField, magneticField, magneticFluxDensity, ho]
  · simp [S, flow, electricField, magneticField, magneticFluxDensity, ho]
  · have hl := V3.len_pos hlen
    have e : S.z = s.orientation.len ^ 2 * (s.amplitude ^ 2 / s.mu) * (eAmp s.mu s.sigma s.time p.z * bAmp s.mu s.sigma s.time p.z) := by
      simp only [S, flow, magneticField, s.electricField_eq p ht, s.magneticFluxDensity_eq p hs hm, V3.len_sq, ho]
      simp
      field_simp
      ring
    have hb : bAmp s.mu s.sigma s.time p.z < 0 := by
      unfold bAmp
      have := Real.sqrt_pos.2 (mul_pos hm hs)
      have := Real.sqrt_pos.2 Real.pi_pos
      have := Real.sqrt_pos.2 ht
      rw [neg_lt_zero]
      positivity
    have he : 0 < eAmp s.mu s.sigma s.time p.z := by
      unfold eAmp
      have h1 := Real.sqrt_pos.2 (mul_pos hm hs)
      have := Real.sqrt_pos.2 Real.pi_pos
      have := Real.sqrt_pos.2 ht
      refine div_pos ?_ (by positivity)
      rw [neg_pos]
      exact mul_neg_of_neg_of_pos (mul_neg_of_pos_of_neg h1 hz) (Real.exp_pos _)
    rw [e]
    have : 0 < s.amplitude ^ 2 := by positivity
    have k := mul_neg_of_pos_of_neg he hb
    have : 0 < s.orientation.len ^ 2 * (s.amplitude ^ 2 / s.mu) := by positivity
    exact mul_neg_of_pos_of_neg this k

end PlaneWave
end Tdem

/-- Non-vacuity: sources and a point with all hypotheses. -/
example : ∃ (s : Fdem.MagneticDipole) (e : Fdem.ElectricDipole) (t : Tdem.ElectricDipole) (p : V3 ℝ),
    0 < (meanFlow (s.electricField p) (s.magneticField p)).dot (p - s.location) ∧ 0 < (meanFlow (e.electricField p) (e.magneticField p)).dot (p - e.location) ∧
      HasDiv (fun q => meanFlow (e.electricField q) (e.magneticField q)) (-(e.sigma * sqLen (e.electricField p) / 2)) p ∧
      ∃ w, HasDiv (fun q => flow (t.electricField q) (t.magneticField q)) (-(t.sigma * (t.electricField p).len ^ 2) - w) p := by
  have h1 : (⟨0, 2, 0⟩ : V3 ℝ) ≠ ⟨0, 0, 0⟩ := fun h => by simpa using congrArg V3.y h
  have h2 : (⟨1, 0, 0⟩ : V3 ℝ).cross (⟨0, 2, 0⟩ - ⟨0, 0, 0⟩) ≠ 0 := fun h => by simpa using congrArg V3.z h
  refine ⟨⟨⟨1, 1, 1, 1, .bool false⟩, ⟨0, 0, 0⟩, ⟨1, 0, 0⟩, 1⟩, ⟨⟨1, 1, 1, 1, .bool true⟩, ⟨0, 0, 0⟩, ⟨1, 0, 0⟩, 1, 1⟩,
    ⟨⟨1, 1, 1⟩, ⟨0, 0, 0⟩, ⟨1, 0, 0⟩, 1, 1⟩, ⟨0, 2, 0⟩, ?_, ?_, ?_, ?_⟩
  · exact Fdem.MagneticDipole.energy_outward _ _ one_pos one_pos one_pos one_ne_zero h1 h2
  · exact Fdem.ElectricDipole.energy_outward _ _ one_pos one_pos one_pos one_ne_zero one_ne_zero h1 h2
  · exact Fdem.ElectricDipole.energy_balance _ _ rfl one_pos h1
  · obtain ⟨w, -, h⟩ := Tdem.ElectricDipole.energy_balance ⟨⟨1, 1, 1⟩, ⟨0, 0, 0⟩, ⟨1, 0, 0⟩, 1, 1⟩ ⟨0, 2, 0⟩ one_pos one_pos one_pos h1
    exact ⟨w, h⟩

end Verif
