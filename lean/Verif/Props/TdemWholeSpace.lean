import Verif.Lemmas.Rotation
import Verif.Model.Tdem
import Verif.Lemmas.Diffusive
import Mathlib.Analysis.SpecialFunctions.Pow.Deriv

/-! # C55–C57: transient electric dipole, transient plane wave, peak time -/

namespace Verif.Tdem

open V3

/-! ## C55: electric dipole -/

namespace ElectricDipole

variable (s : ElectricDipole) (p : V3 ℝ)

/-- `I L / (4 π)` -/
noncomputable def strength : ℝ := s.current * s.length / (4 * Real.pi)

theorem vectorPotential_eq (q : V3 ℝ) :
    s.vectorPotential q = dipF s.orientation s.location (fun _ => 0) (tdP s.strength s.theta) q := by
  ext <;> simp [vectorPotential, dipF, tdP, strength] <;> ring

theorem magneticField_eq (q : V3 ℝ) (hq : q ≠ s.location) :
    s.magneticField q = dipX s.orientation s.location (tdG s.strength s.theta) q := by
  have hr := len_sub_ne_zero hq
  ext <;> simp [magneticField, dipX, tdG, strength] <;> field_simp

theorem electricField_eq (q : V3 ℝ) (hq : q ≠ s.location) :
    s.electricField q = dipF s.orientation s.location (tdA (s.strength / s.sigma) s.theta)
      (tdB (s.strength / s.sigma) s.theta) q := by
  have hr := len_sub_ne_zero hq
  ext <;> simp [electricField, dipF, tdA, tdB, strength, V3.dot] <;> field_simp <;> ring

/-- **C55.** `H = curl A` off the source. -/
theorem h_is_curl_a (hp : p ≠ s.location) : HasCurl s.vectorPotential (s.magneticField p) p := by
  rw [s.magneticField_eq p hp]
  exact (td_curlP _ _ (len_sub_ne_zero hp)).congr_off hp (fun q _ => s.vectorPotential_eq q) rfl

/-- **C55.** Ampère's law `curl H = sigma E` off the source. -/
theorem ampere (hs : 0 < s.sigma) (hp : p ≠ s.location) :
    HasCurl s.magneticField (s.sigma • s.electricField p) p := by
  refine (td_curlG _ _ (len_sub_ne_zero hp)).congr_off hp (fun q hq => s.magneticField_eq q hq) ?_
  rw [s.electricField_eq p hp]
  ext <;> simp [dipF, tdA, tdB] <;> field_simp

/-- **C55.** `J = sigma E`. -/
theorem j_eq : s.currentDensity p = s.sigma • s.electricField p := rfl

/-- **C55.** `B = mu H` and the same for the time derivatives. -/
theorem b_eq : s.magneticFluxDensity p = s.mu • s.magneticField p ∧
    s.magneticFluxDensityTimeDeriv p = s.mu • s.magneticFieldTimeDeriv p := ⟨rfl, rfl⟩

/-- **C55.** `div H = 0` off the source. -/
theorem div_h (hp : p ≠ s.location) : HasDiv s.magneticField 0 p :=
  (td_divG _ _ (len_sub_ne_zero hp)).congr_off hp (fun q hq => s.magneticField_eq q hq) rfl

/-- **C55.** `div E = 0` off the source. -/
theorem div_e (hp : p ≠ s.location) : HasDiv s.electricField 0 p :=
  (td_divAB _ _ (len_sub_ne_zero hp)).congr_off hp (fun q hq => s.electricField_eq q hq) rfl

theorem theta_sq (m : Medium) (ht : 0 < m.time) (hs : 0 < m.sigma) (hm : 0 < m.mu) :
    m.theta ^ 2 = m.mu * m.sigma / (4 * m.time) := by
  rw [Medium.theta, theta, Real.sq_sqrt (by positivity)]

/-- **C55.** Faraday's law `curl E = - mu dH/dt` off the source, with the returned time derivative. -/
theorem faraday (ht : 0 < s.time) (hs : 0 < s.sigma) (hm : 0 < s.mu) (hp : p ≠ s.location) :
    HasCurl s.electricField (-(s.mu • s.magneticFieldTimeDeriv p)) p := by
  have hr := len_sub_ne_zero hp
  refine (td_curlAB _ _ hr).congr_off hp (fun q hq => s.electricField_eq q hq) ?_
  have hθ := theta_sq s.toMedium ht hs hm
  have e5 : s.theta ^ 5 = s.mu * s.sigma / (4 * s.time) * s.theta ^ 3 := by rw [← hθ]; ring
  have hpi : Real.sqrt Real.pi ≠ 0 := (Real.sqrt_pos.2 Real.pi_pos).ne'
  have hpi' := Real.pi_pos.ne'
  ext <;> simp [dipX, tdD, strength, magneticFieldTimeDeriv, e5] <;> field_simp <;> ring

theorem hasDerivAt_theta {sigma mu t : ℝ} (ht : 0 < t) (hs : 0 < sigma) (hm : 0 < mu) :
    HasDerivAt (fun t => theta t sigma mu) (-(theta t sigma mu) / (2 * t)) t := by
  have h1 : HasDerivAt (fun t : ℝ => mu * sigma / (4 * t)) (-(mu * sigma) / (4 * t ^ 2)) t := by
    refine ((hasDerivAt_const t (mu * sigma)).fun_div ((hasDerivAt_id' t).const_mul 4) (by positivity)).congr_deriv ?_
    field_simp; ring
  have h0 : 0 < mu * sigma / (4 * t) := by positivity
  refine (h1.sqrt h0.ne').congr_deriv ?_
  have hsq := Real.sq_sqrt h0.le
  have hp := Real.sqrt_pos.2 h0
  simp only [theta]
  set R := Real.sqrt (mu * sigma / (4 * t))
  field_simp at hsq ⊢
  linear_combination hsq

/-- The profile of the magnetic field as a function of time. -/
theorem hasDerivAt_profile {sigma mu t : ℝ} (r : ℝ) (ht : 0 < t) (hs : 0 < sigma) (hm : 0 < mu) :
    HasDerivAt (fun t => erf (theta t sigma mu * r) - 2 / Real.sqrt Real.pi * (theta t sigma mu * r) *
        Real.exp (-(theta t sigma mu * r) ^ 2))
      (-2 * (theta t sigma mu * r) ^ 3 / (Real.sqrt Real.pi * t) * Real.exp (-(theta t sigma mu * r) ^ 2)) t := by
  have hu := (hasDerivAt_theta ht hs hm).mul_const r
  have hpi : Real.sqrt Real.pi ≠ 0 := (Real.sqrt_pos.2 Real.pi_pos).ne'
  have h1 := (hasDerivAt_erf (theta t sigma mu * r)).comp t hu
  have h2 := (hu.const_mul (2 / Real.sqrt Real.pi)).fun_mul ((hu.fun_pow 2).fun_neg.exp)
  refine (h1.fun_sub h2).congr_deriv ?_
  push_cast
  field_simp
  ring

/-- **C55.** `magnetic_field_time_deriv` is the derivative of `magnetic_field` with respect to time, component by
component, at every point off the source and every time `t > 0`. -/
theorem time_deriv (ht : 0 < s.time) (hs : 0 < s.sigma) (hm : 0 < s.mu) :
    HasDerivAt (fun t => ({ s with time := t }.magneticField p).x) (s.magneticFieldTimeDeriv p).x s.time ∧
    HasDerivAt (fun t => ({ s with time := t }.magneticField p).y) (s.magneticFieldTimeDeriv p).y s.time ∧
    HasDerivAt (fun t => ({ s with time := t }.magneticField p).z) (s.magneticFieldTimeDeriv p).z s.time := by
  have h := hasDerivAt_profile (p - s.location).len ht hs hm
  have hc : ∀ k c : ℝ, HasDerivAt (fun t => k * (erf (theta t s.sigma s.mu * (p - s.location).len) -
      2 / Real.sqrt Real.pi * (theta t s.sigma s.mu * (p - s.location).len) *
        Real.exp (-(theta t s.sigma s.mu * (p - s.location).len) ^ 2)) * c) _ s.time := fun k c =>
    (h.const_mul k).mul_const c
  refine ⟨hc ((s.current * s.length) / (4 * Real.pi * (p - s.location).len ^ 2))
      (s.orientation.cross ((p - s.location).map (· / (p - s.location).len))).x,
    hc ((s.current * s.length) / (4 * Real.pi * (p - s.location).len ^ 2))
      (s.orientation.cross ((p - s.location).map (· / (p - s.location).len))).y,
    hc ((s.current * s.length) / (4 * Real.pi * (p - s.location).len ^ 2))
      (s.orientation.cross ((p - s.location).map (· / (p - s.location).len))).z⟩

/-- Non-vacuity: a source with all hypotheses and a point off it. -/
example : ∃ (s : ElectricDipole) (p : V3 ℝ), 0 < s.time ∧ 0 < s.sigma ∧ 0 < s.mu ∧ p ≠ s.location ∧
    s.magneticFieldTimeDeriv p ≠ 0 := by
  refine ⟨⟨⟨1, 1, 1⟩, 0, ⟨1, 0, 0⟩, 1, 1⟩, ⟨0, 1, 0⟩, one_pos, one_pos, one_pos, by simp [V3.ext_iff], ?_⟩
  intro h
  have hz := congrArg V3.z h
  have hl : (⟨0, 1, 0⟩ : V3 ℝ).len = 1 := by simp [V3.len]
  have hpi := Real.pi_pos
  have : theta 1 1 1 ≠ 0 := by
    simp [theta]
  simp [magneticFieldTimeDeriv, hl, Medium.theta, this, Real.pi_ne_zero, Real.sqrt_eq_zero', not_le.2 hpi] at hz

end ElectricDipole

/-! ## C56: plane wave -/

namespace PlaneWave

variable (s : PlaneWave) (p : V3 ℝ)

/-- The time-and-depth profile of the electric field. -/
noncomputable def eAmp (mu sigma t z : ℝ) : ℝ :=
  -(Real.sqrt (mu * sigma) * z * Real.exp (-(mu * sigma * z ^ 2) / (4 * t))) / (2 * Real.sqrt Real.pi * (t * Real.sqrt t))

/-- The profile of the flux density. -/
noncomputable def bAmp (mu sigma t z : ℝ) : ℝ :=
  -(Real.sqrt (mu * sigma) / (Real.sqrt Real.pi * Real.sqrt t) * Real.exp (-(mu * sigma * z ^ 2) / (4 * t)))

theorem rpow_threehalf {t : ℝ} (ht : 0 < t) : t ^ (1.5 : ℝ) = t * Real.sqrt t := by
  rw [show (1.5 : ℝ) = 1 + 1 / 2 by norm_num, Real.rpow_add ht, Real.rpow_one, ← Real.sqrt_eq_rpow]

theorem rpow_half (x : ℝ) : x ^ (0.5 : ℝ) = Real.sqrt x := by
  rw [show (0.5 : ℝ) = 1 / 2 by norm_num, ← Real.sqrt_eq_rpow]

theorem electricField_eq (ht : 0 < s.time) : s.electricField p =
    s.orientation.map (fun c => c * (s.amplitude * eAmp s.mu s.sigma s.time p.z)) := by
  simp only [electricField, rpow_threehalf ht, rpow_half]
  ext <;> simp [eAmp] <;> ring_nf <;> simp

theorem magneticFluxDensity_eq (hs : 0 < s.sigma) (hm : 0 < s.mu) : s.magneticFluxDensity p =
    (⟨-s.orientation.y, s.orientation.x, 0⟩ : V3 ℝ).map (fun c => c * (s.amplitude * bAmp s.mu s.sigma s.time p.z)) := by
  have e : Real.sqrt (s.sigma * s.mu / (Real.pi * s.time)) =
      Real.sqrt (s.mu * s.sigma) / (Real.sqrt Real.pi * Real.sqrt s.time) := by
    rw [Real.sqrt_div (by positivity), Real.sqrt_mul Real.pi_pos.le, mul_comm s.sigma]
  have e2 : -s.mu * s.sigma * p.z ^ 2 = -(s.mu * s.sigma * p.z ^ 2) := by ring
  simp only [magneticFluxDensity, e, e2]
  ext <;> simp [bAmp] <;> ring_nf <;> simp

section deriv

variable {mu sigma t z : ℝ}

theorem hasDerivAt_exp_z : HasDerivAt (fun z : ℝ => Real.exp (-(mu * sigma * z ^ 2) / (4 * t)))
    (Real.exp (-(mu * sigma * z ^ 2) / (4 * t)) * (-(2 * mu * sigma * z) / (4 * t))) z := by
  refine ((((hasDerivAt_id' z).fun_pow 2).const_mul (mu * sigma)).fun_neg.div_const (4 * t)).exp.congr_deriv ?_
  push_cast; ring

theorem hasDerivAt_exp_t (ht : t ≠ 0) : HasDerivAt (fun t : ℝ => Real.exp (-(mu * sigma * z ^ 2) / (4 * t)))
    (Real.exp (-(mu * sigma * z ^ 2) / (4 * t)) * ((mu * sigma * z ^ 2) / (4 * t ^ 2))) t := by
  refine (((hasDerivAt_const t (-(mu * sigma * z ^ 2))).fun_div ((hasDerivAt_id' t).const_mul 4)
    (by simpa using ht)).exp).congr_deriv ?_
  field_simp; ring

/-- `∂b/∂z = - mu sigma e`. -/
theorem hasDerivAt_bAmp_z (ht : 0 < t) :
    HasDerivAt (bAmp mu sigma t) (-(mu * sigma * eAmp mu sigma t z)) z := by
  have h1 := Real.sqrt_pos.2 ht
  have h2 := Real.sqrt_pos.2 Real.pi_pos
  refine ((hasDerivAt_exp_z (t := t)).const_mul _).fun_neg.congr_deriv ?_
  simp only [eAmp]
  field_simp
  ring

/-- The profile of the rate of change of the flux density. -/
noncomputable def dAmp (mu sigma t z : ℝ) : ℝ :=
  Real.sqrt (mu * sigma) / Real.sqrt Real.pi * Real.exp (-(mu * sigma * z ^ 2) / (4 * t)) /
    (2 * (t * Real.sqrt t)) * (1 - mu * sigma * z ^ 2 / (2 * t))

/-- `∂e/∂z = - ∂b/∂t`, in closed form. -/
theorem hasDerivAt_dAmp (ht : 0 < t) : HasDerivAt (eAmp mu sigma t) (-dAmp mu sigma t z) z ∧
    HasDerivAt (fun t => bAmp mu sigma t z) (dAmp mu sigma t z) t := by
  have h1 := Real.sqrt_pos.2 ht
  have h2 := Real.sqrt_pos.2 Real.pi_pos
  have hsq := Real.sq_sqrt ht.le
  unfold dAmp
  refine ⟨?_, ?_⟩
  · refine ((((hasDerivAt_id' z).const_mul (Real.sqrt (mu * sigma))).fun_mul
      (hasDerivAt_exp_z (t := t))).fun_neg.div_const (2 * Real.sqrt Real.pi * (t * Real.sqrt t))).congr_deriv ?_
    field_simp
    ring
  · have hd := (((hasDerivAt_const t (Real.sqrt (mu * sigma))).fun_div
      ((Real.hasDerivAt_sqrt ht.ne').const_mul (Real.sqrt Real.pi)) (by positivity)).fun_mul
      (hasDerivAt_exp_t (mu := mu) (sigma := sigma) (z := z) ht.ne')).fun_neg
    refine hd.congr_deriv ?_
    set S := Real.sqrt t
    have ht' : t = S ^ 2 := hsq.symm
    rw [ht']
    field_simp
    ring

/-- `∂e/∂z = - ∂b/∂t`. -/
theorem hasDerivAt_eAmp_z (ht : 0 < t) : ∃ d, HasDerivAt (eAmp mu sigma t) (-d) z ∧
    HasDerivAt (fun t => bAmp mu sigma t z) d t :=
  ⟨_, hasDerivAt_dAmp ht⟩

end deriv

theorem hasJac_planar (a : V3 ℝ) {f : ℝ → ℝ} {f' : ℝ} (h : HasDerivAt f f' p.z) :
    HasJac (fun q => a.map (fun c => c * f q.z)) ⟨⟨0, 0, a.x * f'⟩, ⟨0, 0, a.y * f'⟩, ⟨0, 0, a.z * f'⟩⟩ p := by
  have g := HasGrad.comp h (hasGrad_z p)
  refine ⟨(g.const_mul a.x).congr ?_, (g.const_mul a.y).congr ?_, (g.const_mul a.z).congr ?_⟩ <;> ext <;> simp

/-- **C56.** Faraday's law `curl E = - dB/dt` at every point and every `t > 0`: the vector `D` is the time derivative
of the returned flux density, and the curl of the returned electric field is `-D`. -/
theorem faraday (ht : 0 < s.time) (hs : 0 < s.sigma) (hm : 0 < s.mu) :
    ∃ D : V3 ℝ, HasCurl s.electricField (-D) p ∧
      HasDerivAt (fun t => ({ s with time := t }.magneticFluxDensity p).x) D.x s.time ∧
      HasDerivAt (fun t => ({ s with time := t }.magneticFluxDensity p).y) D.y s.time ∧
      HasDerivAt (fun t => ({ s with time := t }.magneticFluxDensity p).z) D.z s.time := by
  obtain ⟨d, h1, h2⟩ := hasDerivAt_eAmp_z (mu := s.mu) (sigma := s.sigma) (z := p.z) ht
  have hev : ∀ᶠ t in nhds s.time, ({ s with time := t } : PlaneWave).magneticFluxDensity p =
      (⟨-s.orientation.y, s.orientation.x, 0⟩ : V3 ℝ).map (fun c => c * (s.amplitude * bAmp s.mu s.sigma t p.z)) := by
    filter_upwards with t
    exact magneticFluxDensity_eq { s with time := t } p hs hm
  refine ⟨⟨-s.orientation.y * (s.amplitude * d), s.orientation.x * (s.amplitude * d), 0 * (s.amplitude * d)⟩,
    ⟨⟨⟨0, 0, s.orientation.x * (s.amplitude * -d)⟩, ⟨0, 0, s.orientation.y * (s.amplitude * -d)⟩,
      ⟨0, 0, s.orientation.z * (s.amplitude * -d)⟩⟩, ?_, ?_⟩, ?_, ?_, ?_⟩
  · have := hasJac_planar p s.orientation (h1.const_mul s.amplitude)
    rw [show s.electricField = fun q => s.orientation.map
      (fun c => c * (s.amplitude * eAmp s.mu s.sigma s.time q.z)) from funext fun q => s.electricField_eq q ht]
    exact this
  · ext <;> simp [M3.curl]
  all_goals
    refine (((h2.const_mul s.amplitude).const_mul _).congr_of_eventuallyEq ?_)
    filter_upwards [hev] with t ht'
    rw [ht']
    rfl

/-- **C56.** Ampère's law `curl H = sigma E` at every point and every `t > 0`. -/
theorem ampere (ht : 0 < s.time) (hs : 0 < s.sigma) (hm : 0 < s.mu) (ho : s.orientation.z = 0) :
    HasCurl s.magneticField (s.sigma • s.electricField p) p := by
  have h := hasDerivAt_bAmp_z (mu := s.mu) (sigma := s.sigma) (z := p.z) ht
  have e : s.magneticField = fun q => (⟨-s.orientation.y, s.orientation.x, 0⟩ : V3 ℝ).map
      (fun c => c * (s.amplitude / s.mu * bAmp s.mu s.sigma s.time q.z)) := by
    funext q
    rw [magneticField, s.magneticFluxDensity_eq q hs hm]
    ext <;> simp <;> ring
  refine ⟨⟨⟨0, 0, -s.orientation.y * (s.amplitude / s.mu * -(s.mu * s.sigma * eAmp s.mu s.sigma s.time p.z))⟩,
      ⟨0, 0, s.orientation.x * (s.amplitude / s.mu * -(s.mu * s.sigma * eAmp s.mu s.sigma s.time p.z))⟩,
      ⟨0, 0, 0 * (s.amplitude / s.mu * -(s.mu * s.sigma * eAmp s.mu s.sigma s.time p.z))⟩⟩, ?_, ?_⟩
  · rw [e]
    exact hasJac_planar p ⟨-s.orientation.y, s.orientation.x, 0⟩ (h.const_mul (s.amplitude / s.mu))
  · rw [s.electricField_eq p ht]
    ext <;> simp [M3.curl, ho] <;> field_simp

/-- **C56.** Both fields are divergence-free. -/
theorem div_free (ht : 0 < s.time) (hs : 0 < s.sigma) (hm : 0 < s.mu) (ho : s.orientation.z = 0) :
    HasDiv s.electricField 0 p ∧ HasDiv s.magneticFluxDensity 0 p := by
  obtain ⟨d, h1, -⟩ := hasDerivAt_eAmp_z (mu := s.mu) (sigma := s.sigma) (z := p.z) ht
  have h := hasDerivAt_bAmp_z (mu := s.mu) (sigma := s.sigma) (z := p.z) ht
  rw [show s.electricField = _ from funext fun q => s.electricField_eq q ht,
    show s.magneticFluxDensity = _ from funext fun q => s.magneticFluxDensity_eq q hs hm]
  exact ⟨⟨_, hasJac_planar p s.orientation (h1.const_mul s.amplitude), by simp [M3.trace, ho]⟩,
    ⟨_, hasJac_planar p ⟨-s.orientation.y, s.orientation.x, 0⟩ (h.const_mul s.amplitude), by simp [M3.trace]⟩⟩

/-- **C56.** Both fields are horizontal and orthogonal at every point. -/
theorem horizontal (ho : s.orientation.z = 0) :
    (s.electricField p).z = 0 ∧ (s.magneticField p).z = 0 ∧
      (s.electricField p).dot (s.magneticField p) = 0 := by
  refine ⟨by simp [electricField, ho], by simp [magneticField, magneticFluxDensity], ?_⟩
  simp [electricField, magneticField, magneticFluxDensity, V3.dot, ho]
  ring

/-- **C56.** `B = mu H` and `J = sigma E`. -/
theorem constitutive (hm : 0 < s.mu) : s.magneticFluxDensity p = s.mu • s.magneticField p ∧
    s.currentDensity p = s.sigma • s.electricField p := by
  refine ⟨?_, rfl⟩
  ext <;> simp [magneticField] <;> field_simp

end PlaneWave

/-! ## C57: peak time -/

/-- `t ↦ exp(-a/t) t^{-3/2}` has its strict global maximum over `t > 0` at `t = 2a/3`. -/
theorem gauss_peak {a t : ℝ} (ha : 0 < a) (ht : 0 < t) (hne : t ≠ 2 * a / 3) :
    Real.exp (-a / t) / (t * Real.sqrt t) <
      Real.exp (-a / (2 * a / 3)) / ((2 * a / 3) * Real.sqrt (2 * a / 3)) := by
  set T := 2 * a / 3 with hT
  have hTpos : 0 < T := by positivity
  have haT : a = 3 / 2 * T := by rw [hT]; ring
  have hu : T / t ≠ 1 := fun h => hne (by rw [div_eq_one_iff_eq ht.ne'] at h; exact h.symm)
  have key : T / t < Real.exp (T / t - 1) := by
    have := Real.add_one_lt_exp (sub_ne_zero.2 hu)
    linarith
  have hpos : ∀ x : ℝ, 0 < x → x * Real.sqrt x = x ^ (3 / 2 : ℝ) := fun x hx => by
    rw [show (3 / 2 : ℝ) = 1 + 1 / 2 by norm_num, Real.rpow_add hx, Real.rpow_one, ← Real.sqrt_eq_rpow]
  rw [hpos t ht, hpos T hTpos]
  have h1 : (T / t) ^ (3 / 2 : ℝ) < Real.exp (T / t - 1) ^ (3 / 2 : ℝ) :=
    Real.rpow_lt_rpow (by positivity) key (by norm_num)
  rw [Real.div_rpow hTpos.le ht.le, ← Real.exp_mul] at h1
  have e1 : -a / t = -(3 / 2) * (T / t) := by rw [haT]; ring
  have e2 : -a / T = -(3 / 2) := by rw [haT]; field_simp
  rw [e1, e2]
  have p1 : 0 < t ^ (3 / 2 : ℝ) := Real.rpow_pos_of_pos ht _
  have p2 : 0 < T ^ (3 / 2 : ℝ) := Real.rpow_pos_of_pos hTpos _
  rw [div_lt_div_iff₀ p1 p2]
  rw [div_lt_iff₀ p1] at h1
  have e3 : Real.exp ((T / t - 1) * (3 / 2)) = Real.exp (-(3 / 2)) / Real.exp (-(3 / 2) * (T / t)) := by
    rw [← Real.exp_sub]; congr 1; ring
  rw [e3, div_mul_eq_mul_div, lt_div_iff₀ (Real.exp_pos _)] at h1
  linarith

/-- **C57.** At every depth `z ≠ 0` and for every non-zero amplitude and orientation component, the modulus of the
electric field of the transient plane wave, over all times `t > 0`, is largest at `t = peak_time(z)` and only there. -/
theorem peakTime_is_peak (s : PlaneWave) (p : V3 ℝ) (hs : 0 < s.sigma) (hm : 0 < s.mu) (hz : p.z ≠ 0)
    (hA : s.amplitude ≠ 0) (hx : s.orientation.x ≠ 0) (t : ℝ) (ht : 0 < t) (hne : t ≠ s.peakTime p.z) :
    |({ s with time := t }.electricField p).x| < |({ s with time := s.peakTime p.z }.electricField p).x| := by
  have hT : 0 < s.peakTime p.z := by
    have := pow_pos (abs_pos.2 hz) 2
    rw [sq_abs] at this
    simp only [Medium.peakTime, peakTime]; positivity
  rw [PlaneWave.electricField_eq _ p ht, PlaneWave.electricField_eq _ p hT]
  simp only [V3.map_x, abs_mul]
  refine mul_lt_mul_of_pos_left (mul_lt_mul_of_pos_left ?_ (abs_pos.2 hA)) (abs_pos.2 hx)
  set a := s.mu * s.sigma * p.z ^ 2 / 4 with ha
  have hapos : 0 < a := by
    have := pow_pos (abs_pos.2 hz) 2
    rw [sq_abs] at this
    positivity
  have hTa : s.peakTime p.z = 2 * a / 3 := by simp only [Medium.peakTime, peakTime, ha]; ring
  have habs : ∀ t : ℝ, 0 < t → |PlaneWave.eAmp s.mu s.sigma t p.z| =
      Real.sqrt (s.mu * s.sigma) * |p.z| / (2 * Real.sqrt Real.pi) * (Real.exp (-a / t) / (t * Real.sqrt t)) := by
    intro t ht
    have h1 := Real.sqrt_pos.2 ht
    have h2 := Real.sqrt_pos.2 Real.pi_pos
    have h3 : -(s.mu * s.sigma * p.z ^ 2) / (4 * t) = -a / t := by rw [ha]; field_simp
    rw [PlaneWave.eAmp, h3, abs_div, abs_neg, abs_mul, abs_mul, abs_of_nonneg (Real.sqrt_nonneg (s.mu * s.sigma)),
      abs_of_pos (Real.exp_pos _), abs_of_pos (by positivity : 0 < 2 * Real.sqrt Real.pi * (t * Real.sqrt t))]
    field_simp
  rw [habs t ht, habs _ hT, hTa]
  have h2 := Real.sqrt_pos.2 Real.pi_pos
  have h4 : 0 < Real.sqrt (s.mu * s.sigma) := Real.sqrt_pos.2 (by positivity)
  have h5 := abs_pos.2 hz
  exact mul_lt_mul_of_pos_left (gauss_peak hapos ht (by rw [← hTa]; exact hne)) (by positivity)

/-- **C57.** The same for the length of the electric field vector, whatever the direction of the wave. -/
theorem peakTime_is_peak_length (s : PlaneWave) (p : V3 ℝ) (hs : 0 < s.sigma) (hm : 0 < s.mu) (hz : p.z ≠ 0)
    (hA : s.amplitude ≠ 0) (ho : s.orientation ≠ 0) (t : ℝ) (ht : 0 < t) (hne : t ≠ s.peakTime p.z) :
    ({ s with time := t }.electricField p).len < ({ s with time := s.peakTime p.z }.electricField p).len := by
  have scale : ∀ t : ℝ, ({ s with time := t }.electricField p).len =
      s.orientation.len * |({ ({ s with orientation := ⟨1, 0, 0⟩ } : PlaneWave) with time := t }.electricField p).x| := by
    intro t
    have e : ({ s with time := t }.electricField p) =
        ({ ({ s with orientation := ⟨1, 0, 0⟩ } : PlaneWave) with time := t }.electricField p).x • s.orientation := by
      ext <;> simp [PlaneWave.electricField, mul_comm]
    rw [e, V3.len_smul, mul_comm]
  rw [scale, scale]
  exact mul_lt_mul_of_pos_left
    (peakTime_is_peak { s with orientation := ⟨1, 0, 0⟩ } p hs hm hz hA one_ne_zero t ht hne) (V3.len_pos ho)

/-- **C57.** `theta · diffusion_distance = 1/√2`, i.e. the square of the product is one half. -/
theorem theta_diffusionDistance {t sigma mu : ℝ} (ht : 0 < t) (hs : 0 < sigma) (hm : 0 < mu) :
    (theta t sigma mu * diffusionDistance t sigma mu) ^ 2 = 1 / 2 ∧
      0 < theta t sigma mu ∧ 0 < diffusionDistance t sigma mu := by
  refine ⟨?_, Real.sqrt_pos.2 (by positivity), Real.sqrt_pos.2 (by positivity)⟩
  rw [mul_pow, theta, diffusionDistance, Real.sq_sqrt (by positivity), Real.sq_sqrt (by positivity)]
  field_simp; norm_num

/-- **C57.** The peak time at the diffusion distance of `t` is a third of `t`. -/
theorem peakTime_diffusionDistance {t sigma mu : ℝ} (ht : 0 < t) (hs : 0 < sigma) (hm : 0 < mu) :
    peakTime (diffusionDistance t sigma mu) sigma mu = t / 3 := by
  rw [peakTime, diffusionDistance, Real.sq_sqrt (by positivity)]
  field_simp; norm_num

/-- **C57.** `theta² · 4 t = mu sigma`. -/
theorem theta_sq_mul {t sigma mu : ℝ} (ht : 0 < t) (hs : 0 < sigma) (hm : 0 < mu) :
    theta t sigma mu ^ 2 * (4 * t) = mu * sigma := by
  rw [theta, Real.sq_sqrt (by positivity)]; field_simp

/-- **C57.** `theta · z` at the peak time of depth `z` is `√(3/2)`, in squared form. -/
theorem theta_peakTime {z sigma mu : ℝ} (hz : z ≠ 0) (hs : 0 < sigma) (hm : 0 < mu) :
    (theta (peakTime z sigma mu) sigma mu * z) ^ 2 = 3 / 2 := by
  have hz2 : 0 < z ^ 2 := by positivity
  rw [mul_pow, theta, peakTime, Real.sq_sqrt (by positivity)]
  field_simp; norm_num

end Verif.Tdem
