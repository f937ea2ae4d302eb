import Verif.Spec.StaticLimit
import Verif.Props.Wavenumber
import Verif.Props.TransientDecay
import Verif.Model.StaticWholeSpace
import Verif.Model.Tdem
import Mathlib.Analysis.SpecialFunctions.Exp

/-! # C105: slow variation is static -/

namespace Verif

open V3 Filter
open scoped Topology

/-! ## Harmonic fields -/

namespace Fdem

open Complex (I)

theorem tendsto_omega : Tendsto (fun f => (omega f : ℂ)) (𝓝 0) (𝓝 0) := by
  have : Continuous fun f : ℝ => (omega f : ℂ) := by unfold omega; fun_prop
  simpa [omega] using this.tendsto 0

/-- **C105.** The wavenumber vanishes at low frequency. -/
theorem wavenumber_low (sigma mu epsilon : ℝ) (q : Flag) : Tendsto (fun f => wavenumber f sigma mu epsilon q) (𝓝[>] 0) (𝓝 0) := by
  have hc : Continuous fun f : ℝ => -I * (omega f : ℂ) * mu * sigmaHat f sigma epsilon q := by
    unfold omega sigmaHat omega
    split <;> fun_prop
  have h2 : Tendsto (fun f => ‖wavenumber f sigma mu epsilon q‖ ^ 2) (𝓝 0) (𝓝 0) := by
    have := hc.norm.tendsto 0
    simp only [omega, mul_zero, Complex.ofReal_zero, zero_mul, norm_zero] at this
    refine this.congr fun f => ?_
    rw [← norm_pow, wavenumber_sq_sigmaHat, omega]
  have h3 := (Real.continuous_sqrt.tendsto 0).comp h2
  rw [Real.sqrt_zero] at h3
  refine (tendsto_zero_iff_norm_tendsto_zero.2 (h3.congr fun f => ?_)).mono_left nhdsWithin_le_nhds
  simp [Real.sqrt_sq]

theorem low {g : ℂ → ℂ → ℂ} (hg : Continuous fun z : ℂ × ℂ => g z.1 z.2) (sigma mu epsilon : ℝ) (q : Flag) :
    Tendsto (fun f => g (wavenumber f sigma mu epsilon q) (omega f)) (𝓝[>] 0) (𝓝 (g 0 0)) :=
  ((hg.tendsto (0, 0)).comp ((wavenumber_low sigma mu epsilon q).prodMk_nhds (tendsto_omega.mono_left nhdsWithin_le_nhds)))

/-- The dipole field shared by both dipoles. -/
theorem low_dipole (front : ℂ) (r d : ℝ) (u o : V3 ℝ) (sigma mu epsilon : ℝ) (q : Flag) :
    Tends (fun f => (u.map (fun c : ℝ => d * (-(wavenumber f sigma mu epsilon q * r) ^ 2 + 3 * (I * (wavenumber f sigma mu epsilon q * r)) + 3) * c) +
        o.map (fun c : ℝ => ((wavenumber f sigma mu epsilon q * r) ^ 2 - I * (wavenumber f sigma mu epsilon q * r) - 1) * c)).map
      (fun c => front * Complex.exp (-(I * (wavenumber f sigma mu epsilon q * r))) * c)) (𝓝[>] 0)
      ⟨front * (3 * d * u.x - o.x), front * (3 * d * u.y - o.y), front * (3 * d * u.z - o.z)⟩ := by
  have h (u o : ℝ) := low (g := fun k _ => front * Complex.exp (-(I * (k * r))) *
    (d * (-(k * r) ^ 2 + 3 * (I * (k * r)) + 3) * u + ((k * r) ^ 2 - I * (k * r) - 1) * o)) (by fun_prop) sigma mu epsilon q
  refine ⟨?_, ?_, ?_⟩ <;> simp only [map_x, map_y, map_z, add_x, add_y, add_z]
  · convert h u.x o.x using 2
    simp only [zero_mul, mul_zero, neg_zero, Complex.exp_zero]
    ring
  · convert h u.y o.y using 2
    simp only [zero_mul, mul_zero, neg_zero, Complex.exp_zero]
    ring
  · convert h u.z o.z using 2
    simp only [zero_mul, mul_zero, neg_zero, Complex.exp_zero]
    ring

/-- The field that circulates about the dipole. -/
theorem low_circular (a : ℂ → ℂ) (ha : Continuous a) (r : ℝ) (u : V3 ℝ) (sigma mu epsilon : ℝ) (q : Flag) :
    Tends (fun f => u.map (fun c : ℝ => a (omega f) * (I * (wavenumber f sigma mu epsilon q * r) + 1) *
      Complex.exp (-(I * (wavenumber f sigma mu epsilon q * r))) * c)) (𝓝[>] 0) (u.map (fun c : ℝ => a 0 * c)) := by
  have h (u : ℝ) := low (g := fun k w => a w * (I * (k * r) + 1) * Complex.exp (-(I * (k * r))) * u) (by fun_prop) sigma mu epsilon q
  refine ⟨?_, ?_, ?_⟩ <;> simp only [map_x, map_y, map_z]
  · convert h u.x using 2
    simp
  · convert h u.y using 2
    simp
  · convert h u.z using 2
    simp

/-- The potentials. -/
theorem low_potential (a : ℂ → ℂ) (ha : Continuous a) (r : ℝ) (u : V3 ℝ) (sigma mu epsilon : ℝ) (q : Flag) :
    Tends (fun f => u.map (fun c : ℝ => a (omega f) * Complex.exp (-I * wavenumber f sigma mu epsilon q * r) * c)) (𝓝[>] 0)
      (u.map (fun c : ℝ => a 0 * c)) := by
  have h (u : ℝ) := low (g := fun k w => a w * Complex.exp (-I * k * r) * u) (by fun_prop) sigma mu epsilon q
  refine ⟨?_, ?_, ?_⟩ <;> simp only [map_x, map_y, map_z]
  · convert h u.x using 2
    simp
  · convert h u.y using 2
    simp
  · convert h u.z using 2
    simp

namespace ElectricDipole

variable (s : ElectricDipole) (p : V3 ℝ)

/-- **C105.** At low frequency the electric field of the electric dipole is that of the steady current element. -/
theorem low_electric (hp : p ≠ s.location) :
    Tends (fun f => ({ s with frequency := f } : ElectricDipole).electricField p) (𝓝[>] 0)
      ((CurrentElement.electric s.sigma ((s.current * s.length) • s.orientation) (p - s.location)).map (↑)) := by
  have hr := len_sub_ne_zero hp
  have hrc : ((p - s.location).len : ℂ) ≠ 0 := by exact_mod_cast hr
  have h := low_dipole (s.current * s.length / (4 * Real.pi * s.sigma * (p - s.location).len ^ 3)) (p - s.location).len
    (((p - s.location).map (· / (p - s.location).len)).dot s.orientation) ((p - s.location).map (· / (p - s.location).len)) s.orientation
    s.sigma s.mu s.epsilon s.quasistatic
  simp only [electricField, Medium.wavenumber]
  convert h using 1
  ext <;>
  · simp only [CurrentElement.electric, dot, map_x, map_y, map_z, smul_x, smul_y, smul_z, sub_x, sub_y, sub_z, smul_eq_mul]
    push_cast
    generalize ((p - s.location).len : ℂ) = r at *
    field_simp

/-- **C105.** Its magnetic field is that of Biot and Savart. -/
theorem low_magnetic (hp : p ≠ s.location) :
    Tends (fun f => ({ s with frequency := f } : ElectricDipole).magneticField p) (𝓝[>] 0)
      ((CurrentElement.magnetic ((s.current * s.length) • s.orientation) (p - s.location)).map (↑)) := by
  have hr := len_sub_ne_zero hp
  have hrc : ((p - s.location).len : ℂ) ≠ 0 := by exact_mod_cast hr
  have h := low_circular (fun _ => s.current * s.length / (4 * Real.pi * (p - s.location).len ^ 2)) (by fun_prop) (p - s.location).len
    (s.orientation.cross ((p - s.location).map (· / (p - s.location).len))) s.sigma s.mu s.epsilon s.quasistatic
  simp only [magneticField, Medium.wavenumber]
  convert h using 1
  ext <;>
  · simp only [CurrentElement.magnetic, map_x, map_y, map_z, cross_x, cross_y, cross_z, smul_x, smul_y, smul_z, sub_x, sub_y, sub_z, smul_eq_mul]
    push_cast
    generalize ((p - s.location).len : ℂ) = r at *
    field_simp

/-- **C105.** Its vector potential is that of the steady element. -/
theorem low_potential :
    Tends (fun f => ({ s with frequency := f } : ElectricDipole).vectorPotential p) (𝓝[>] 0)
      (((s.current * s.length / (4 * Real.pi * (p - s.location).len)) • s.orientation).map (↑)) := by
  have h := Fdem.low_potential (fun _ => s.current * s.length / (4 * Real.pi * (p - s.location).len)) (by fun_prop) (p - s.location).len
    s.orientation s.sigma s.mu s.epsilon s.quasistatic
  simp only [vectorPotential, Medium.wavenumber]
  convert h using 1
  ext <;> simp

end ElectricDipole

namespace MagneticDipole

variable (s : MagneticDipole) (p : V3 ℝ)

/-- The static dipole of the package with the same attributes. -/
def static : Static.MagDipole := ⟨s.mu, s.moment, s.location, s.orientation⟩

/-- **C105.** At low frequency the magnetic field of the magnetic dipole is what the static dipole of the package returns. -/
theorem low_magnetic (hmu : s.mu ≠ 0) :
    Tends (fun f => ({ s with frequency := f } : MagneticDipole).magneticField p) (𝓝[>] 0) ((s.static.magneticField p).map (↑)) ∧
    Tends (fun f => ({ s with frequency := f } : MagneticDipole).magneticFluxDensity p) (𝓝[>] 0) ((s.static.magneticFluxDensity p).map (↑)) := by
  have h := low_dipole (s.moment / (4 * Real.pi * (p - s.location).len ^ 3)) (p - s.location).len
    (((p - s.location).map (· / (p - s.location).len)).dot s.orientation) ((p - s.location).map (· / (p - s.location).len)) s.orientation
    s.sigma s.mu s.epsilon s.quasistatic
  have h1 : Tends (fun f => ({ s with frequency := f } : MagneticDipole).magneticField p) (𝓝[>] 0) ((s.static.magneticField p).map (↑)) := by
    simp only [magneticField, Medium.wavenumber]
    have hm : (s.mu : ℂ) ≠ 0 := by exact_mod_cast hmu
    convert h using 1
    ext <;>
    · simp only [static, Static.MagDipole.magneticField, Static.MagDipole.magneticFluxDensity, map_x, map_y, map_z]
      push_cast
      field_simp
  refine ⟨h1, ?_⟩
  have e : (s.static.magneticFluxDensity p).map Complex.ofReal = ((s.static.magneticField p).map Complex.ofReal).map (fun c : ℂ => s.mu * c) := by
    have hm : (s.mu : ℂ) ≠ 0 := by exact_mod_cast hmu
    ext <;> simp only [static, Static.MagDipole.magneticField, map_x, map_y, map_z] <;> push_cast <;> field_simp
  rw [e]
  exact ⟨h1.1.const_mul _, h1.2.1.const_mul _, h1.2.2.const_mul _⟩

/-- **C105.** It induces no electric field then. -/
theorem low_electric : Tends (fun f => ({ s with frequency := f } : MagneticDipole).electricField p) (𝓝[>] 0) 0 ∧
    Tends (fun f => ({ s with frequency := f } : MagneticDipole).vectorPotential p) (𝓝[>] 0) 0 := by
  have h := low_circular (fun w => (I * w * s.mu * s.moment) / (4 * Real.pi * (p - s.location).len ^ 2)) (by fun_prop) (p - s.location).len
    (((p - s.location).map (· / (p - s.location).len)).cross s.orientation) s.sigma s.mu s.epsilon s.quasistatic
  have h2 := low_potential (fun w => I * w * s.mu * s.moment / (4 * Real.pi * (p - s.location).len)) (by fun_prop) (p - s.location).len
    s.orientation s.sigma s.mu s.epsilon s.quasistatic
  simp only [electricField, vectorPotential, Medium.wavenumber, Medium.omega]
  constructor
  · convert h using 1
    ext <;> simp
  · convert h2 using 1
    ext <;> simp

end MagneticDipole

/-! ## High frequency, with displacement currents neglected -/

/-- The wavenumber of the diffusive regime. -/
theorem wavenumber_diffusive {f sigma mu epsilon : ℝ} (hf : 0 < f) (hs : 0 < sigma) (hm : 0 < mu) :
    wavenumber f sigma mu epsilon (.bool true) = Real.sqrt (omega f * mu * sigma / 2) * (1 - I) := by
  have hw : 0 < omega f := by unfold omega; positivity
  refine (wavenumber_unique hf hs hm (.bool true) _ ?_ ?_).symm
  · have h : ((Real.sqrt (omega f * mu * sigma / 2) : ℝ) : ℂ) ^ 2 = omega f * mu * sigma / 2 := by
      rw [← Complex.ofReal_pow, Real.sq_sqrt (by positivity)]
      push_cast
      ring
    rw [mul_pow, h, sigmaHat]
    simp only [Flag.isTrue, if_true]
    linear_combination (omega f * mu * sigma / 2 : ℂ) * Complex.I_sq
  · simp only [Complex.mul_im, Complex.ofReal_re, Complex.sub_im, Complex.one_im, Complex.I_im, Complex.ofReal_im]
    nlinarith [Real.sqrt_nonneg (omega f * mu * sigma / 2)]

theorem tendsto_damped (n : ℕ) {r : ℝ} (hr : 0 < r) :
    Tendsto (fun x : ℝ => (x : ℂ) ^ n * Complex.exp (-(I * (x * (1 - I) * r)))) atTop (𝓝 0) := by
  rw [tendsto_zero_iff_norm_tendsto_zero]
  have h := (Real.tendsto_pow_mul_exp_neg_atTop_nhds_zero n).comp (tendsto_id.atTop_mul_const hr)
  have h2 := h.const_mul ((1 / r) ^ n)
  rw [mul_zero] at h2
  refine h2.congr' ?_
  filter_upwards [eventually_ge_atTop 0] with x hx
  have e : (-(I * (x * (1 - I) * r)) : ℂ).re = -(x * r) := by simp
  rw [norm_mul, norm_pow, Complex.norm_real, Real.norm_of_nonneg hx, Complex.norm_exp, e]
  simp only [Function.comp, id, mul_pow, one_div, inv_pow]
  field_simp

theorem tendsto_root {sigma mu : ℝ} (hs : 0 < sigma) (hm : 0 < mu) :
    Tendsto (fun f => Real.sqrt (omega f * mu * sigma / 2)) atTop atTop := by
  refine Real.tendsto_sqrt_atTop.comp ?_
  have h : Tendsto (fun f : ℝ => 2 * Real.pi * mu * sigma / 2 * f) atTop atTop :=
    tendsto_id.const_mul_atTop (by have := Real.pi_pos; positivity)
  exact h.congr fun f => by simp only [omega]; ring

/-- What decays: the damped exponential times any polynomial of degree three in the wavenumber over `1 - i`. -/
theorem high {g : ℂ → ℂ → ℂ} {c0 c1 c2 c3 : ℂ} {sigma mu r : ℝ} (epsilon : ℝ) (hs : 0 < sigma) (hm : 0 < mu) (hr : 0 < r)
    (hg : ∀ x w : ℝ, x ^ 2 = w * mu * sigma / 2 → g (x * (1 - I)) w =
      (c0 + c1 * x + c2 * x ^ 2 + c3 * x ^ 3) * Complex.exp (-(I * (x * (1 - I) * r)))) :
    Tendsto (fun f => g (wavenumber f sigma mu epsilon (.bool true)) (omega f)) atTop (𝓝 0) := by
  have h := (((((tendsto_damped 0 hr).const_mul c0).add ((tendsto_damped 1 hr).const_mul c1)).add ((tendsto_damped 2 hr).const_mul c2)).add
    ((tendsto_damped 3 hr).const_mul c3)).comp (tendsto_root hs hm)
  simp only [mul_zero, add_zero] at h
  refine h.congr' ?_
  filter_upwards [eventually_gt_atTop 0] with f hf
  have hw : 0 < omega f := by unfold omega; have := Real.pi_pos; positivity
  rw [wavenumber_diffusive hf hs hm, hg _ _ (Real.sq_sqrt (by positivity))]
  simp only [Function.comp]
  ring

theorem high_dipole (front : ℂ) {r : ℝ} (hr : 0 < r) (d : ℝ) (u o : V3 ℝ) {sigma mu : ℝ} (epsilon : ℝ) (hs : 0 < sigma) (hm : 0 < mu) :
    Tends (fun f => (u.map (fun c : ℝ => d * (-(wavenumber f sigma mu epsilon (.bool true) * r) ^ 2 +
          3 * (I * (wavenumber f sigma mu epsilon (.bool true) * r)) + 3) * c) +
        o.map (fun c : ℝ => ((wavenumber f sigma mu epsilon (.bool true) * r) ^ 2 - I * (wavenumber f sigma mu epsilon (.bool true) * r) - 1) * c)).map
      (fun c => front * Complex.exp (-(I * (wavenumber f sigma mu epsilon (.bool true) * r))) * c)) atTop 0 := by
  have h (u o : ℝ) := high (g := fun k _ => front * Complex.exp (-(I * (k * r))) *
    (d * (-(k * r) ^ 2 + 3 * (I * (k * r)) + 3) * u + ((k * r) ^ 2 - I * (k * r) - 1) * o)) (c0 := front * (3 * d * u - o))
    (c1 := front * (I * ((1 - I) * r)) * (3 * d * u - o)) (c2 := front * ((1 - I) * r) ^ 2 * (o - d * u)) (c3 := 0) epsilon hs hm hr
    (fun x w _ => by ring)
  exact ⟨h u.x o.x, h u.y o.y, h u.z o.z⟩

theorem high_circular (a : ℂ) {r : ℝ} (hr : 0 < r) (u : V3 ℝ) {sigma mu : ℝ} (epsilon : ℝ) (hs : 0 < sigma) (hm : 0 < mu) :
    Tends (fun f => u.map (fun c : ℝ => a * (I * (wavenumber f sigma mu epsilon (.bool true) * r) + 1) *
      Complex.exp (-(I * (wavenumber f sigma mu epsilon (.bool true) * r))) * c)) atTop 0 := by
  have h (u : ℝ) := high (g := fun k _ => a * (I * (k * r) + 1) * Complex.exp (-(I * (k * r))) * u) (c0 := a * u)
    (c1 := a * (I * ((1 - I) * r)) * u) (c2 := 0) (c3 := 0) epsilon hs hm hr (fun x w _ => by ring)
  exact ⟨h u.x, h u.y, h u.z⟩

theorem high_induced (a b : ℂ) {r : ℝ} (hr : 0 < r) (u : V3 ℝ) {sigma mu : ℝ} (epsilon : ℝ) (hs : 0 < sigma) (hm : 0 < mu) :
    Tends (fun f => u.map (fun c : ℝ => I * omega f * mu * a / b * (I * (wavenumber f sigma mu epsilon (.bool true) * r) + 1) *
      Complex.exp (-(I * (wavenumber f sigma mu epsilon (.bool true) * r))) * c)) atTop 0 := by
  have h (u : ℝ) := high (g := fun k w => I * w * mu * a / b * (I * (k * r) + 1) * Complex.exp (-(I * (k * r))) * u) (c0 := 0) (c1 := 0)
    (c2 := 2 * I * a * u / (sigma * b)) (c3 := 2 * I * a * (I * ((1 - I) * r)) * u / (sigma * b)) epsilon hs hm hr (fun x w hx => by
      have hsc : (sigma : ℂ) ≠ 0 := by exact_mod_cast hs.ne'
      have e : (w * mu : ℂ) = 2 * x ^ 2 / sigma := by
        have : w * mu = 2 * x ^ 2 / sigma := by rw [hx]; field_simp
        exact_mod_cast this
      linear_combination (I * a / b * (I * (x * (1 - I) * r) + 1) * Complex.exp (-(I * (x * (1 - I) * r))) * u) * e)
  exact ⟨h u.x, h u.y, h u.z⟩

/-- **C105.** With displacement currents neglected the fields of the electric dipole vanish at high frequency. -/
theorem ElectricDipole.high_frequency (s : ElectricDipole) (p : V3 ℝ) (hs : 0 < s.sigma) (hm : 0 < s.mu) (hq : s.quasistatic = .bool true)
    (hp : p ≠ s.location) :
    Tends (fun f => ({ s with frequency := f } : ElectricDipole).electricField p) atTop 0 ∧
    Tends (fun f => ({ s with frequency := f } : ElectricDipole).magneticField p) atTop 0 := by
  simp only [electricField, magneticField, Medium.wavenumber, hq]
  exact ⟨high_dipole _ (len_sub_pos hp) _ _ _ s.epsilon hs hm, high_circular _ (len_sub_pos hp) _ s.epsilon hs hm⟩

/-- **C105.** So do those of the magnetic dipole. -/
theorem MagneticDipole.high_frequency (s : MagneticDipole) (p : V3 ℝ) (hs : 0 < s.sigma) (hm : 0 < s.mu) (hq : s.quasistatic = .bool true)
    (hp : p ≠ s.location) :
    Tends (fun f => ({ s with frequency := f } : MagneticDipole).electricField p) atTop 0 ∧
    Tends (fun f => ({ s with frequency := f } : MagneticDipole).magneticField p) atTop 0 := by
  simp only [electricField, magneticField, Medium.wavenumber, Medium.omega, hq]
  exact ⟨high_induced _ _ (len_sub_pos hp) _ s.epsilon hs hm, high_dipole _ (len_sub_pos hp) _ _ _ s.epsilon hs hm⟩

end Fdem

/-! ## Transient fields -/

namespace Tdem

open Real

theorem continuous_erf : Continuous erf := continuous_iff_continuousAt.2 fun u => (hasDerivAt_erf u).continuousAt

theorem tendsto_symTerm : Tendsto (fun u => 3 * erf u - (4 * u ^ 2 + 6) * (u / √π * exp (-u ^ 2))) atTop (𝓝 3) := by
  have h := (tendsto_erf_atTop.const_mul 3).sub ((((tendsto_pow_mul_gauss 3).const_mul 4).add ((tendsto_pow_mul_gauss 1).const_mul 6)).div_const √π)
  simp only [mul_one, mul_zero, add_zero, zero_div, sub_zero] at h
  exact h.congr fun u => by ring

theorem tendsto_orientTerm : Tendsto (fun u => erf u - (4 * u ^ 2 + 2) * (u / √π * exp (-u ^ 2))) atTop (𝓝 1) := by
  have h := tendsto_erf_atTop.sub ((((tendsto_pow_mul_gauss 3).const_mul 4).add ((tendsto_pow_mul_gauss 1).const_mul 2)).div_const √π)
  simp only [mul_zero, add_zero, zero_div, sub_zero] at h
  exact h.congr fun u => by ring

namespace ElectricDipole

variable (s : ElectricDipole) (p : V3 ℝ)

theorem start_theta (hs : 0 < s.sigma) (hm : 0 < s.mu) (hp : p ≠ s.location) :
    Tendsto (fun t => theta t s.sigma s.mu * (p - s.location).len) (𝓝[>] 0) atTop :=
  (tendsto_theta_zero hs hm).atTop_mul_const (len_sub_pos hp)

theorem end_theta : Tendsto (fun t => theta t s.sigma s.mu * (p - s.location).len) atTop (𝓝 0) := by
  simpa using (tendsto_theta_atTop s.sigma s.mu).mul_const (p - s.location).len

/-- **C105.** Right after the current is switched off the electric field is that of the steady current element. -/
theorem start_electric (hs : 0 < s.sigma) (hm : 0 < s.mu) (hp : p ≠ s.location) :
    Tends (fun t => ({ s with time := t } : ElectricDipole).electricField p) (𝓝[>] 0)
      (CurrentElement.electric s.sigma ((s.current * s.length) • s.orientation) (p - s.location)) := by
  have hr := len_sub_ne_zero hp
  have h1 := tendsto_symTerm.comp (s.start_theta p hs hm hp)
  have h2 := tendsto_orientTerm.comp (s.start_theta p hs hm hp)
  have h (k u o : ℝ) := ((h1.mul_const u).sub (h2.mul_const o)).const_mul k
  simp only [Function.comp] at h
  refine ⟨?_, ?_, ?_⟩ <;> simp only [electricField, Medium.theta, map_x, map_y, map_z, sub_x, sub_y, sub_z] <;>
  · convert h _ _ _ using 2
    simp only [CurrentElement.electric, dot, map_x, map_y, map_z, smul_x, smul_y, smul_z, sub_x, sub_y, sub_z, smul_eq_mul]
    generalize (p - s.location).len = r at *
    field_simp

/-- **C105.** The magnetic field then is that of Biot and Savart. -/
theorem start_magnetic (hs : 0 < s.sigma) (hm : 0 < s.mu) (hp : p ≠ s.location) :
    Tends (fun t => ({ s with time := t } : ElectricDipole).magneticField p) (𝓝[>] 0)
      (CurrentElement.magnetic ((s.current * s.length) • s.orientation) (p - s.location)) := by
  have hr := len_sub_ne_zero hp
  have h1 := tendsto_erfRest_atTop.comp (s.start_theta p hs hm hp)
  have h (k u : ℝ) := (h1.const_mul k).mul_const u
  simp only [Function.comp, erfRest, mul_div_right_comm] at h
  refine ⟨?_, ?_, ?_⟩ <;> simp only [magneticField, Medium.theta, map_x, map_y, map_z] <;>
  · convert h _ _ using 2
    simp only [CurrentElement.magnetic, cross_x, cross_y, cross_z, map_x, map_y, map_z, smul_x, smul_y, smul_z, sub_x, sub_y, sub_z, smul_eq_mul]
    generalize (p - s.location).len = r at *
    field_simp

/-- Non-vacuity: a dipole and a point with a limit that does not vanish. -/
example : ∃ (s : ElectricDipole) (p : V3 ℝ), 0 < s.sigma ∧ 0 < s.mu ∧ p ≠ s.location ∧
    (CurrentElement.electric s.sigma ((s.current * s.length) • s.orientation) (p - s.location)).x ≠ 0 := by
  refine ⟨⟨⟨1, 1, 1⟩, ⟨0, 0, 0⟩, ⟨1, 0, 0⟩, 1, 1⟩, ⟨1, 0, 0⟩, one_pos, one_pos, by simp [V3.ext_iff], ?_⟩
  have hl : ((⟨1, 0, 0⟩ : V3 ℝ) - ⟨0, 0, 0⟩).len = 1 := by simp [V3.len]
  have := pi_pos.ne'
  simp only [CurrentElement.electric, hl, dot, smul_x, smul_y, smul_z, sub_x, sub_y, sub_z, smul_eq_mul]
  norm_num

/-- **C105.** The vector potential then is that of the steady element. -/
theorem start_potential (hs : 0 < s.sigma) (hm : 0 < s.mu) (hp : p ≠ s.location) :
    Tends (fun t => ({ s with time := t } : ElectricDipole).vectorPotential p) (𝓝[>] 0)
      ((s.current * s.length / (4 * π * (p - s.location).len)) • s.orientation) := by
  have h1 := tendsto_erf_atTop.comp (s.start_theta p hs hm hp)
  have h (k u : ℝ) := (h1.const_mul k).mul_const u
  simp only [Function.comp, mul_one] at h
  exact ⟨h _ _, h _ _, h _ _⟩

theorem at_end {g : ℝ → ℝ} (hg : Continuous g) (h0 : g 0 = 0) :
    Tendsto (fun t => g (theta t s.sigma s.mu * (p - s.location).len)) atTop (𝓝 0) := by
  have h := (hg.tendsto 0).comp (s.end_theta p)
  rwa [h0] at h

/-- **C105.** Long after it all fields have vanished. -/
theorem end_fields : Tends (fun t => ({ s with time := t } : ElectricDipole).electricField p) atTop 0 ∧
    Tends (fun t => ({ s with time := t } : ElectricDipole).magneticField p) atTop 0 ∧
    Tends (fun t => ({ s with time := t } : ElectricDipole).vectorPotential p) atTop 0 := by
  have hc := continuous_erf
  have h1 (k u o : ℝ) := s.at_end p (g := fun u' => k * ((3 * erf u' - (4 * u' ^ 2 + 6) * (u' / √π * exp (-u' ^ 2))) * u -
    (erf u' - (4 * u' ^ 2 + 2) * (u' / √π * exp (-u' ^ 2))) * o)) (by fun_prop) (by simp)
  have h2 (k u : ℝ) := s.at_end p (g := fun u' => k * (erf u' - 2 / √π * u' * exp (-u' ^ 2)) * u) (by fun_prop) (by simp)
  have h3 (k u : ℝ) := s.at_end p (g := fun u' => k * erf u' * u) (by fun_prop) (by simp)
  simp only [Tends, electricField, magneticField, vectorPotential, Medium.theta, map_x, map_y, map_z, sub_x, sub_y, sub_z, zero_x, zero_y, zero_z]
  exact ⟨⟨h1 _ _ _, h1 _ _ _, h1 _ _ _⟩, ⟨h2 _ _, h2 _ _, h2 _ _⟩, ⟨h3 _ _, h3 _ _, h3 _ _⟩⟩

/-- **C105.** The rate of change of the magnetic field vanishes at both ends. -/
theorem rate_limits (hs : 0 < s.sigma) (hm : 0 < s.mu) (hp : p ≠ s.location) :
    Tends (fun t => ({ s with time := t } : ElectricDipole).magneticFieldTimeDeriv p) (𝓝[>] 0) 0 ∧
    Tends (fun t => ({ s with time := t } : ElectricDipole).magneticFieldTimeDeriv p) atTop 0 := by
  have hr := len_sub_pos hp
  have hpi : √π ≠ 0 := (sqrt_pos.2 pi_pos).ne'
  have h1 := (tendsto_pow_mul_gauss 5).comp (s.start_theta p hs hm hp)
  have h1 : Tendsto (fun t => -2 * (theta t s.sigma s.mu * (p - s.location).len) ^ 3 / (√π * t) *
      exp (-(theta t s.sigma s.mu * (p - s.location).len) ^ 2)) (𝓝[>] 0) (𝓝 0) := by
    have := h1.const_mul (-8 / (√π * s.mu * s.sigma * (p - s.location).len ^ 2))
    rw [mul_zero] at this
    refine this.congr' ?_
    filter_upwards [self_mem_nhdsWithin] with t ht
    have ht : 0 < t := ht
    have e : theta t s.sigma s.mu ^ 2 = s.mu * s.sigma / (4 * t) := by rw [theta, sq_sqrt (by positivity)]
    have e5 : theta t s.sigma s.mu ^ 5 = s.mu * s.sigma / (4 * t) * theta t s.sigma s.mu ^ 3 := by rw [← e]; ring
    simp only [Function.comp, mul_pow, e5]
    field_simp
    ring
  have h2 := (s.at_end p (g := fun u => -2 * u ^ 3 / √π * exp (-u ^ 2)) (by fun_prop) (by simp)).mul tendsto_inv_atTop_zero
  rw [mul_zero] at h2
  have h2 : Tendsto (fun t => -2 * (theta t s.sigma s.mu * (p - s.location).len) ^ 3 / (√π * t) *
      exp (-(theta t s.sigma s.mu * (p - s.location).len) ^ 2)) atTop (𝓝 0) := h2.congr fun t => by
    field_simp
  have g1 (k u : ℝ) := (h1.const_mul k).mul_const u
  have g2 (k u : ℝ) := (h2.const_mul k).mul_const u
  simp only [mul_zero, zero_mul] at g1 g2
  simp only [Tends, magneticFieldTimeDeriv, Medium.theta, map_x, map_y, map_z, zero_x, zero_y, zero_z, ← mul_assoc] at g1 g2 ⊢
  exact ⟨⟨g1 _ _, g1 _ _, g1 _ _⟩, ⟨g2 _ _, g2 _ _, g2 _ _⟩⟩

end ElectricDipole

theorem tendsto_early (a : ℝ) {c : ℝ} (hc : 0 < c) : Tendsto (fun t : ℝ => exp (-(c / t)) / t ^ a) (𝓝[>] 0) (𝓝 0) := by
  have h := (tendsto_rpow_mul_exp_neg_mul_atTop_nhds_zero a c hc).comp tendsto_inv_nhdsGT_zero
  refine h.congr' ?_
  filter_upwards [self_mem_nhdsWithin] with t ht
  have ht : 0 < t := ht
  simp only [Function.comp]
  rw [inv_rpow ht.le, neg_mul, ← div_eq_mul_inv c]
  ring

theorem tendsto_late {a : ℝ} (ha : 0 < a) (c : ℝ) : Tendsto (fun t : ℝ => exp (-(c / t)) / t ^ a) atTop (𝓝 0) := by
  have h1 : Tendsto (fun t : ℝ => exp (-(c / t))) atTop (𝓝 (exp (-0))) :=
    (continuous_exp.tendsto _).comp (tendsto_const_nhds.div_atTop tendsto_id).neg
  have h2 := h1.mul (tendsto_rpow_neg_atTop ha)
  rw [mul_zero] at h2
  refine h2.congr' ?_
  filter_upwards [eventually_ge_atTop 0] with t ht
  rw [rpow_neg ht]
  ring

namespace PlaneWave

variable (s : PlaneWave) (p : V3 ℝ)

theorem shapes {l : Filter ℝ} (hl : ∀ᶠ t in l, 0 < t)
    (h : ∀ a : ℝ, 0 < a → Tendsto (fun t : ℝ => exp (-(s.mu * s.sigma * p.z ^ 2 / 4 / t)) / t ^ a) l (𝓝 0)) (hs : 0 < s.sigma) (hm : 0 < s.mu) :
    Tends (fun t => ({ s with time := t } : PlaneWave).electricField p) l 0 ∧
      Tends (fun t => ({ s with time := t } : PlaneWave).magneticField p) l 0 := by
  have h1 (k : ℝ) := (h 1.5 (by norm_num)).const_mul k
  have h2 (k : ℝ) := (h 0.5 (by norm_num)).const_mul k
  simp only [mul_zero] at h1 h2
  have e (t : ℝ) : -(s.mu * s.sigma * p.z ^ 2 / 4 / t) = -(s.mu * s.sigma * p.z ^ 2) / (4 * t) := by rw [div_div, neg_div]
  have e' (t : ℝ) : -(s.mu * s.sigma * p.z ^ 2 / 4 / t) = -s.mu * s.sigma * p.z ^ 2 / (4 * t) := by rw [e]; ring
  have g1 (o : ℝ) : Tendsto (fun t => o * (-s.amplitude * (s.mu * s.sigma) ^ (0.5 : ℝ) * p.z * exp (-(s.mu * s.sigma * p.z ^ 2) / (4 * t)) /
      (2 * π ^ (0.5 : ℝ) * t ^ (1.5 : ℝ)))) l (𝓝 0) := by
    refine (h1 (o * (-s.amplitude * (s.mu * s.sigma) ^ (0.5 : ℝ) * p.z) / (2 * π ^ (0.5 : ℝ)))).congr fun t => ?_
    rw [e]
    ring
  have g2 (o : ℝ) : Tendsto (fun t => o * (-s.amplitude * √(s.sigma * s.mu / (π * t)) * exp (-s.mu * s.sigma * p.z ^ 2 / (4 * t))) / s.mu) l (𝓝 0) := by
    refine (h2 (o * (-s.amplitude * √(s.sigma * s.mu / π)) / s.mu)).congr' ?_
    filter_upwards [hl] with t ht
    have er : √(s.sigma * s.mu / (π * t)) = √(s.sigma * s.mu / π) / t ^ (0.5 : ℝ) := by
      rw [← div_div, sqrt_div (by have := pi_pos; positivity) t, sqrt_eq_rpow t]
      norm_num
    rw [e', er]
    ring
  simp only [Tends, electricField, magneticField, magneticFluxDensity, map_x, map_y, map_z, zero_x, zero_y, zero_z]
  exact ⟨⟨g1 _, g1 _, g1 _⟩, ⟨g2 _, g2 _, g2 _⟩⟩

/-- **C105.** The transient plane wave has not arrived at early times (anywhere but in the plane of its source) and has passed at late
times. -/
theorem start_end (hs : 0 < s.sigma) (hm : 0 < s.mu) :
    (p.z ≠ 0 → Tends (fun t => ({ s with time := t } : PlaneWave).electricField p) (𝓝[>] 0) 0 ∧
      Tends (fun t => ({ s with time := t } : PlaneWave).magneticField p) (𝓝[>] 0) 0) ∧
    Tends (fun t => ({ s with time := t } : PlaneWave).electricField p) atTop 0 ∧
      Tends (fun t => ({ s with time := t } : PlaneWave).magneticField p) atTop 0 := by
  refine ⟨fun hz => s.shapes p self_mem_nhdsWithin (fun a _ => tendsto_early a ?_) hs hm,
    s.shapes p (eventually_gt_atTop 0) (fun a ha => tendsto_late ha _) hs hm⟩
  have := sq_pos_of_ne_zero hz
  positivity

end PlaneWave

end Tdem

end Verif
