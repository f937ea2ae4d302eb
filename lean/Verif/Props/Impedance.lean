import Verif.Props.FdemPlaneWave
import Verif.Props.Wavenumber
import Verif.Model.Tdem

/-!
# C132: magnetotellurics: the resistivity is read off the ratio of the fields of a plane wave
-/

namespace Verif.Fdem.PlaneWave

open Complex (I)

/-- **C132.** At every point the horizontal components of the two fields of a plane wave have one and the same ratio, with the signs of a wave
that goes down; it depends neither on the amplitude nor on the direction nor on the point, has positive real and imaginary part, and its square is
`i omega mu / sigma_hat`. -/
theorem impedance (s : PlaneWave) (hf : 0 < s.frequency) (hs : 0 < s.sigma) (hm : 0 < s.mu) :
    ∃ Z : ℂ, 0 < Z.re ∧ 0 < Z.im ∧ Z ^ 2 = I * s.omega * s.mu / s.sigmaHat ∧
      ∀ p : V3 ℝ, (s.electricField p).x = -(Z * (s.magneticField p).y) ∧ (s.electricField p).y = Z * (s.magneticField p).x := by
  have hw : 0 < s.omega := by unfold Medium.omega Fdem.omega; positivity
  have hw' : (s.omega : ℂ) ≠ 0 := by exact_mod_cast hw.ne'
  have hm' : (s.mu : ℂ) ≠ 0 := by exact_mod_cast hm.ne'
  obtain ⟨hre, him⟩ := wavenumber_quadrant (epsilon := s.epsilon) hf hs hm s.quasistatic
  have hsq := wavenumber_sq_sigmaHat s.frequency s.sigma s.mu s.epsilon s.quasistatic
  change 0 < s.wavenumber.re at hre
  change s.wavenumber.im < 0 at him
  change s.wavenumber ^ 2 = -I * (s.omega : ℂ) * s.mu * s.sigmaHat at hsq
  have hk : s.wavenumber ≠ 0 := fun h => by rw [h] at hre; simp at hre
  have hn : 0 < Complex.normSq s.wavenumber := Complex.normSq_pos.2 hk
  have hh : s.sigmaHat ≠ 0 := fun h => by rw [h, mul_zero] at hsq; exact hk (pow_eq_zero_iff (by norm_num) |>.1 hsq)
  have hwm : 0 < s.omega * s.mu := mul_pos hw hm
  refine ⟨(s.omega * s.mu : ℝ) / s.wavenumber, ?_, ?_, ?_, fun p => ⟨?_, ?_⟩⟩
  · rw [Complex.div_re]
    simp only [Complex.ofReal_re, Complex.ofReal_im, zero_mul, zero_div, add_zero]
    positivity
  · rw [Complex.div_im]
    simp only [Complex.ofReal_re, Complex.ofReal_im, zero_mul, zero_div, zero_sub]
    rw [← neg_div]
    exact div_pos (by nlinarith) hn
  · rw [div_pow, hsq]
    push_cast
    have hI := Complex.I_ne_zero
    rw [div_eq_div_iff (by simp [hI, hw', hm', hh]) hh]
    linear_combination ((s.omega : ℂ) ^ 2 * s.mu ^ 2 * s.sigmaHat) * Complex.I_sq
  · simp only [electricField, magneticField, magneticFluxDensity, V3.map_x, V3.map_y, V3.cross]
    rw [show I * s.wavenumber * (p.z : ℂ) = I * (s.wavenumber * p.z) by ring]
    push_cast
    field_simp
    ring
  · simp only [electricField, magneticField, magneticFluxDensity, V3.map_x, V3.map_y, V3.cross]
    rw [show I * s.wavenumber * (p.z : ℂ) = I * (s.wavenumber * p.z) by ring]
    push_cast
    field_simp
    ring

/-- **C132.** Without displacement currents the electric field is 45 degrees ahead of the magnetic field, and the square of the ratio of their
moduli over `omega mu` is the resistivity: the apparent resistivity of magnetotellurics is the resistivity. -/
theorem apparent_resistivity (s : PlaneWave) (hf : 0 < s.frequency) (hs : 0 < s.sigma) (hm : 0 < s.mu) (hq : s.quasistatic.isTrue = true)
    (p : V3 ℝ) :
    ∃ r : ℝ, 0 < r ∧ 2 * r ^ 2 / (s.omega * s.mu) = 1 / s.sigma ∧
      (s.electricField p).x = -(r * (1 + I) * (s.magneticField p).y) ∧ (s.electricField p).y = r * (1 + I) * (s.magneticField p).x ∧
      ‖(s.electricField p).x‖ ^ 2 = s.omega * s.mu / s.sigma * ‖(s.magneticField p).y‖ ^ 2 ∧
      ‖(s.electricField p).y‖ ^ 2 = s.omega * s.mu / s.sigma * ‖(s.magneticField p).x‖ ^ 2 := by
  have hw : 0 < s.omega := by unfold Medium.omega Fdem.omega; positivity
  have hwm : 0 < s.omega * s.mu := mul_pos hw hm
  obtain ⟨Z, hre, him, hZ, hE⟩ := s.impedance hf hs hm
  obtain ⟨hx, hy⟩ := hE p
  have hh : s.sigmaHat = (s.sigma : ℂ) := by simp only [Medium.sigmaHat, sigmaHat, hq, if_true]
  have hs' : (s.sigma : ℂ) ≠ 0 := by exact_mod_cast hs.ne'
  have e2 : Z ^ 2 = ((s.omega * s.mu / s.sigma : ℝ) : ℂ) * I := by
    rw [hZ, hh]; push_cast; ring
  have h1 := congrArg Complex.re e2
  have h2 := congrArg Complex.im e2
  simp only [sq, Complex.mul_re, Complex.mul_im, Complex.ofReal_re, Complex.ofReal_im, Complex.I_re, Complex.I_im, mul_zero, mul_one,
    sub_zero, add_zero] at h1 h2
  have heq : Z.im = Z.re := by nlinarith
  have hZ' : Z = Z.re * (1 + I) := by
    apply Complex.ext
    · simp
    · simp [heq]
  have hr : 2 * Z.re ^ 2 = s.omega * s.mu / s.sigma := by rw [heq] at h2; linarith
  have hn : ‖Z‖ ^ 2 = s.omega * s.mu / s.sigma := by
    rw [← Complex.normSq_eq_norm_sq, Complex.normSq_apply, heq]; linarith
  refine ⟨Z.re, hre, ?_, ?_, ?_, ?_, ?_⟩
  · rw [hr]; field_simp
  · rw [← hZ']; exact hx
  · rw [← hZ']; exact hy
  · rw [hx, norm_neg, norm_mul, mul_pow, hn]
  · rw [hy, norm_mul, mul_pow, hn]

/-- Non-vacuity: the fields are not zero. -/
example (s : PlaneWave) (ha : s.amplitude ≠ 0) (ho : s.orientation = ⟨1, 0, 0⟩) (p : V3 ℝ) : (s.electricField p).x ≠ 0 := by
  simp [electricField, ho, ha, Complex.exp_ne_zero]

end Verif.Fdem.PlaneWave

namespace Verif.Tdem.PlaneWave

/-- **C132.** In a transient plane wave the ratio of the electric field to the flux density tells the depth: it is `depth / (2 t)`, whatever the
conductivity, with the signs of a wave that goes down. -/
theorem ratio (s : PlaneWave) (ht : 0 < s.time) (hms : 0 ≤ s.mu * s.sigma) (p : V3 ℝ) :
    (s.electricField p).x = -(-p.z / (2 * s.time) * (s.magneticFluxDensity p).y) ∧
    (s.electricField p).y = -p.z / (2 * s.time) * (s.magneticFluxDensity p).x := by
  have h1 : (s.mu * s.sigma) ^ (0.5 : ℝ) = Real.sqrt (s.mu * s.sigma) := by rw [Real.sqrt_eq_rpow]; norm_num
  have h2 : Real.pi ^ (0.5 : ℝ) = Real.sqrt Real.pi := by rw [Real.sqrt_eq_rpow]; norm_num
  have h3 : s.time ^ (1.5 : ℝ) = s.time * Real.sqrt s.time := by
    rw [show (1.5 : ℝ) = 1 + 1 / 2 by norm_num, Real.rpow_add ht, Real.rpow_one, Real.sqrt_eq_rpow]
  have h4 : Real.sqrt (s.sigma * s.mu / (Real.pi * s.time)) = Real.sqrt (s.mu * s.sigma) / (Real.sqrt Real.pi * Real.sqrt s.time) := by
    rw [mul_comm s.sigma, Real.sqrt_div hms, Real.sqrt_mul Real.pi_pos.le]
  have h5 : -s.mu * s.sigma * p.z ^ 2 = -(s.mu * s.sigma * p.z ^ 2) := by ring
  have hp := (Real.sqrt_pos.2 Real.pi_pos).ne'
  have hq := (Real.sqrt_pos.2 ht).ne'
  simp only [electricField, magneticFluxDensity, h1, h2, h3, h4, h5, V3.cross, V3.map_x, V3.map_y]
  constructor <;> field_simp <;> ring

end Verif.Tdem.PlaneWave
