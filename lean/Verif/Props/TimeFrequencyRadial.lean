import Verif.Props.TimeFrequencyWaves
import Verif.Lemmas.RadialStepOff
import Verif.Lemmas.Arctan2

/-! # C87: all components of the vertical magnetic dipole on a halfspace, in the two domains -/

namespace Verif.Fdem

open Real Filter MeasureTheory Set
open Complex (I)
open scoped Topology
open Spatial

variable {sigma : ℝ}

theorem radial_eq {t mu r : ℝ} (ht : 0 < t) (hs : 0 < sigma) (hm : 0 < mu) (hr : 0 < r) (c : ℝ) :
    c * (2 * (Tdem.theta t sigma mu * r) ^ 2 / r ^ 3 * (besselIe 1 ((Tdem.theta t sigma mu * r) ^ 2 / 2) -
      besselIe 2 ((Tdem.theta t sigma mu * r) ^ 2 / 2))) = c * (4 / r ^ 3) * radW (mu * sigma * r ^ 2 / 8 / t) := by
  have e : (Tdem.theta t sigma mu * r) ^ 2 / 2 = mu * sigma * r ^ 2 / 8 / t := by
    rw [mul_pow, Tdem.theta_sq ht hs hm]; field_simp; norm_num
  have e2 : (Tdem.theta t sigma mu * r) ^ 2 = 2 * (mu * sigma * r ^ 2 / 8 / t) := by rw [← e]; ring
  rw [e, ie_eq _ (by positivity), ie_eq _ (by positivity), radW, e2]
  ring

/-- **C87.** The harmonic field of a vertical magnetic dipole on a halfspace, all three components and at any positive frequency, is the
Fourier transform of minus the time derivative of the transient of the same dipole after switch-off. -/
theorem vertical_dipole_is_transform {mu0 : ℝ} (hm : 0 < mu0) (s : HalfDipole) (hf : 0 < s.frequency) (hs : 0 < sigma)
    (hsig : s.sigmaHat = sigma) (ho : s.orientation = ⟨0, 0, 1⟩) (p : V3 ℝ) (hr : p.x ≠ s.location.x ∨ p.y ≠ s.location.y) :
    IsStepOffV (fun t => (⟨⟨t, sigma, mu0⟩, s.moment, s.location⟩ : Tdem.HalfspaceDipole).magneticField p.x p.y) (omega s.frequency)
      (s.magneticField cbesselI cbesselK mu0 p "total") := by
  set x := p.x - s.location.x with hx
  set y := p.y - s.location.y with hy
  have hne : x ≠ 0 ∨ y ≠ 0 := by simpa [hx, hy, sub_ne_zero] using hr
  have hrp : 0 < √(x ^ 2 + y ^ 2) := by
    refine sqrt_pos.2 ?_
    rcases hne with h | h <;> positivity
  obtain ⟨κ, hκ, hω, hk⟩ := wavenumber_root (epsilon := 0) hf.le hs hm
  have hw : 0 < omega s.frequency := by rw [omega]; positivity
  have hκ0 : κ ≠ 0 := fun h => by
    rw [h] at hω
    have : (I * (omega s.frequency : ℂ)) = 0 := by rw [← hω]; ring
    rcases mul_eq_zero.1 this with h | h
    · exact Complex.I_ne_zero h
    · exact (by exact_mod_cast hw.ne' : (omega s.frequency : ℂ) ≠ 0) h
  have hsq : s.k mu0 = wavenumber s.frequency sigma mu0 0 (.bool true) := by
    rw [wavenumber, HalfDipole.k, hsig]; simp only [Flag.isTrue, if_true, omega]
  have ha : 0 < mu0 * sigma * √(x ^ 2 + y ^ 2) ^ 2 / 8 := by positivity
  have hroot : √(2 * (mu0 * sigma * √(x ^ 2 + y ^ 2) ^ 2 / 8)) = √(mu0 * sigma) * √(x ^ 2 + y ^ 2) / 2 := by
    rw [show 2 * (mu0 * sigma * √(x ^ 2 + y ^ 2) ^ 2 / 8) = (mu0 * sigma) * (√(x ^ 2 + y ^ 2) / 2) ^ 2 by ring,
      sqrt_mul (by positivity), sqrt_sq (by positivity)]
    ring
  have hz : ((√(2 * (mu0 * sigma * √(x ^ 2 + y ^ 2) ^ 2 / 8)) : ℝ) : ℂ) * κ = I * s.k mu0 * √(x ^ 2 + y ^ 2) / 2 := by
    rw [hroot, hsq, ← hk]; push_cast; ring
  have hrc : (√(x ^ 2 + y ^ 2) : ℂ) ≠ 0 := by exact_mod_cast hrp.ne'
  have hmul : ∀ t, 0 < t → radW (mu0 * sigma * √(x ^ 2 + y ^ 2) ^ 2 / 8 / t) = √(x ^ 2 + y ^ 2) ^ 3 / 4 *
      (2 * (Tdem.theta t sigma mu0 * √(x ^ 2 + y ^ 2)) ^ 2 / √(x ^ 2 + y ^ 2) ^ 3 *
        (besselIe 1 ((Tdem.theta t sigma mu0 * √(x ^ 2 + y ^ 2)) ^ 2 / 2) - besselIe 2 ((Tdem.theta t sigma mu0 * √(x ^ 2 + y ^ 2)) ^ 2 / 2))) :=
    fun t ht => by
      rw [radial_eq ht hs hm hrp]
      field_simp
  -- the ends of the transient, from those of the field on the first axis
  have hx0 : arctan2 0 √(x ^ 2 + y ^ 2) = 0 := by
    have := arctan2_polar (r := √(x ^ 2 + y ^ 2)) (t := 0) hrp (by linarith [pi_pos]) pi_pos.le
    simpa using this
  have hends : ∀ l : Filter ℝ, (∀ᶠ t in l, 0 < t) →
      Tendsto (fun t => (Tdem.dipoleField t √(x ^ 2 + y ^ 2) 0 sigma mu0 (4 * π)).x) l (𝓝 0) →
      Tendsto (fun t => radW (mu0 * sigma * √(x ^ 2 + y ^ 2) ^ 2 / 8 / t)) l (𝓝 0) := fun l hl h => by
    have h2 := h.const_mul (√(x ^ 2 + y ^ 2) ^ 3 / 4)
    rw [mul_zero] at h2
    refine h2.congr' ?_
    filter_upwards [hl] with t ht
    rw [hmul t ht]
    simp only [Tdem.dipoleField, hx0, cos_zero, one_mul, V3.smul_x, smul_eq_mul]
    rw [div_self (by positivity), one_mul, show √(√(x ^ 2 + y ^ 2) ^ 2 + 0 ^ 2) = √(x ^ 2 + y ^ 2) by
      rw [zero_pow two_ne_zero, add_zero, sqrt_sq hrp.le]]
  have key := stepOff_radW ha hκ hκ0 hω
    (hends _ self_mem_nhdsWithin (Tdem.dipoleField_start hs hm (Or.inl hrp.ne')).1)
    (hends _ (eventually_gt_atTop 0) (Tdem.dipoleField_end hs hm (Or.inl hrp.ne')).1)
  rw [hz] at key
  have hT : ∀ c : ℝ, IsStepOff (fun t => s.moment / (4 * π) * (c * (2 * (Tdem.theta t sigma mu0 * √(x ^ 2 + y ^ 2)) ^ 2 / √(x ^ 2 + y ^ 2) ^ 3 *
        (besselIe 1 ((Tdem.theta t sigma mu0 * √(x ^ 2 + y ^ 2)) ^ 2 / 2) - besselIe 2 ((Tdem.theta t sigma mu0 * √(x ^ 2 + y ^ 2)) ^ 2 / 2)))))
      (omega s.frequency) (((s.moment / (4 * π) : ℝ) : ℂ) * ((c : ℂ) * ((s.k mu0) ^ 2 / √(x ^ 2 + y ^ 2) *
        T0 (I * s.k mu0 * √(x ^ 2 + y ^ 2) / 2)))) := fun c => by
    refine (key.const_mul (s.moment / (4 * π) * c * (4 / √(x ^ 2 + y ^ 2) ^ 3))).congr (fun t ht => ?_) ?_
    · rw [hmul t ht]
      field_simp
    · push_cast
      generalize T0 (I * s.k mu0 * √(x ^ 2 + y ^ 2) / 2) = T
      generalize s.k mu0 = k
      generalize (√(x ^ 2 + y ^ 2) : ℂ) = r at *
      rw [show (I * k * r / 2) ^ 2 = -(k ^ 2 * r ^ 2 / 4) by rw [div_pow, mul_pow, mul_pow, Complex.I_sq]; ring]
      field_simp
  refine ⟨(hT (cos (arctan2 y x))).congr (fun _ _ => rfl) ?_, (hT (sin (arctan2 y x))).congr (fun _ _ => rfl) ?_,
    dipole_is_transform cbesselI cbesselK hm s hf hs hsig ho p hr⟩
  · simp only [HalfDipole.magneticField, halfEm, ho, ← hx, ← hy, V3.smul_x, smul_eq_mul]
    rw [if_neg (by decide), if_neg (by simp), if_pos one_ne_zero]
    simp only [T0, zero_add]
    push_cast
    ring
  · simp only [HalfDipole.magneticField, halfEm, ho, ← hx, ← hy, V3.smul_y, smul_eq_mul]
    rw [if_neg (by decide), if_neg (by simp), if_pos one_ne_zero]
    simp only [T0, zero_add]
    push_cast
    ring

/-- Non-vacuity: a dipole and a point with all hypotheses. -/
example : IsStepOffV (fun t => (⟨⟨t, 1, 1⟩, 1, 0⟩ : Tdem.HalfspaceDipole).magneticField 1 0) (omega 1)
    ((⟨1, ((1:ℝ):ℂ), 0, ⟨0, 0, 1⟩, 1⟩ : HalfDipole).magneticField cbesselI cbesselK 1 ⟨1, 0, 0⟩ "total") :=
  vertical_dipole_is_transform one_pos ⟨1, ((1:ℝ):ℂ), 0, ⟨0, 0, 1⟩, 1⟩ one_pos one_pos rfl rfl ⟨1, 0, 0⟩ (Or.inl one_ne_zero)

end Verif.Fdem
