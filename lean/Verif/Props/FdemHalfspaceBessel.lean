import Verif.Props.FdemHalfspace
import Verif.Lemmas.BesselIK

/-! # The dipole on a halfspace with the modified Bessel functions themselves (C77)

`scipy.special.iv` and `kv` are here the integrals of `Spec/BesselIK.lean`, so that nothing is assumed about them. -/

namespace Verif.Fdem

open Complex (I)
open Spatial Filter
open scoped Topology

/-- **C77.** On the surface the horizontal part of the total field is minus the gradient of a potential. -/
theorem half_conservative_bessel {mu0 : ℝ} (hmu : 0 < mu0) (s : HalfDipole) (hf : 0 < s.frequency) (hs : 0 < s.sigmaHat.re) :
    ∃ U : V3 ℝ → ℂ, ∀ p : V3 ℝ, (p.x ≠ s.location.x ∨ p.y ≠ s.location.y) → ∀ v : V3 ℝ, v.z = 0 →
      HasDerivAt (fun t : ℝ => U (p + t • v)) (-(ofReal v).dot (s.magneticField cbesselI cbesselK mu0 p "total")) 0 := by
  refine half_conservative cbesselI cbesselK hmu s hf hs fun c hc n _ => ?_
  have hmap : Set.MapsTo (fun r : ℝ => c * (r : ℂ)) (Set.Ioi 0) {z | 0 < z.re} := fun r hr => by
    have : 0 < r := hr
    simp only [Set.mem_ofPred_eq, Complex.re_mul_ofReal]
    positivity
  have hray : Continuous fun r : ℝ => c * (r : ℂ) := by fun_prop
  exact ((BesselIK.continuous_cbesselI n).comp hray).continuousOn.mul ((BesselIK.continuousOn_cbesselK n).comp hray.continuousOn hmap)

/-- **C77.** As the frequency tends to zero the secondary field vanishes. -/
theorem half_static_limit_bessel {mu0 : ℝ} (hmu : 0 < mu0) (s : HalfDipole) (hs : 0 < s.sigmaHat.re) (p : V3 ℝ)
    (hr : p.x ≠ s.location.x ∨ p.y ≠ s.location.y) :
    let H := fun f : ℝ => ({ s with frequency := f } : HalfDipole).magneticField cbesselI cbesselK mu0 p "secondary"
    Tendsto (fun f => (H f).x) (𝓝[>] 0) (𝓝 0) ∧ Tendsto (fun f => (H f).y) (𝓝[>] 0) (𝓝 0) ∧
      Tendsto (fun f => (H f).z) (𝓝[>] 0) (𝓝 0) := by
  refine half_static_limit cbesselI cbesselK hmu s hs p hr fun n hn => ?_
  rcases hn with rfl | rfl
  · refine ⟨‖(1 / 2 : ℂ)‖ + 1, ?_⟩
    filter_upwards [BesselIK.tendsto_IK1.norm.eventually (gt_mem_nhds (lt_add_one _))] with z hz
    exact hz.le
  · refine ⟨‖(1 / 4 : ℂ)‖ + 1, ?_⟩
    filter_upwards [BesselIK.tendsto_IK2.norm.eventually (gt_mem_nhds (lt_add_one _))] with z hz
    exact hz.le

/-- **C77.** As the frequency tends to infinity the earth becomes a perfect mirror. -/
theorem half_mirror_limit_bessel {mu0 : ℝ} (hmu : 0 < mu0) (s : HalfDipole) (hs : 0 < s.sigmaHat.re) (p : V3 ℝ)
    (hr : p.x ≠ s.location.x ∨ p.y ≠ s.location.y) (mu : ℝ) (hmu' : mu ≠ 0) :
    let H := fun f : ℝ => ({ s with frequency := f } : HalfDipole).magneticField cbesselI cbesselK mu0 p "total"
    let S := ofReal ((⟨mu, s.moment, surface s.location, s.orientation⟩ : Static.MagDipole).magneticField (surface p))
    Tendsto (fun f => (H f).x) atTop (𝓝 (2 * S.x)) ∧ Tendsto (fun f => (H f).y) atTop (𝓝 (2 * S.y)) ∧
      Tendsto (fun f => (H f).z) atTop (𝓝 0) :=
  half_mirror_limit cbesselI cbesselK hmu s hs p hr mu hmu' fun _ hc => BesselIK.ray_infinity hc

/-- The argument of the Bessel functions tends to zero inside the right half plane. -/
theorem bessel_arg_tendsto {kap : ℂ} (hkap : kap.im < 0) {r : ℝ} (hrp : 0 < r) :
    Tendsto (fun f : ℝ => I * ((Real.sqrt f : ℂ) * kap) * r / 2) (𝓝[>] 0) (𝓝[{z : ℂ | 0 < z.re}] 0) := by
  refine tendsto_nhdsWithin_iff.2 ⟨?_, ?_⟩
  · have hc : Continuous fun f : ℝ => I * ((Real.sqrt f : ℂ) * kap) * r / 2 := by fun_prop
    have := hc.tendsto 0
    simp only [Real.sqrt_zero, Complex.ofReal_zero, zero_mul, mul_zero, zero_div] at this
    exact this.mono_left nhdsWithin_le_nhds
  · filter_upwards [self_mem_nhdsWithin] with f hf
    have := Real.sqrt_pos.2 hf
    simp only [show I * ((Real.sqrt f : ℂ) * kap) * r / 2 = ((Real.sqrt f * r / 2 : ℝ) : ℂ) * (I * kap) by
      push_cast; ring, Complex.re_ofReal_mul, Complex.I_mul_re]
    exact mul_pos (by positivity) (by linarith)

/-- The coupling of vertical and horizontal directions at low frequency. -/
theorem halfIK_tendsto {mu0 : ℝ} (hmu : 0 < mu0) (s : HalfDipole) (hs : 0 < s.sigmaHat.re) {r : ℝ} (hrp : 0 < r) :
    Tendsto (fun f : ℝ => (({ s with frequency := f } : HalfDipole).k mu0) ^ 2 / f *
      halfIK cbesselI cbesselK (({ s with frequency := f } : HalfDipole).k mu0) r) (𝓝[>] 0)
      (𝓝 (-I * ((2 * Real.pi * mu0 : ℝ) : ℂ) * s.sigmaHat / 4)) := by
  obtain ⟨kap, hkap, hray⟩ := half_k_ray hmu s hs
  have harg := bessel_arg_tendsto hkap hrp
  have h := ((BesselIK.tendsto_IK1.comp harg).sub (BesselIK.tendsto_IK2.comp harg)).const_mul
    (-I * ((2 * Real.pi * mu0 : ℝ) : ℂ) * s.sigmaHat)
  rw [show (1 : ℂ) / 2 - 1 / 4 = 1 / 4 by norm_num, mul_one_div] at h
  refine h.congr' ?_
  filter_upwards [self_mem_nhdsWithin] with f hf
  have hf0 : (f : ℂ) ≠ 0 := by exact_mod_cast (ne_of_gt hf : f ≠ 0)
  have hk2 : (({ s with frequency := f } : HalfDipole).k mu0) ^ 2 = -I * ((2 * Real.pi * f : ℝ) : ℂ) * mu0 * s.sigmaHat := by
    simp only [HalfDipole.k]
    exact csqrt_sq _
  rw [hk2, hray f hf, halfIK]
  simp only [Function.comp_apply]
  push_cast
  field_simp

/-- **C77.** At low frequency the horizontal field of a vertical dipole on the surface is in quadrature with the source and points
along the offset: it is `-i ω mu_0 sigma m / (16 π r)` to first order in the frequency. -/
theorem half_low_frequency_vertical {mu0 : ℝ} (hmu : 0 < mu0) (s : HalfDipole) (hs : 0 < s.sigmaHat.re) (p : V3 ℝ)
    (hr : p.x ≠ s.location.x ∨ p.y ≠ s.location.y) (ho : s.orientation = ⟨0, 0, 1⟩) (field : String) :
    let H := fun f : ℝ => ({ s with frequency := f } : HalfDipole).magneticField cbesselI cbesselK mu0 p field
    let r := Real.sqrt ((p.x - s.location.x) ^ 2 + (p.y - s.location.y) ^ 2)
    let q : ℂ := -I * ((2 * Real.pi * mu0 : ℝ) : ℂ) * s.sigmaHat * s.moment / ((16 * Real.pi * r : ℝ) : ℂ)
    Tendsto (fun f => (H f).x / f) (𝓝[>] 0) (𝓝 (q * (((p.x - s.location.x) / r : ℝ) : ℂ))) ∧
    Tendsto (fun f => (H f).y / f) (𝓝[>] 0) (𝓝 (q * (((p.y - s.location.y) / r : ℝ) : ℂ))) := by
  intro H r q
  have hne : p.x - s.location.x ≠ 0 ∨ p.y - s.location.y ≠ 0 := by simpa [sub_ne_zero] using hr
  have hrp : 0 < r := offset_pos hr
  have hr0 : (r : ℂ) ≠ 0 := by exact_mod_cast hrp.ne'
  have hpi : (Real.pi : ℂ) ≠ 0 := by exact_mod_cast Real.pi_ne_zero
  have hL := halfIK_tendsto hmu s hs hrp
  have hsec : ∀ f : ℝ, (H f).x = (s.moment / (4 * Real.pi) : ℝ) * ((p.x - s.location.x : ℝ) / (r : ℂ) / r *
        ((({ s with frequency := f } : HalfDipole).k mu0) ^ 2 * halfIK cbesselI cbesselK (({ s with frequency := f } : HalfDipole).k mu0) r)) ∧
      (H f).y = (s.moment / (4 * Real.pi) : ℝ) * ((p.y - s.location.y : ℝ) / (r : ℂ) / r *
        ((({ s with frequency := f } : HalfDipole).k mu0) ^ 2 * halfIK cbesselI cbesselK (({ s with frequency := f } : HalfDipole).k mu0) r)) := by
    intro f
    simp only [H, HalfDipole.magneticField, ho]
    by_cases hfield : field = "secondary"
    · rw [hfield, halfEm_secondary, halfEm_total cbesselI cbesselK _ _ _ _ hne (show "total" ≠ "secondary" by decide)]
      constructor <;> simp [r] <;> left <;> ring
    · rw [halfEm_total cbesselI cbesselK _ _ _ _ hne hfield]
      constructor <;> simp [r] <;> left <;> ring
  constructor
  · have h := hL.const_mul ((s.moment / (4 * Real.pi) : ℝ) * ((p.x - s.location.x : ℝ) / (r : ℂ) / r))
    refine (h.congr fun f => ?_).trans_eq ?_
    · rw [(hsec f).1]
      ring
    · congr 1
      simp only [q]
      push_cast
      field_simp
      ring
  · have h := hL.const_mul ((s.moment / (4 * Real.pi) : ℝ) * ((p.y - s.location.y : ℝ) / (r : ℂ) / r))
    refine (h.congr fun f => ?_).trans_eq ?_
    · rw [(hsec f).2]
      ring
    · congr 1
      simp only [q]
      push_cast
      field_simp
      ring

/-- **C77.** The vertical field of a horizontal dipole, likewise, with the opposite sign. -/
theorem half_low_frequency_horizontal {mu0 : ℝ} (hmu : 0 < mu0) (s : HalfDipole) (hs : 0 < s.sigmaHat.re) (p : V3 ℝ)
    (hr : p.x ≠ s.location.x ∨ p.y ≠ s.location.y) (ho : s.orientation.z = 0) (field : String) :
    let H := fun f : ℝ => ({ s with frequency := f } : HalfDipole).magneticField cbesselI cbesselK mu0 p field
    let d := p - s.location
    let r := Real.sqrt (d.x ^ 2 + d.y ^ 2)
    let q : ℂ := -I * ((2 * Real.pi * mu0 : ℝ) : ℂ) * s.sigmaHat * s.moment / ((16 * Real.pi * r : ℝ) : ℂ)
    Tendsto (fun f => (H f).z / f) (𝓝[>] 0) (𝓝 (-q * ((s.orientation.dot d / r : ℝ) : ℂ))) := by
  intro H d r q
  have hne : p.x - s.location.x ≠ 0 ∨ p.y - s.location.y ≠ 0 := by simpa [sub_ne_zero] using hr
  have hrp : 0 < r := offset_pos hr
  have hr0 : (r : ℂ) ≠ 0 := by exact_mod_cast hrp.ne'
  have hpi : (Real.pi : ℂ) ≠ 0 := by exact_mod_cast Real.pi_ne_zero
  have hL := halfIK_tendsto hmu s hs hrp
  have hr' : Real.sqrt ((p.x - s.location.x) ^ 2 + (p.y - s.location.y) ^ 2) = r := rfl
  have hd : s.orientation.dot d = s.orientation.x * (p.x - s.location.x) + s.orientation.y * (p.y - s.location.y) := by
    simp [V3.dot, ho, d]
  have hsec : ∀ f : ℝ, (H f).z = -((s.moment / (4 * Real.pi) : ℝ) * ((s.orientation.dot d : ℝ) / (r : ℂ) ^ 2 *
        ((({ s with frequency := f } : HalfDipole).k mu0) ^ 2 * halfIK cbesselI cbesselK (({ s with frequency := f } : HalfDipole).k mu0) r))) := by
    intro f
    simp only [H, HalfDipole.magneticField]
    by_cases hfield : field = "secondary"
    · rw [hfield, halfEm_secondary, halfEm_total cbesselI cbesselK _ _ _ _ hne (show "total" ≠ "secondary" by decide), hr', hd]
      simp only [V3.smul_z, V3.sub_z, ho, smul_eq_mul]
      push_cast
      ring
    · rw [halfEm_total cbesselI cbesselK _ _ _ _ hne hfield, hr', hd]
      simp only [V3.smul_z, ho, smul_eq_mul]
      push_cast
      ring
  have h := hL.const_mul (-((s.moment / (4 * Real.pi) : ℝ) * ((s.orientation.dot d : ℝ) / (r : ℂ) ^ 2)))
  refine (h.congr fun f => ?_).trans_eq ?_
  · rw [hsec f]
    ring
  · congr 1
    simp only [q]
    push_cast
    field_simp
    ring

/-- A dipole of unit moment over an earth of 0.01 S/m, ten metres from the point: the quadrature field is not zero. -/
example : let s : HalfDipole := ⟨1, 0.01, 0, ⟨0, 0, 1⟩, 1⟩
    ∃ q : ℂ, q ≠ 0 ∧ Tendsto (fun f : ℝ => (({ s with frequency := f } : HalfDipole).magneticField cbesselI cbesselK 1 ⟨10, 0, 0⟩ "total").x / f)
      (𝓝[>] 0) (𝓝 q) := by
  intro s
  have hre : (0 : ℝ) < s.sigmaHat.re := by
    simp only [s]
    norm_num
  have h := (half_low_frequency_vertical one_pos s hre ⟨10, 0, 0⟩ (.inl (by simp [s])) rfl "total").1
  refine ⟨_, ?_, h⟩
  have hs : Real.sqrt ((10 - (0 : ℝ)) ^ 2 + (0 - 0) ^ 2) ≠ 0 := by
    refine (Real.sqrt_pos.2 (by norm_num)).ne'
  have := Real.pi_ne_zero
  simp [s, Complex.I_ne_zero]
  norm_num

/-- A tilted dipole over the same earth meets the hypotheses of the potential, of both limits and of the reciprocity. -/
example : let s : HalfDipole := ⟨1000, 0.01, 0, ⟨1, 2, 2⟩, 3⟩
    0 < s.frequency ∧ 0 < s.sigmaHat.re ∧ ((10 : ℝ) ≠ s.location.x ∨ (0 : ℝ) ≠ s.location.y) := by
  intro s
  refine ⟨by simp [s], by simp only [s]; norm_num, .inl (by simp [s])⟩

end Verif.Fdem
