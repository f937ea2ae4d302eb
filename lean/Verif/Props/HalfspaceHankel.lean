import Verif.Props.LayeredWaves
import Verif.Lemmas.HankelJ1
import Verif.Spec.BesselIK

/-! # The layered earth and the homogeneous halfspace (C90) -/

namespace Verif.Fdem

open Complex (I)
open Spatial Filter MeasureTheory Set
open scoped Topology

/-- The secondary field over a layered earth with the sum over the digital filter replaced by the integral that the filter approximates:
the integral over all wave numbers of the field that the code computes from one wave number. -/
noncomputable def LayeredDipole.hankelField (mu0 : ℝ) (s : LayeredDipole) (p : V3 ℝ) : V3 ℂ :=
  let H := fun lambd : ℝ => s.fieldAt [tapAt besselJ0 besselJ1 s lambd p] mu0 p "secondary"
  ⟨∫ lambd in Ioi 0, (H lambd).x, ∫ lambd in Ioi 0, (H lambd).y, ∫ lambd in Ioi 0, (H lambd).z⟩

/-- The source at the height `h`. -/
def LayeredDipole.atHeight (s : LayeredDipole) (h : ℝ) : LayeredDipole := { s with location := ⟨s.location.x, s.location.y, h⟩ }

/-- An earth of any number of layers, all with the properties `sigma` and `mu`. -/
structure LayeredDipole.Uniform (s : LayeredDipole) (sigma mu : ℂ) : Prop where
  sigma : ∀ k ≤ s.nThick, s.sigmaHat k = sigma
  mu : ∀ k ≤ s.nThick, s.mu k = mu
  thickness : ∀ k < s.nThick, 0 ≤ s.thickness k

theorem refl_uniform {f mu0 lambd : ℝ} (c : RTE.Col) (hc : c.omega = RTE.omegaOf f) (hcl : c.lamb = lambd) (hcm : c.mu0 = mu0) (hf : 0 < f)
    (hm0 : 0 < mu0) {sigma : ℂ} (hs : 0 < sigma.re)
    (h1 : ∀ k ≤ c.n, c.sigma k = sigma) (h2 : ∀ k ≤ c.n, c.mu k = mu0) (h3 : ∀ k < c.n, 0 ≤ c.h k) (d : HalfDipole)
    (hdf : d.frequency = f) (hds : d.sigmaHat = sigma) :
    RTE.forward c = hsRefl (I * d.k mu0) lambd := by
  have hw : 0 < c.omega := by rw [hc]; exact mul_pos (mul_pos two_pos Real.pi_pos) hf
  have hp : RTE.Physical c := ⟨hw, by rw [hcm]; exact hm0, fun k hk => by rw [h2 k hk]; simp [hm0], h3, .inl fun k hk => by rw [h1 k hk]; exact hs⟩
  rw [RTE.forward_uniform c sigma mu0 h1 h2 (RTE.physical_defined c hp), RTE.forward]
  simp only [RTE.downLoop, RTE.Col.Y, RTE.Col.Y0, RTE.yOf, hcm, hcl]
  have hk : (I * d.k mu0) ^ 2 = -RTE.k2 c.omega mu0 sigma := by
    rw [mul_pow, Complex.I_sq, HalfDipole.k, csqrt_sq, RTE.k2, hc, RTE.omegaOf, hdf, hds]
    push_cast
    ring
  have hu : RTE.uOf c.omega lambd mu0 sigma = cru (I * d.k mu0) lambd := by
    rw [RTE.uOf, cru, hk]
    push_cast
    rw [sub_eq_add_neg]
  rw [hu, hsRefl, ← sub_div, ← add_div, div_div_div_cancel_right₀]
  have h1 : (c.omega : ℂ) ≠ 0 := by exact_mod_cast hw.ne'
  have h2 : (mu0 : ℂ) ≠ 0 := by exact_mod_cast hm0.ne'
  exact mul_ne_zero (mul_ne_zero Complex.I_ne_zero h1) h2

theorem ik_re_pos {mu0 : ℝ} (hmu : 0 < mu0) (d : HalfDipole) (hf : 0 < d.frequency) (hs : 0 < d.sigmaHat.re) : 0 < (I * d.k mu0).re := by
  obtain ⟨kap, hkap, hray⟩ := half_k_ray hmu d hs
  have hk : d.k mu0 = (Real.sqrt d.frequency : ℂ) * kap := hray d.frequency hf
  rw [hk, Complex.mul_re]
  simp only [Complex.I_re, Complex.I_im, zero_mul, one_mul, zero_sub, Complex.im_ofReal_mul]
  have := Real.sqrt_pos.2 hf
  nlinarith

theorem combine {A B C : ℝ → ℂ} (hA : IntegrableOn A (Ioi 0)) (hB : IntegrableOn B (Ioi 0)) (hC : IntegrableOn C (Ioi 0)) (a b c : ℂ)
    {f : ℝ → ℂ} (hf : ∀ l : ℝ, 0 < l → f l = a * A l + b * B l + c * C l) :
    IntegrableOn f (Ioi 0) ∧ ∫ l in Ioi (0:ℝ), f l = a * (∫ l in Ioi (0:ℝ), A l) + b * (∫ l in Ioi (0:ℝ), B l) + c * ∫ l in Ioi (0:ℝ), C l := by
  have h1 : IntegrableOn (fun l => a * A l) (Ioi 0) := hA.const_mul a
  have h2 : IntegrableOn (fun l => b * B l) (Ioi 0) := hB.const_mul b
  have h3 : IntegrableOn (fun l => c * C l) (Ioi 0) := hC.const_mul c
  refine ⟨((h1.fun_add h2).fun_add h3).congr_fun (fun l hl => (hf l hl).symm) measurableSet_Ioi, ?_⟩
  rw [setIntegral_congr_fun measurableSet_Ioi (g := fun l => a * A l + b * B l + c * C l) fun l hl => hf l hl, integral_add (h1.fun_add h2) h3,
    integral_add h1 h2, integral_const_mul, integral_const_mul, integral_const_mul]

section

variable {mu0 : ℝ} (hmu : 0 < mu0) (s : LayeredDipole) (hf : 0 < s.frequency) {sigma : ℂ} (hs : 0 < sigma.re) (hu : s.Uniform sigma mu0)
  (p : V3 ℝ) (hp : p.x ≠ s.location.x ∨ p.y ≠ s.location.y)
include hmu hf hs hu hp

theorem hankelField_eq {zr zs : ℝ} (hz : 0 < zs + zr) :
    let d : HalfDipole := ⟨s.frequency, sigma, s.location, s.orientation, s.moment⟩
    let κ := I * d.k mu0
    let r := offsetTo s p
    let x := p.x - s.location.x
    let y := p.y - s.location.y
    let m := s.orientation
    let md := m.x * x + m.y * y
    let A := ∫ l in Ioi (0:ℝ), (l : ℂ) ^ 2 * hsRefl κ l * Real.exp (-(zs + zr) * l) * (besselJ0 (l * r) : ℂ)
    let B := ∫ l in Ioi (0:ℝ), (l : ℂ) * hsRefl κ l * Real.exp (-(zs + zr) * l) * (besselJ1 (l * r) : ℂ)
    let C := ∫ l in Ioi (0:ℝ), (l : ℂ) ^ 2 * hsRefl κ l * Real.exp (-(zs + zr) * l) * (besselJ1 (l * r) : ℂ)
    let H := fun l : ℝ => (s.atHeight zs).fieldAt [tapAt besselJ0 besselJ1 (s.atHeight zs) l ⟨p.x, p.y, zr⟩] mu0 ⟨p.x, p.y, zr⟩ "secondary"
    (IntegrableOn (fun l => (H l).x) (Ioi 0) ∧ IntegrableOn (fun l => (H l).y) (Ioi 0) ∧ IntegrableOn (fun l => (H l).z) (Ioi 0)) ∧
    (s.atHeight zs).hankelField mu0 ⟨p.x, p.y, zr⟩ = ((s.moment / (4 * Real.pi) : ℝ) : ℂ) •
      ⟨(md * x / r ^ 2 : ℝ) * A + (m.x / r - 2 * md * x / r ^ 3 : ℝ) * B + (m.z * x / r : ℝ) * C,
       (md * y / r ^ 2 : ℝ) * A + (m.y / r - 2 * md * y / r ^ 3 : ℝ) * B + (m.z * y / r : ℝ) * C,
       (m.z : ℝ) * A + (0 : ℝ) * B + (-(md / r) : ℝ) * C⟩ := by
  intro d κ r x y m md A B C H
  have hr : 0 < r := offset_pos hp
  have hκ : 0 < κ.re := ik_re_pos hmu d hf hs
  have iA := (hankel_A hκ hr).1 _ hz
  have iB := (hankel_B hκ hr).1 _ hz
  have iC := (hankel_C hκ hr).1 _ hz
  have hrT : ∀ l : ℝ, (s.atHeight zs).rTE mu0 l = hsRefl κ l := fun l =>
    refl_uniform _ rfl rfl rfl hf hmu hs hu.sigma hu.mu hu.thickness d rfl rfl
  have hone := fun l : ℝ => fieldAt_one mu0 (s.atHeight zs) besselJ0 besselJ1 (lambd := l) (⟨p.x, p.y, zr⟩ : V3 ℝ) hp
  simp only [hrT] at hone
  have e : ∀ l : ℝ, -l * (zr + zs) = -(zs + zr) * l := fun l => by ring
  set K : ℂ := ((s.moment / (4 * Real.pi) : ℝ) : ℂ) with hK
  have cx := combine iA iB iC (K * (md * x / r ^ 2 : ℝ)) (K * (m.x / r - 2 * md * x / r ^ 3 : ℝ)) (K * (m.z * x / r : ℝ)) (f := fun l => (H l).x)
    (fun l _ => by
      simp only [H]
      rw [hone]
      show K * hsRefl κ l * ((Real.exp (-l * (zr + zs)) * (md * x / r ^ 2 * l ^ 2 * besselJ0 (l * r) +
        ((m.x / r - 2 * md * x / r ^ 3) * l + m.z * x / r * l ^ 2) * besselJ1 (l * r)) : ℝ) : ℂ) = _
      rw [e]; push_cast; ring)
  have cy := combine iA iB iC (K * (md * y / r ^ 2 : ℝ)) (K * (m.y / r - 2 * md * y / r ^ 3 : ℝ)) (K * (m.z * y / r : ℝ)) (f := fun l => (H l).y)
    (fun l _ => by
      simp only [H]
      rw [hone]
      show K * hsRefl κ l * ((Real.exp (-l * (zr + zs)) * (md * y / r ^ 2 * l ^ 2 * besselJ0 (l * r) +
        ((m.y / r - 2 * md * y / r ^ 3) * l + m.z * y / r * l ^ 2) * besselJ1 (l * r)) : ℝ) : ℂ) = _
      rw [e]; push_cast; ring)
  have cz := combine iA iB iC (K * (m.z : ℝ)) (K * (0 : ℝ)) (K * (-(md / r) : ℝ)) (f := fun l => (H l).z)
    (fun l _ => by
      simp only [H]
      rw [hone]
      show K * hsRefl κ l * ((Real.exp (-l * (zr + zs)) * (m.z * l ^ 2 * besselJ0 (l * r) - md / r * l ^ 2 * besselJ1 (l * r)) : ℝ) : ℂ) = _
      rw [e]; push_cast; ring)
  refine ⟨⟨cx.1, cy.1, cz.1⟩, V3.ext ?_ ?_ ?_⟩
  · refine cx.2.trans ?_
    show _ = K * _
    simp only [A, B, C]
    ring
  · refine cy.2.trans ?_
    show _ = K * _
    simp only [A, B, C]
    ring
  · refine cz.2.trans ?_
    show _ = K * _
    simp only [A, B, C]
    ring

/-- **C90.** Over an earth of any number of equal layers the integrals that the digital filter approximates exist for a source and a
point that are not both on the ground. -/
theorem hankelField_exists {zr zs : ℝ} (hz : 0 < zs + zr) :
    let H := fun l : ℝ => (s.atHeight zs).fieldAt [tapAt besselJ0 besselJ1 (s.atHeight zs) l ⟨p.x, p.y, zr⟩] mu0 ⟨p.x, p.y, zr⟩ "secondary"
    IntegrableOn (fun l => (H l).x) (Ioi 0) ∧ IntegrableOn (fun l => (H l).y) (Ioi 0) ∧ IntegrableOn (fun l => (H l).z) (Ioi 0) :=
  (hankelField_eq hmu s hf hs hu p hp hz).1

/-- **C90.** Over an earth of any number of equal layers, as the source and the point come down to the ground, the field that the
digital filter approximates tends to the one that the formulas for a dipole on a halfspace give. -/
theorem layered_tends_to_halfspace :
    let d : HalfDipole := ⟨s.frequency, sigma, s.location, s.orientation, s.moment⟩
    let H := fun z : ℝ × ℝ => (s.atHeight z.1).hankelField mu0 ⟨p.x, p.y, z.2⟩
    let ground := 𝓝[{z : ℝ × ℝ | 0 < z.1 + z.2}] (0 : ℝ × ℝ)
    let E := d.magneticField cbesselI cbesselK mu0 p "secondary"
    Tendsto (fun z => (H z).x) ground (𝓝 E.x) ∧ Tendsto (fun z => (H z).y) ground (𝓝 E.y) ∧ Tendsto (fun z => (H z).z) ground (𝓝 E.z) := by
  intro d H ground E
  have hr : 0 < offsetTo s p := offset_pos hp
  have hκ : 0 < (I * d.k mu0).re := ik_re_pos hmu d hf hs
  have hlim : Tendsto (fun z : ℝ × ℝ => z.1 + z.2) ground (𝓝[>] 0) := by
    refine tendsto_nhdsWithin_iff.2 ⟨?_, self_mem_nhdsWithin⟩
    have : Tendsto (fun z : ℝ × ℝ => z.1 + z.2) (𝓝 0) (𝓝 ((0 : ℝ × ℝ).1 + (0 : ℝ × ℝ).2)) := Continuous.tendsto (by fun_prop) 0
    simp only [Prod.fst_zero, Prod.snd_zero, add_zero] at this
    exact this.mono_left nhdsWithin_le_nhds
  have tA := (hankel_A hκ hr).2.comp hlim
  have tB := (hankel_B hκ hr).2.comp hlim
  have tC := (hankel_C hκ hr).2.comp hlim
  have hev : ∀ᶠ z : ℝ × ℝ in ground, 0 < z.1 + z.2 := self_mem_nhdsWithin
  have hE : E = ((s.moment / (4 * Real.pi) : ℝ) : ℂ) • halfEm cbesselI cbesselK (d.k mu0) s.orientation (p.x - s.location.x) (p.y - s.location.y) "secondary" := rfl
  have hne : p.x - s.location.x ≠ 0 ∨ p.y - s.location.y ≠ 0 := by simpa [sub_ne_zero] using hp
  have hT := halfEm_total cbesselI cbesselK (d.k mu0) s.orientation _ _ hne (field := "total") (by decide)
  rw [halfEm_secondary, hT] at hE
  have hk : d.k mu0 ≠ 0 := fun h => by rw [h] at hκ; simp at hκ
  have hrc : ((offsetTo s p : ℝ) : ℂ) ≠ 0 := by exact_mod_cast hr.ne'
  have hsq : ((p.x - s.location.x : ℝ) : ℂ) ^ 2 + ((p.y - s.location.y : ℝ) : ℂ) ^ 2 = (offsetTo s p : ℂ) ^ 2 := by
    have : (p.x - s.location.x) ^ 2 + (p.y - s.location.y) ^ 2 = offsetTo s p ^ 2 := by rw [offsetTo, Real.sq_sqrt (by positivity)]
    exact_mod_cast this
  change E = ((s.moment / (4 * Real.pi) : ℝ) : ℂ) • _ at hE
  have h2 : I ^ 2 = -1 := Complex.I_sq
  have h3 : I ^ 3 = -I := by rw [pow_succ, h2]; ring
  have hexp : ∀ k r : ℂ, -(I * k * r) = -I * k * r := fun k r => by ring
  refine ⟨?_, ?_, ?_⟩
  · have := (((tA.const_mul (((s.orientation.x * (p.x - s.location.x) + s.orientation.y * (p.y - s.location.y)) * (p.x - s.location.x) / offsetTo s p ^ 2 : ℝ) : ℂ)).add
      (tB.const_mul ((s.orientation.x / offsetTo s p - 2 * (s.orientation.x * (p.x - s.location.x) + s.orientation.y * (p.y - s.location.y)) * (p.x - s.location.x) / offsetTo s p ^ 3 : ℝ) : ℂ))).add
      (tC.const_mul ((s.orientation.z * (p.x - s.location.x) / offsetTo s p : ℝ) : ℂ))).const_mul ((s.moment / (4 * Real.pi) : ℝ) : ℂ)
    have hval : E.x = ((s.moment / (4 * Real.pi) : ℝ) : ℂ) * ((((s.orientation.x * (p.x - s.location.x) + s.orientation.y * (p.y - s.location.y)) * (p.x - s.location.x) / offsetTo s p ^ 2 : ℝ) : ℂ) * hankelA (I * d.k mu0) (offsetTo s p) +
      ((s.orientation.x / offsetTo s p - 2 * (s.orientation.x * (p.x - s.location.x) + s.orientation.y * (p.y - s.location.y)) * (p.x - s.location.x) / offsetTo s p ^ 3 : ℝ) : ℂ) * hankelB (I * d.k mu0) (offsetTo s p) +
      ((s.orientation.z * (p.x - s.location.x) / offsetTo s p : ℝ) : ℂ) * hankelC (I * d.k mu0) (offsetTo s p)) := by
      rw [hE]
      simp only [V3.smul_x, V3.sub_x, smul_eq_mul]
      rw [show Real.sqrt ((p.x - s.location.x) ^ 2 + (p.y - s.location.y) ^ 2) = offsetTo s p from rfl, halfIK, halfPhi, halfDphi, hankelA, hankelB, hankelC, hexp]
      congr 1
      push_cast at hsq ⊢
      generalize (offsetTo s p : ℂ) = r at *
      generalize Complex.exp (-I * d.k mu0 * r) = X
      generalize cbesselI 1 (I * d.k mu0 * r / 2) * cbesselK 1 (I * d.k mu0 * r / 2) - cbesselI 2 (I * d.k mu0 * r / 2) * cbesselK 2 (I * d.k mu0 * r / 2) = W
      generalize d.k mu0 = k at *
      generalize (s.orientation.x : ℂ) = mx
      generalize (s.orientation.y : ℂ) = my
      generalize (s.orientation.z : ℂ) = mz
      generalize (p.x - s.location.x : ℂ) = x at *
      generalize (p.y - s.location.y : ℂ) = y at *
      simp only [mul_pow, h2, h3]
      have hy2 : y ^ 2 = r ^ 2 - x ^ 2 := by rw [← hsq]; ring
      rw [hy2]
      field_simp
      ring
    rw [hval]
    refine this.congr' ?_
    filter_upwards [hev] with z hz
    exact (congrArg V3.x (hankelField_eq hmu s hf hs hu p hp hz).2).symm
  · have := (((tA.const_mul (((s.orientation.x * (p.x - s.location.x) + s.orientation.y * (p.y - s.location.y)) * (p.y - s.location.y) / offsetTo s p ^ 2 : ℝ) : ℂ)).add
      (tB.const_mul ((s.orientation.y / offsetTo s p - 2 * (s.orientation.x * (p.x - s.location.x) + s.orientation.y * (p.y - s.location.y)) * (p.y - s.location.y) / offsetTo s p ^ 3 : ℝ) : ℂ))).add
      (tC.const_mul ((s.orientation.z * (p.y - s.location.y) / offsetTo s p : ℝ) : ℂ))).const_mul ((s.moment / (4 * Real.pi) : ℝ) : ℂ)
    have hval : E.y = ((s.moment / (4 * Real.pi) : ℝ) : ℂ) * ((((s.orientation.x * (p.x - s.location.x) + s.orientation.y * (p.y - s.location.y)) * (p.y - s.location.y) / offsetTo s p ^ 2 : ℝ) : ℂ) * hankelA (I * d.k mu0) (offsetTo s p) +
      ((s.orientation.y / offsetTo s p - 2 * (s.orientation.x * (p.x - s.location.x) + s.orientation.y * (p.y - s.location.y)) * (p.y - s.location.y) / offsetTo s p ^ 3 : ℝ) : ℂ) * hankelB (I * d.k mu0) (offsetTo s p) +
      ((s.orientation.z * (p.y - s.location.y) / offsetTo s p : ℝ) : ℂ) * hankelC (I * d.k mu0) (offsetTo s p)) := by
      rw [hE]
      simp only [V3.smul_y, V3.sub_y, smul_eq_mul]
      rw [show Real.sqrt ((p.x - s.location.x) ^ 2 + (p.y - s.location.y) ^ 2) = offsetTo s p from rfl, halfIK, halfPhi, halfDphi, hankelA, hankelB, hankelC, hexp]
      congr 1
      push_cast at hsq ⊢
      generalize (offsetTo s p : ℂ) = r at *
      generalize Complex.exp (-I * d.k mu0 * r) = X
      generalize cbesselI 1 (I * d.k mu0 * r / 2) * cbesselK 1 (I * d.k mu0 * r / 2) - cbesselI 2 (I * d.k mu0 * r / 2) * cbesselK 2 (I * d.k mu0 * r / 2) = W
      generalize d.k mu0 = k at *
      generalize (s.orientation.x : ℂ) = mx
      generalize (s.orientation.y : ℂ) = my
      generalize (s.orientation.z : ℂ) = mz
      generalize (p.x - s.location.x : ℂ) = x at *
      generalize (p.y - s.location.y : ℂ) = y at *
      simp only [mul_pow, h2, h3]
      have hx2 : x ^ 2 = r ^ 2 - y ^ 2 := by rw [← hsq]; ring
      rw [hx2]
      field_simp
      ring
    rw [hval]
    refine this.congr' ?_
    filter_upwards [hev] with z hz
    exact (congrArg V3.y (hankelField_eq hmu s hf hs hu p hp hz).2).symm
  · have := (((tA.const_mul ((s.orientation.z : ℝ) : ℂ)).add (tB.const_mul ((0 : ℝ) : ℂ))).add
      (tC.const_mul ((-((s.orientation.x * (p.x - s.location.x) + s.orientation.y * (p.y - s.location.y)) / offsetTo s p) : ℝ) : ℂ))).const_mul ((s.moment / (4 * Real.pi) : ℝ) : ℂ)
    have hval : E.z = ((s.moment / (4 * Real.pi) : ℝ) : ℂ) * (((s.orientation.z : ℝ) : ℂ) * hankelA (I * d.k mu0) (offsetTo s p) +
      ((0 : ℝ) : ℂ) * hankelB (I * d.k mu0) (offsetTo s p) +
      ((-((s.orientation.x * (p.x - s.location.x) + s.orientation.y * (p.y - s.location.y)) / offsetTo s p) : ℝ) : ℂ) * hankelC (I * d.k mu0) (offsetTo s p)) := by
      rw [hE]
      simp only [V3.smul_z, V3.sub_z, smul_eq_mul]
      rw [show Real.sqrt ((p.x - s.location.x) ^ 2 + (p.y - s.location.y) ^ 2) = offsetTo s p from rfl, halfIK, halfZZ, hankelA, hankelC, hexp]
      congr 1
      push_cast at hsq ⊢
      generalize (offsetTo s p : ℂ) = r at *
      generalize Complex.exp (-I * d.k mu0 * r) = X
      generalize cbesselI 1 (I * d.k mu0 * r / 2) * cbesselK 1 (I * d.k mu0 * r / 2) - cbesselI 2 (I * d.k mu0 * r / 2) * cbesselK 2 (I * d.k mu0 * r / 2) = W
      generalize d.k mu0 = k at *
      simp only [mul_pow, h2, h3]
      field_simp
      ring
    rw [hval]
    refine this.congr' ?_
    filter_upwards [hev] with z hz
    exact (congrArg V3.z (hankelField_eq hmu s hf hs hu p hp hz).2).symm

end

/-- **C90.** The closed formula for the secondary field in the centre of a loop on a halfspace is the limit, as the loop
comes down to the ground, of the Hankel integral of the reflection coefficient that the layered code computes for any number of equal
layers. -/
theorem loop_is_hankel {mu0 : ℝ} (hmu : 0 < mu0) (s : LayeredDipole) (hf : 0 < s.frequency) {sigma : ℂ} (hs : 0 < sigma.re)
    (hu : s.Uniform sigma mu0) {a : ℝ} (ha : 0 < a) (current turns : ℝ) :
    (∀ z : ℝ, 0 < z → IntegrableOn (fun l : ℝ => s.rTE mu0 l * ((l * Real.exp (-l * z) * besselJ1 (l * a) : ℝ) : ℂ)) (Ioi 0)) ∧
    Tendsto (fun z : ℝ => ((turns * current * a / 2 : ℝ) : ℂ) *
        ∫ l in Ioi (0:ℝ), s.rTE mu0 l * ((l * Real.exp (-l * z) * besselJ1 (l * a) : ℝ) : ℂ)) (𝓝[>] 0)
      (𝓝 (loopField s.frequency sigma mu0 a current turns true)) := by
  set d : HalfDipole := ⟨s.frequency, sigma, s.location, s.orientation, s.moment⟩ with hd
  have hκ : 0 < (I * d.k mu0).re := ik_re_pos hmu d hf hs
  obtain ⟨h1, h2⟩ := hankel_B hκ ha
  have e : ∀ z l : ℝ, (l : ℂ) * hsRefl (I * d.k mu0) l * Real.exp (-z * l) * (besselJ1 (l * a) : ℂ)
      = s.rTE mu0 l * ((l * Real.exp (-l * z) * besselJ1 (l * a) : ℝ) : ℂ) := fun z l => by
    rw [show s.rTE mu0 l = hsRefl (I * d.k mu0) l from refl_uniform _ rfl rfl rfl hf hmu hs hu.sigma hu.mu hu.thickness d rfl rfl,
      show -z * l = -l * z by ring]
    push_cast
    ring
  simp only [e] at h1 h2
  refine ⟨h1, ?_⟩
  have hk : d.k mu0 ≠ 0 := fun h => by rw [h] at hκ; simp at hκ
  have hval : loopField s.frequency sigma mu0 a current turns true = ((turns * current * a / 2 : ℝ) : ℂ) * hankelB (I * d.k mu0) a := by
    have hkd : d.k mu0 = Complex.sqrt (-I * ((2 * Real.pi * s.frequency : ℝ) : ℂ) * mu0 * sigma) := rfl
    simp only [loopField, if_true, ← hkd, hankelB]
    have ha0 : (a : ℂ) ≠ 0 := by exact_mod_cast ha.ne'
    rw [show -(I * d.k mu0 * a) = -I * d.k mu0 * a by ring]
    generalize Complex.exp (-I * d.k mu0 * a) = X
    generalize d.k mu0 = k at *
    simp only [mul_pow, Complex.I_sq]
    push_cast
    field_simp
    ring
  rw [hval]
  exact h2.const_mul _

/-- Non-vacuity: a tilted dipole over three equal layers. -/
example : ∃ s : LayeredDipole, 0 < s.frequency ∧ s.nThick = 2 ∧ s.Uniform ⟨1, 1⟩ (4 : ℝ) ∧ 0 < (⟨1, 1⟩ : ℂ).re ∧
    ((⟨5, 0, 0⟩ : V3 ℝ).x ≠ s.location.x ∨ (⟨5, 0, 0⟩ : V3 ℝ).y ≠ s.location.y) :=
  ⟨⟨100, 2, fun _ => 10, fun _ => ⟨1, 1⟩, fun _ => (4 : ℝ), ⟨0, 0, 1⟩, ⟨1, 0, 1⟩, 2⟩, by norm_num, rfl,
    ⟨fun _ _ => rfl, fun _ _ => rfl, fun _ _ => by norm_num⟩, one_pos, .inl (by norm_num)⟩

end Verif.Fdem
