import Verif.Model.FdemHalfspace
import Verif.Model.StaticWholeSpace
import Verif.Props.Coordinates
import Verif.Lemmas.Arctan2
import Verif.Lemmas.HalfspaceLimits
import Mathlib.Analysis.Calculus.Deriv.Inv
import Mathlib.Analysis.Complex.RealDeriv

/-! # The dipole and the loop on a homogeneous halfspace (helper lemmas) -/

namespace Verif.Fdem

open Complex (I)
open Spatial Filter
open scoped Topology

variable (iv kv : ℕ → ℂ → ℂ)

/-- The common factors. -/
noncomputable def halfIK (k r : ℂ) : ℂ := iv 1 (I * k * r / 2) * kv 1 (I * k * r / 2) - iv 2 (I * k * r / 2) * kv 2 (I * k * r / 2)
/-- `phi`. -/
noncomputable def halfPhi (k r : ℂ) : ℂ :=
  2 / (k ^ 2 * r ^ 4) * (3 + k ^ 2 * r ^ 2 - (3 + 3 * I * k * r - k ^ 2 * r ^ 2) * Complex.exp (-I * k * r))
/-- `dphi_dr`. -/
noncomputable def halfDphi (k r : ℂ) : ℂ :=
  2 / (k ^ 2 * r ^ 5) * (-2 * k ^ 2 * r ^ 2 - 12 +
    (-I * k ^ 3 * r ^ 3 - 5 * k ^ 2 * r ^ 2 + 12 * I * k * r + 12) * Complex.exp (-I * k * r))
/-- The vertical field of the vertical source. -/
noncomputable def halfZZ (k r : ℂ) : ℂ :=
  2 / (k ^ 2 * r ^ 5) * (9 - (9 + 9 * I * k * r - 4 * k ^ 2 * r ^ 2 - I * k ^ 3 * r ^ 3) * Complex.exp (-I * k * r))

theorem halfEm_total (k : ℂ) (src : V3 ℝ) (x y : ℝ) (hr : x ≠ 0 ∨ y ≠ 0) {field : String} (hf : field ≠ "secondary") :
    let r : ℂ := (Real.sqrt (x ^ 2 + y ^ 2) : ℝ)
    halfEm iv kv k src x y field =
      ⟨src.z * (x / r) * (k ^ 2 / r * halfIK iv kv k r) + src.x * (-1 / r ^ 3) * (y ^ 2 * halfPhi k r + x ^ 2 * r * halfDphi k r) +
          src.y * (1 / r ^ 3) * x * y * (halfPhi k r - r * halfDphi k r),
       src.z * (y / r) * (k ^ 2 / r * halfIK iv kv k r) + src.x * (1 / r ^ 3) * x * y * (halfPhi k r - r * halfDphi k r) +
          src.y * (-1 / r ^ 3) * (x ^ 2 * halfPhi k r + y ^ 2 * r * halfDphi k r),
       src.z * halfZZ k r - (src.x * x + src.y * y) * (k ^ 2 / r ^ 2) * halfIK iv kv k r⟩ := by
  have hrp : 0 < Real.sqrt (x ^ 2 + y ^ 2) := Real.sqrt_pos.2 (by rcases hr with h | h <;> positivity)
  have c1 := sqrt_mul_cos_arctan2 y x
  have s1 := sqrt_mul_sin_arctan2 y x
  have hc1 : Real.cos (arctan2 y x) = x / Real.sqrt (x ^ 2 + y ^ 2) := by rw [eq_div_iff hrp.ne']; linarith
  have hs1 : Real.sin (arctan2 y x) = y / Real.sqrt (x ^ 2 + y ^ 2) := by rw [eq_div_iff hrp.ne']; linarith
  simp only [halfEm, if_neg hf, hc1, hs1, Complex.ofReal_div]
  change _ = (⟨_, _, _⟩ : V3 ℂ)
  simp only [halfIK, halfPhi, halfDphi, halfZZ]
  by_cases hx : src.x = 0 <;> by_cases hy : src.y = 0 <;> by_cases hz : src.z = 0 <;>
    simp only [hx, hy, hz, ne_eq, not_true_eq_false, not_false_eq_true, if_true, if_false, or_self, or_true, or_false] <;>
    ext <;> simp only [V3.add_x, V3.add_y, V3.add_z, V3.zero_x, V3.zero_y, V3.zero_z, Complex.ofReal_zero] <;> ring

theorem halfEm_secondary (k : ℂ) (src : V3 ℝ) (x y : ℝ) :
    halfEm iv kv k src x y "secondary" = halfEm iv kv k src x y "total" -
      (let r : ℂ := (Real.sqrt (x ^ 2 + y ^ 2) : ℝ)
       ⟨3 * x * (src.x * x + src.y * y) / r ^ 5 - src.x / r ^ 3, 3 * y * (src.x * x + src.y * y) / r ^ 5 - src.y / r ^ 3,
        -src.z / r ^ 3⟩) := by
  simp only [halfEm, if_true, if_neg (show ¬ ("total" = "secondary") by decide)]

/-- The field of an axially symmetric earth: with `d` the horizontal displacement and `m` the source's direction, the horizontal
field is `A (m·d) d + B m + C m_z d` and the vertical one is `D m_z - C m·d`. -/
theorem halfEm_form (k : ℂ) (r : ℝ) (hr : 0 < r) (field : String) :
    ∃ A B C D : ℂ, ∀ (src : V3 ℝ) (x y : ℝ), Real.sqrt (x ^ 2 + y ^ 2) = r →
      halfEm iv kv k src x y field =
        ⟨A * (src.x * x + src.y * y) * x + B * src.x + C * src.z * x, A * (src.x * x + src.y * y) * y + B * src.y + C * src.z * y,
          D * src.z - C * (src.x * x + src.y * y)⟩ := by
  have hr0 : (r : ℂ) ≠ 0 := by exact_mod_cast hr.ne'
  have tot : ∀ (src : V3 ℝ) (x y : ℝ), Real.sqrt (x ^ 2 + y ^ 2) = r → ∀ field : String, field ≠ "secondary" →
      halfEm iv kv k src x y field =
        ⟨(halfPhi k r - r * halfDphi k r) / r ^ 3 * (src.x * x + src.y * y) * x + (-halfPhi k r / r) * src.x +
            k ^ 2 / r ^ 2 * halfIK iv kv k r * src.z * x,
          (halfPhi k r - r * halfDphi k r) / r ^ 3 * (src.x * x + src.y * y) * y + (-halfPhi k r / r) * src.y +
            k ^ 2 / r ^ 2 * halfIK iv kv k r * src.z * y,
          halfZZ k r * src.z - k ^ 2 / r ^ 2 * halfIK iv kv k r * (src.x * x + src.y * y)⟩ := by
    intro src x y he field hf
    have hxy : x ≠ 0 ∨ y ≠ 0 := by
      by_contra hc
      push Not at hc
      rw [hc.1, hc.2] at he
      simp at he
      exact hr.ne he
    have hsq : (x : ℂ) ^ 2 + (y : ℂ) ^ 2 = (r : ℂ) ^ 2 := by
      rw [← he]
      norm_cast
      rw [Real.sq_sqrt (by positivity)]
    rw [halfEm_total iv kv k src x y hxy hf]
    simp only [he]
    generalize halfPhi k r = P
    generalize halfDphi k r = Q
    generalize halfIK iv kv k r = W
    generalize halfZZ k r = Z
    ext
    · simp only
      field_simp
      linear_combination (-(P * src.x)) * hsq
    · simp only
      field_simp
      linear_combination (-(P * src.y)) * hsq
    · simp only
      ring
  by_cases hf : field = "secondary"
  · subst hf
    refine ⟨(halfPhi k r - r * halfDphi k r) / r ^ 3 - 3 / r ^ 5, -halfPhi k r / r + 1 / r ^ 3, k ^ 2 / r ^ 2 * halfIK iv kv k r,
      halfZZ k r + 1 / r ^ 3, fun src x y he => ?_⟩
    rw [halfEm_secondary, tot src x y he "total" (by decide)]
    simp only [he]
    ext <;> simp only [V3.sub_x, V3.sub_y, V3.sub_z] <;> ring
  · exact ⟨_, _, _, _, fun src x y he => tot src x y he field hf⟩

theorem sqrt_turn (a x y : ℝ) :
    Real.sqrt ((Real.cos a * x - Real.sin a * y) ^ 2 + (Real.sin a * x + Real.cos a * y) ^ 2) = Real.sqrt (x ^ 2 + y ^ 2) := by
  congr 1
  linear_combination (x ^ 2 + y ^ 2) * Real.cos_sq_add_sin_sq a

theorem offset_pos {p q : V3 ℝ} (hr : p.x ≠ q.x ∨ p.y ≠ q.y) : 0 < Real.sqrt ((p.x - q.x) ^ 2 + (p.y - q.y) ^ 2) := by
  have hne : p.x - q.x ≠ 0 ∨ p.y - q.y ≠ 0 := by simpa [sub_ne_zero] using hr
  exact Real.sqrt_pos.2 (by rcases hne with h | h <;> positivity)

/-- The derivative of `exp (-i k r)`. -/
theorem hasDerivAt_expk (k : ℂ) (r : ℝ) :
    HasDerivAt (fun r : ℝ => Complex.exp (-I * k * r)) (-I * k * Complex.exp (-I * k * r)) r := by
  have h : HasDerivAt (fun z : ℂ => -I * k * z) (-I * k) (r : ℂ) := by simpa using (hasDerivAt_id (r : ℂ)).const_mul (-I * k)
  exact (h.cexp.comp_ofReal).congr_deriv (by ring)

theorem hasDerivAt_rpow (n : ℕ) (r : ℝ) : HasDerivAt (fun r : ℝ => (r : ℂ) ^ n) (n * (r : ℂ) ^ (n - 1)) r :=
  (hasDerivAt_pow n (r : ℂ)).comp_ofReal

/-- `dphi_dr` is the derivative of `phi`. -/
theorem hasDerivAt_halfPhi {k : ℂ} (hk : k ≠ 0) {r : ℝ} (hr : 0 < r) :
    HasDerivAt (fun r : ℝ => halfPhi k r) (halfDphi k r) r := by
  have hr0 : (r : ℂ) ≠ 0 := by exact_mod_cast hr.ne'
  have h1 := hasDerivAt_rpow 1 r
  have h2 := hasDerivAt_rpow 2 r
  have h4 := hasDerivAt_rpow 4 r
  simp only [pow_one] at h1
  have hf := (hasDerivAt_const r (2 : ℂ)).fun_div (h4.const_mul (k ^ 2)) (by positivity)
  have hp := ((h1.const_mul (3 * I * k)).const_add 3).fun_sub (h2.const_mul (k ^ 2))
  have hq := ((h2.const_mul (k ^ 2)).const_add 3).fun_sub (hp.fun_mul (hasDerivAt_expk k r))
  refine (hf.fun_mul hq).congr_deriv ?_
  simp only [halfDphi]
  generalize Complex.exp (-I * k * r) = E
  norm_num
  field_simp
  have hI : I ^ 2 = -1 := Complex.I_sq
  ring_nf
  simp only [hI]
  ring

/-! ## Low and high frequency -/

/-- `s² = -k²r²` for `s = i k r`. -/
theorem s_sq (k r : ℂ) : (I * k * r) ^ 2 = -(k ^ 2 * r ^ 2) := by
  linear_combination (k ^ 2 * r ^ 2) * Complex.I_sq

theorem s_cube (k r : ℂ) : (I * k * r) ^ 3 = -(I * k ^ 3 * r ^ 3) := by
  linear_combination (I * k ^ 3 * r ^ 3) * Complex.I_sq

theorem halfZZ_eq {k r : ℂ} (hk : k ≠ 0) (hr : r ≠ 0) :
    let s := I * k * r
    halfZZ k r = -2 / r ^ 3 * ((9 + 0 * s ^ 2 + (-9 + -9 * s + -4 * s ^ 2) * Complex.exp (-s)) / s ^ 2 - s ^ 3 * Complex.exp (-s) / s ^ 2) := by
  simp only [halfZZ, s_sq, s_cube, neg_mul]
  rw [show I * k * r = I * (k * r) by ring] at *
  field_simp
  ring

theorem halfPhi_eq {k r : ℂ} (hk : k ≠ 0) (hr : r ≠ 0) :
    let s := I * k * r
    halfPhi k r = -2 / r ^ 2 * ((3 + -1 * s ^ 2 + (-3 + -3 * s + -1 * s ^ 2) * Complex.exp (-s)) / s ^ 2) := by
  simp only [halfPhi, s_sq, neg_mul]
  field_simp
  ring

theorem halfDphi_eq {k r : ℂ} (hk : k ≠ 0) (hr : r ≠ 0) :
    let s := I * k * r
    halfDphi k r = -2 / r ^ 3 * ((-12 + 2 * s ^ 2 + (12 + 12 * s + 5 * s ^ 2) * Complex.exp (-s)) / s ^ 2 + s ^ 3 * Complex.exp (-s) / s ^ 2) := by
  simp only [halfDphi, s_sq, s_cube, neg_mul]
  field_simp
  ring

theorem tendsto_halfZZ_zero {r : ℂ} (hr : r ≠ 0) : Tendsto (fun k => halfZZ k r) (𝓝[≠] 0) (𝓝 (-1 / r ^ 3)) := by
  have hs : Tendsto (fun k : ℂ => I * k * r) (𝓝[≠] 0) (𝓝[≠] 0) := by
    refine tendsto_nhdsWithin_iff.2 ⟨?_, ?_⟩
    · have hc : Continuous fun k : ℂ => I * k * r := by fun_prop
      have := hc.tendsto 0
      simp only [mul_zero, zero_mul] at this
      exact this.mono_left nhdsWithin_le_nhds
    · filter_upwards [self_mem_nhdsWithin] with k hk
      exact mul_ne_zero (mul_ne_zero Complex.I_ne_zero hk) hr
  have h := (((tendsto_small 9 (-9) (-9) (-4) 0 (by norm_num) rfl rfl).sub tendsto_cube).comp hs).const_mul (-2 / r ^ 3)
  have e : -2 / r ^ 3 * (0 + (-4 - -9 + -9 / 2) - 0) = -1 / r ^ 3 := by ring
  rw [e] at h
  refine h.congr' ?_
  filter_upwards [self_mem_nhdsWithin] with k hk
  exact (halfZZ_eq hk hr).symm

theorem tendsto_halfPhi_zero {r : ℂ} (hr : r ≠ 0) : Tendsto (fun k => halfPhi k r) (𝓝[≠] 0) (𝓝 (1 / r ^ 2)) := by
  have hs : Tendsto (fun k : ℂ => I * k * r) (𝓝[≠] 0) (𝓝[≠] 0) := by
    refine tendsto_nhdsWithin_iff.2 ⟨?_, ?_⟩
    · have hc : Continuous fun k : ℂ => I * k * r := by fun_prop
      have := hc.tendsto 0
      simp only [mul_zero, zero_mul] at this
      exact this.mono_left nhdsWithin_le_nhds
    · filter_upwards [self_mem_nhdsWithin] with k hk
      exact mul_ne_zero (mul_ne_zero Complex.I_ne_zero hk) hr
  have h := ((tendsto_small 3 (-3) (-3) (-1) (-1) (by norm_num) rfl rfl).comp hs).const_mul (-2 / r ^ 2)
  have e : -2 / r ^ 2 * (-1 + (-1 - -3 + -3 / 2)) = 1 / r ^ 2 := by ring
  rw [e] at h
  refine h.congr' ?_
  filter_upwards [self_mem_nhdsWithin] with k hk
  exact (halfPhi_eq hk hr).symm

theorem tendsto_halfDphi_zero {r : ℂ} (hr : r ≠ 0) : Tendsto (fun k => halfDphi k r) (𝓝[≠] 0) (𝓝 (-2 / r ^ 3)) := by
  have hs : Tendsto (fun k : ℂ => I * k * r) (𝓝[≠] 0) (𝓝[≠] 0) := by
    refine tendsto_nhdsWithin_iff.2 ⟨?_, ?_⟩
    · have hc : Continuous fun k : ℂ => I * k * r := by fun_prop
      have := hc.tendsto 0
      simp only [mul_zero, zero_mul] at this
      exact this.mono_left nhdsWithin_le_nhds
    · filter_upwards [self_mem_nhdsWithin] with k hk
      exact mul_ne_zero (mul_ne_zero Complex.I_ne_zero hk) hr
  have h := (((tendsto_small (-12) 12 12 5 2 (by norm_num) rfl rfl).add tendsto_cube).comp hs).const_mul (-2 / r ^ 3)
  have e : -2 / r ^ 3 * (2 + (5 - 12 + 12 / 2) + 0) = -2 / r ^ 3 := by ring
  rw [e] at h
  refine h.congr' ?_
  filter_upwards [self_mem_nhdsWithin] with k hk
  exact (halfDphi_eq hk hr).symm

/-- Along a ray into the right half plane, a quadratic over `s²` tends to its leading coefficient. -/
theorem tendsto_ray_quadratic {c : ℂ} (hc : 0 < c.re) (a b d e g : ℂ) :
    Tendsto (fun t : ℝ => (a + e * ((t : ℂ) * c) ^ 2 + (b + d * ((t : ℂ) * c) + g * ((t : ℂ) * c) ^ 2) * Complex.exp (-((t : ℂ) * c))) /
      ((t : ℂ) * c) ^ 2) atTop (𝓝 e) := by
  have h0 := tendsto_ray hc 0
  have h1 := tendsto_ray hc 1
  have h2 := tendsto_ray hc 2
  have hi := tendsto_inv_ray hc
  have h := (((hi.const_mul a).add (tendsto_const_nhds (x := e))).add
    ((((h0.const_mul b).add (h1.const_mul d)).add (h2.const_mul g)).mul hi))
  simp only [mul_zero, add_zero, zero_add] at h
  refine h.congr' ?_
  filter_upwards [eventually_gt_atTop 0] with t ht
  have hc0 : c ≠ 0 := by rintro rfl; simp at hc
  have ht0 : (t : ℂ) ≠ 0 := by exact_mod_cast ht.ne'
  have hs : (t : ℂ) * c ≠ 0 := mul_ne_zero ht0 hc0
  generalize (t : ℂ) * c = s at *
  field_simp

theorem tendsto_ray_cube {c : ℂ} (hc : 0 < c.re) :
    Tendsto (fun t : ℝ => ((t : ℂ) * c) ^ 3 * Complex.exp (-((t : ℂ) * c)) / ((t : ℂ) * c) ^ 2) atTop (𝓝 0) := by
  refine (tendsto_ray hc 1).congr' ?_
  filter_upwards [eventually_gt_atTop 0] with t ht
  have hc0 : c ≠ 0 := by rintro rfl; simp at hc
  have ht0 : (t : ℂ) ≠ 0 := by exact_mod_cast ht.ne'
  have hs : (t : ℂ) * c ≠ 0 := mul_ne_zero ht0 hc0
  field_simp

section
variable {kap r : ℂ} (hc : 0 < (I * kap * r).re)
include hc

theorem ray_ne : kap ≠ 0 ∧ r ≠ 0 := by
  constructor <;> · rintro rfl; simp at hc

theorem tendsto_halfZZ_top : Tendsto (fun t : ℝ => halfZZ (t * kap) r) atTop (𝓝 0) := by
  obtain ⟨hk, hr⟩ := ray_ne hc
  have h := ((tendsto_ray_quadratic hc 9 (-9) (-9) 0 (-4)).sub (tendsto_ray_cube hc)).const_mul (-2 / r ^ 3)
  rw [sub_zero, mul_zero] at h
  refine h.congr' ?_
  filter_upwards [eventually_gt_atTop 0] with t ht
  have ht0 : (t : ℂ) ≠ 0 := by exact_mod_cast ht.ne'
  rw [halfZZ_eq (mul_ne_zero ht0 hk) hr]
  simp only [show I * (t * kap) * r = t * (I * kap * r) by ring]

theorem tendsto_halfPhi_top : Tendsto (fun t : ℝ => halfPhi (t * kap) r) atTop (𝓝 (2 / r ^ 2)) := by
  obtain ⟨hk, hr⟩ := ray_ne hc
  have h := (tendsto_ray_quadratic hc 3 (-3) (-3) (-1) (-1)).const_mul (-2 / r ^ 2)
  rw [show -2 / r ^ 2 * -1 = 2 / r ^ 2 by ring] at h
  refine h.congr' ?_
  filter_upwards [eventually_gt_atTop 0] with t ht
  have ht0 : (t : ℂ) ≠ 0 := by exact_mod_cast ht.ne'
  rw [halfPhi_eq (mul_ne_zero ht0 hk) hr]
  simp only [show I * (t * kap) * r = t * (I * kap * r) by ring]

theorem tendsto_halfDphi_top : Tendsto (fun t : ℝ => halfDphi (t * kap) r) atTop (𝓝 (-4 / r ^ 3)) := by
  obtain ⟨hk, hr⟩ := ray_ne hc
  have h := ((tendsto_ray_quadratic hc (-12) 12 12 2 5).add (tendsto_ray_cube hc)).const_mul (-2 / r ^ 3)
  rw [show -2 / r ^ 3 * (2 + 0) = -4 / r ^ 3 by ring] at h
  refine h.congr' ?_
  filter_upwards [eventually_gt_atTop 0] with t ht
  have ht0 : (t : ℂ) ≠ 0 := by exact_mod_cast ht.ne'
  rw [halfDphi_eq (mul_ne_zero ht0 hk) hr]
  simp only [show I * (t * kap) * r = t * (I * kap * r) by ring]

end

/-- The wavenumber grows like the root of the frequency, with negative imaginary part. -/
theorem half_k_ray {mu0 : ℝ} (hmu : 0 < mu0) (s : HalfDipole) (hs : 0 < s.sigmaHat.re) :
    ∃ kap : ℂ, kap.im < 0 ∧ ∀ f : ℝ, 0 < f → ({ s with frequency := f } : HalfDipole).k mu0 = (Real.sqrt f : ℂ) * kap := by
  have him : (-I * ((2 * Real.pi : ℝ) : ℂ) * mu0 * s.sigmaHat).im < 0 := by
    rw [show -I * ((2 * Real.pi : ℝ) : ℂ) * mu0 * s.sigmaHat = ((-(2 * Real.pi * mu0) : ℝ) : ℂ) * (I * s.sigmaHat) by push_cast; ring]
    rw [Complex.im_ofReal_mul]
    simp only [Complex.mul_im, Complex.I_re, Complex.I_im, zero_mul, one_mul, zero_add]
    have := Real.pi_pos
    have : 0 < 2 * Real.pi * mu0 * s.sigmaHat.re := by positivity
    linarith
  refine ⟨Complex.sqrt (-I * ((2 * Real.pi : ℝ) : ℂ) * mu0 * s.sigmaHat), csqrt_im_lt him, fun f hf => ?_⟩
  rw [← csqrt_ray hf him.ne, HalfDipole.k]
  congr 1
  push_cast
  ring

theorem hasDerivAt_offset (x y vx vy : ℝ) (hr : x ≠ 0 ∨ y ≠ 0) :
    HasDerivAt (fun t : ℝ => Real.sqrt ((x + t * vx) ^ 2 + (y + t * vy) ^ 2)) ((x * vx + y * vy) / Real.sqrt (x ^ 2 + y ^ 2)) 0 := by
  have hpos : 0 < x ^ 2 + y ^ 2 := by rcases hr with h | h <;> positivity
  have hx : HasDerivAt (fun t : ℝ => x + t * vx) vx 0 := by simpa using ((hasDerivAt_id (0 : ℝ)).mul_const vx).const_add x
  have hy : HasDerivAt (fun t : ℝ => y + t * vy) vy 0 := by simpa using ((hasDerivAt_id (0 : ℝ)).mul_const vy).const_add y
  have h := ((hx.fun_pow 2).fun_add (hy.fun_pow 2)).sqrt (by simpa using hpos.ne')
  refine h.congr_deriv ?_
  norm_num
  field_simp

/-- On the surface the horizontal field of a horizontal dipole is minus the gradient of the potential
`(m · d) phi(|d|) / |d|`, in every horizontal direction `v`. -/
theorem half_horizontal_potential {k : ℂ} (hk : k ≠ 0) (src : V3 ℝ) (hz : src.z = 0) (x y vx vy : ℝ) (hr : x ≠ 0 ∨ y ≠ 0) :
    let em := halfEm iv kv k src x y "total"
    HasDerivAt (fun t : ℝ => -(((src.x * (x + t * vx) + src.y * (y + t * vy) : ℝ) : ℂ) *
        halfPhi k (Real.sqrt ((x + t * vx) ^ 2 + (y + t * vy) ^ 2) : ℝ) / (Real.sqrt ((x + t * vx) ^ 2 + (y + t * vy) ^ 2) : ℝ)))
      (em.x * vx + em.y * vy) 0 := by
  intro em
  have hpos : 0 < x ^ 2 + y ^ 2 := by rcases hr with h | h <;> positivity
  have hrp : 0 < Real.sqrt (x ^ 2 + y ^ 2) := Real.sqrt_pos.2 hpos
  have hx : HasDerivAt (fun t : ℝ => x + t * vx) vx 0 := by simpa using ((hasDerivAt_id (0 : ℝ)).mul_const vx).const_add x
  have hy : HasDerivAt (fun t : ℝ => y + t * vy) vy 0 := by simpa using ((hasDerivAt_id (0 : ℝ)).mul_const vy).const_add y
  have hm : HasDerivAt (fun t : ℝ => src.x * (x + t * vx) + src.y * (y + t * vy)) (src.x * vx + src.y * vy) 0 :=
    (hx.const_mul _).fun_add (hy.const_mul _)
  have hrr := hasDerivAt_offset x y vx vy hr
  have hphi := (hasDerivAt_halfPhi hk hrp).scomp_of_eq (0 : ℝ) hrr (by simp)
  have h := ((hm.ofReal_comp.fun_mul hphi).fun_div hrr.ofReal_comp (by simpa using hrp.ne')).fun_neg
  refine h.congr_deriv ?_
  have hr0 : ((Real.sqrt (x ^ 2 + y ^ 2) : ℝ) : ℂ) ≠ 0 := by exact_mod_cast hrp.ne'
  have hsq : (x : ℂ) ^ 2 + (y : ℂ) ^ 2 = ((Real.sqrt (x ^ 2 + y ^ 2) : ℝ) : ℂ) ^ 2 := by
    norm_cast
    rw [Real.sq_sqrt (by positivity)]
  simp only [em, halfEm_total iv kv k src x y hr (show "total" ≠ "secondary" by decide), hz, Function.comp, zero_mul, add_zero,
    Complex.real_smul]
  generalize Real.sqrt (x ^ 2 + y ^ 2) = r at *
  generalize halfPhi k r = P
  generalize halfDphi k r = Q
  push_cast
  field_simp
  linear_combination (P * (src.x * vx + src.y * vy)) * hsq

/-- The limit of the accumulated components from the limits of their factors. -/
theorem tendsto_halfEm {l : Filter ℝ} {k : ℝ → ℂ} {P Q Z : ℂ} (src : V3 ℝ) (x y : ℝ) (hne : x ≠ 0 ∨ y ≠ 0) {r : ℝ}
    (hrdef : Real.sqrt (x ^ 2 + y ^ 2) = r) (hP : Tendsto (fun f => halfPhi (k f) r) l (𝓝 P))
    (hQ : Tendsto (fun f => halfDphi (k f) r) l (𝓝 Q)) (hZ : Tendsto (fun f => halfZZ (k f) r) l (𝓝 Z))
    (hW : Tendsto (fun f => k f ^ 2 * halfIK iv kv (k f) r) l (𝓝 0)) :
    Tendsto (fun f => (halfEm iv kv (k f) src x y "total").x) l
      (𝓝 (src.x * (-1 / r ^ 3) * (y ^ 2 * P + x ^ 2 * r * Q) + src.y * (1 / r ^ 3) * x * y * (P - r * Q))) ∧
    Tendsto (fun f => (halfEm iv kv (k f) src x y "total").y) l
      (𝓝 (src.x * (1 / r ^ 3) * x * y * (P - r * Q) + src.y * (-1 / r ^ 3) * (x ^ 2 * P + y ^ 2 * r * Q))) ∧
    Tendsto (fun f => (halfEm iv kv (k f) src x y "total").z) l (𝓝 (src.z * Z)) := by
  simp only [halfEm_total iv kv _ src x y hne (show "total" ≠ "secondary" by decide), hrdef]
  refine ⟨?_, ?_, ?_⟩
  · have h := ((hW.const_mul (src.z * (x / r) * (1 / r) : ℂ)).add
      (((hP.const_mul ((y : ℂ) ^ 2)).add (hQ.const_mul ((x : ℂ) ^ 2 * r))).const_mul (src.x * (-1 / (r : ℂ) ^ 3)))).add
      ((hP.sub (hQ.const_mul (r : ℂ))).const_mul (src.y * (1 / (r : ℂ) ^ 3) * x * y))
    rw [mul_zero, zero_add] at h
    refine h.congr fun f => ?_
    ring
  · have h := ((hW.const_mul (src.z * (y / r) * (1 / r) : ℂ)).add
      ((hP.sub (hQ.const_mul (r : ℂ))).const_mul (src.x * (1 / (r : ℂ) ^ 3) * x * y))).add
      (((hP.const_mul ((x : ℂ) ^ 2)).add (hQ.const_mul ((y : ℂ) ^ 2 * r))).const_mul (src.y * (-1 / (r : ℂ) ^ 3)))
    rw [mul_zero, zero_add] at h
    refine h.congr fun f => ?_
    ring
  · have h := (hZ.const_mul (src.z : ℂ)).sub (hW.const_mul ((src.x * x + src.y * y) * (1 / (r : ℂ) ^ 2)))
    rw [mul_zero, sub_zero] at h
    refine h.congr fun f => ?_
    ring

/-- Components of the free-space static field at the surface. -/
theorem static_surface (mu : ℝ) (hmu : mu ≠ 0) (moment : ℝ) (src q p : V3 ℝ) (hr : p.x ≠ q.x ∨ p.y ≠ q.y) :
    let x := p.x - q.x
    let y := p.y - q.y
    let r := Real.sqrt (x ^ 2 + y ^ 2)
    (⟨mu, moment, ⟨q.x, q.y, 0⟩, src⟩ : Static.MagDipole).magneticField ⟨p.x, p.y, 0⟩ = (moment / (4 * Real.pi)) •
      ⟨3 * x * (src.x * x + src.y * y) / r ^ 5 - src.x / r ^ 3, 3 * y * (src.x * x + src.y * y) / r ^ 5 - src.y / r ^ 3,
        -src.z / r ^ 3⟩ := by
  intro x y r
  have hrp : 0 < r := offset_pos hr
  have hlen : ((⟨p.x, p.y, 0⟩ : V3 ℝ) - ⟨q.x, q.y, 0⟩).len = r := by simp [V3.len, r, x, y]
  simp only [Static.MagDipole.magneticField, Static.MagDipole.magneticFluxDensity, hlen]
  have hpi := Real.pi_ne_zero
  ext <;> simp [V3.dot, V3.map] <;> field_simp <;> simp only [x, y] <;> ring

end Verif.Fdem
