import Verif.Lemmas.ComplexSqrt
import Mathlib.Analysis.SpecialFunctions.ExpDeriv
import Mathlib.Analysis.Complex.Exponential
import Mathlib.Analysis.SpecialFunctions.Exp
import Mathlib.Tactic.FieldSimp

/-! # Small and large arguments in the halfspace formulas (helper lemmas) -/

namespace Verif

open Complex Filter
open scoped Topology

/-- The remainder of `exp (-s)` after its second order, divided by `s²`. -/
noncomputable def expRest (s : ℂ) : ℂ := (exp (-s) - 1 + s - s ^ 2 / 2) / s ^ 2

theorem exp_neg_eq {s : ℂ} (hs : s ≠ 0) : exp (-s) = 1 - s + s ^ 2 / 2 + s ^ 2 * expRest s := by
  rw [expRest]; field_simp; ring

theorem tendsto_expRest : Tendsto expRest (𝓝[≠] 0) (𝓝 0) := by
  rw [tendsto_zero_iff_norm_tendsto_zero]
  have h0 : Tendsto (fun s : ℂ => ‖s‖) (𝓝[≠] 0) (𝓝 0) := by
    have : Tendsto (fun s : ℂ => ‖s‖) (𝓝 0) (𝓝 ‖(0 : ℂ)‖) := continuous_norm.tendsto 0
    rw [norm_zero] at this
    exact this.mono_left nhdsWithin_le_nhds
  refine squeeze_zero' (Eventually.of_forall fun s => norm_nonneg _) ?_ h0
  have hb : ∀ᶠ s : ℂ in 𝓝[≠] 0, ‖s‖ ≤ 1 := by
    have : ∀ᶠ x : ℝ in 𝓝 0, x ≤ 1 := Iic_mem_nhds one_pos
    exact h0.eventually this
  filter_upwards [hb, self_mem_nhdsWithin] with s hs hs0
  have hs0 : s ≠ 0 := hs0
  have h := Complex.exp_bound (x := -s) (by rwa [norm_neg]) (n := 3) (by norm_num)
  have e : ∑ m ∈ Finset.range 3, (-s) ^ m / (m.factorial : ℂ) = 1 - s + s ^ 2 / 2 := by
    simp [Finset.sum_range_succ, Nat.factorial]
    ring
  rw [e, norm_neg] at h
  have hp : 0 < ‖s‖ := norm_pos_iff.2 hs0
  rw [expRest, norm_div, norm_pow, div_le_iff₀ (by positivity)]
  calc ‖exp (-s) - 1 + s - s ^ 2 / 2‖ = ‖exp (-s) - (1 - s + s ^ 2 / 2)‖ := by congr 1; ring
    _ ≤ _ := h
    _ ≤ ‖s‖ ^ 3 * 1 := by gcongr; norm_num [Nat.factorial]
    _ = _ := by ring

/-- A polynomial of degree three times `exp (-s)` over `s²`, near `0`. -/
theorem tendsto_small (a b c d e : ℂ) (h0 : a + b = 0) (h1 : c = b) {l : ℂ} (hl : l = e + (d - c + b / 2)) :
    Tendsto (fun s : ℂ => (a + e * s ^ 2 + (b + c * s + d * s ^ 2) * exp (-s)) / s ^ 2) (𝓝[≠] 0) (𝓝 l) := by
  have hs : Tendsto (fun s : ℂ => s) (𝓝[≠] 0) (𝓝 0) := tendsto_id.mono_left nhdsWithin_le_nhds
  have h := (((tendsto_const_nhds (x := e + (d - c + b / 2))).add (hs.const_mul (c / 2 - d))).add ((hs.pow 2).const_mul (d / 2))).add
    (((tendsto_const_nhds (x := b)).add ((hs.const_mul c).add ((hs.pow 2).const_mul d))).mul tendsto_expRest)
  simp only [mul_zero, add_zero, ne_eq, OfNat.ofNat_ne_zero, not_false_eq_true, zero_pow] at h
  rw [hl]
  refine h.congr' ?_
  filter_upwards [self_mem_nhdsWithin] with s hs0
  have hs0 : s ≠ 0 := hs0
  rw [exp_neg_eq hs0, eq_div_iff (pow_ne_zero 2 hs0)]
  subst h1
  have : a = -c := by linear_combination h0
  subst this
  ring

theorem tendsto_cube : Tendsto (fun s : ℂ => s ^ 3 * exp (-s) / s ^ 2) (𝓝[≠] 0) (𝓝 0) := by
  have hc : Continuous fun s : ℂ => s * exp (-s) := by fun_prop
  have h : Tendsto (fun s : ℂ => s * exp (-s)) (𝓝[≠] 0) (𝓝 0) := by
    have := hc.tendsto 0
    rw [zero_mul] at this
    exact this.mono_left nhdsWithin_le_nhds
  refine h.congr' ?_
  filter_upwards [self_mem_nhdsWithin] with s hs0
  have hs0 : s ≠ 0 := hs0
  field_simp

/-- `sⁿ exp (-s) / s²` vanishes along a ray into the right half plane. -/
theorem tendsto_ray {c : ℂ} (hc : 0 < c.re) (n : ℕ) :
    Tendsto (fun t : ℝ => ((t : ℂ) * c) ^ n * exp (-((t : ℂ) * c))) atTop (𝓝 0) := by
  rw [tendsto_zero_iff_norm_tendsto_zero]
  have h := (Real.tendsto_pow_mul_exp_neg_atTop_nhds_zero n).comp (tendsto_id.atTop_mul_const hc)
  have h2 := h.const_mul ((‖c‖ / c.re) ^ n)
  rw [mul_zero] at h2
  refine h2.congr' ?_
  filter_upwards [eventually_ge_atTop 0] with t ht
  simp only [Function.comp, id]
  rw [norm_mul, norm_pow, norm_mul, Complex.norm_of_nonneg ht, Complex.norm_exp]
  simp only [neg_re, mul_re, ofReal_re, ofReal_im, zero_mul, sub_zero]
  rw [div_pow, mul_pow, mul_pow]
  field_simp

theorem tendsto_inv_ray {c : ℂ} (hc : 0 < c.re) : Tendsto (fun t : ℝ => 1 / ((t : ℂ) * c) ^ 2) atTop (𝓝 0) := by
  rw [tendsto_zero_iff_norm_tendsto_zero]
  have hn : 0 < ‖c‖ := norm_pos_iff.2 (by rintro rfl; simp at hc)
  have h : Tendsto (fun t : ℝ => 1 / (t * ‖c‖) ^ 2) atTop (𝓝 0) :=
    tendsto_const_nhds.div_atTop ((tendsto_pow_atTop (by norm_num)).comp (tendsto_id.atTop_mul_const hn))
  refine h.congr' ?_
  filter_upwards [eventually_ge_atTop 0] with t ht
  rw [norm_div, norm_pow, norm_mul, Complex.norm_of_nonneg ht, norm_one]

/-- Square roots along a ray. -/
theorem csqrt_ray {t : ℝ} (ht : 0 < t) {z : ℂ} (hz : z.im ≠ 0) : Complex.sqrt ((t : ℂ) * z) = (Real.sqrt t : ℂ) * Complex.sqrt z := by
  refine sq_root_unique ?_ (csqrt_re_pos ?_) ?_
  · rw [csqrt_sq, mul_pow, csqrt_sq]
    congr 1
    norm_cast
    rw [Real.sq_sqrt ht.le]
  · simp [ht.ne', hz]
  · simp only [mul_re, ofReal_re, ofReal_im, zero_mul, sub_zero]
    have := csqrt_re_nonneg z
    positivity

end Verif
