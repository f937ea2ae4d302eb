import Verif.Lemmas.HalfspaceLimits
import Verif.Lemmas.FdemHalfspace
import Verif.Lemmas.Reflection

/-! # Fourth order expansions of the halfspace formulas (helper lemmas) -/

namespace Verif

open Complex Filter
open scoped Topology

/-- The remainder of `exp (-s)` after its fourth order, divided by `s⁴`. -/
noncomputable def expRest4 (s : ℂ) : ℂ := (exp (-s) - 1 + s - s ^ 2 / 2 + s ^ 3 / 6 - s ^ 4 / 24) / s ^ 4

theorem exp_neg_eq4 {s : ℂ} (hs : s ≠ 0) : exp (-s) = 1 - s + s ^ 2 / 2 - s ^ 3 / 6 + s ^ 4 / 24 + s ^ 4 * expRest4 s := by
  rw [expRest4]; field_simp; ring

theorem tendsto_expRest4 : Tendsto expRest4 (𝓝[≠] 0) (𝓝 0) := by
  rw [tendsto_zero_iff_norm_tendsto_zero]
  have h0 : Tendsto (fun s : ℂ => ‖s‖) (𝓝[≠] 0) (𝓝 0) := by
    have : Tendsto (fun s : ℂ => ‖s‖) (𝓝 0) (𝓝 ‖(0 : ℂ)‖) := continuous_norm.tendsto 0
    rw [norm_zero] at this
    exact this.mono_left nhdsWithin_le_nhds
  refine squeeze_zero' (Eventually.of_forall fun s => norm_nonneg _) ?_ h0
  have hb : ∀ᶠ s : ℂ in 𝓝[≠] 0, ‖s‖ ≤ 1 := by
    have : ∀ᶠ x : ℝ in 𝓝 0, x ≤ 1 := Iic_mem_nhds one_pos
    exact h0.eventually this
  filter_upwards [hb, self_mem_nhdsWithin] with s hs hs0
  have hs0 : s ≠ 0 := hs0
  have h := Complex.exp_bound (x := -s) (by rwa [norm_neg]) (n := 5) (by norm_num)
  have e : ∑ m ∈ Finset.range 5, (-s) ^ m / (m.factorial : ℂ) = 1 - s + s ^ 2 / 2 - s ^ 3 / 6 + s ^ 4 / 24 := by
    simp [Finset.sum_range_succ, Nat.factorial]
    ring
  rw [e, norm_neg] at h
  have hp : 0 < ‖s‖ := norm_pos_iff.2 hs0
  rw [expRest4, norm_div, norm_pow, div_le_iff₀ (by positivity)]
  calc ‖exp (-s) - 1 + s - s ^ 2 / 2 + s ^ 3 / 6 - s ^ 4 / 24‖ = ‖exp (-s) - (1 - s + s ^ 2 / 2 - s ^ 3 / 6 + s ^ 4 / 24)‖ := by congr 1; ring
    _ ≤ _ := h
    _ ≤ ‖s‖ ^ 5 * 1 := by gcongr; norm_num [Nat.factorial]
    _ = _ := by ring

/-- A polynomial of degree three times `exp (-s)`, less its second order, over `s⁴`. -/
theorem tendsto_small4 (a b c d e g L M : ℂ) (h0 : a = -b) (h1 : c = b) (h2 : L = e + d - c + b / 2) (h3 : g = d - c / 2 + b / 6)
    (h4 : M = -g + d / 2 - c / 6 + b / 24) :
    Tendsto (fun s : ℂ => ((a + e * s ^ 2 + (b + c * s + d * s ^ 2 + g * s ^ 3) * exp (-s)) / s ^ 2 - L) / s ^ 2) (𝓝[≠] 0) (𝓝 M) := by
  have hs : Tendsto (fun s : ℂ => s) (𝓝[≠] 0) (𝓝 0) := tendsto_id.mono_left nhdsWithin_le_nhds
  have h := (((tendsto_const_nhds (x := M)).add (hs.const_mul (g / 2 - d / 6 + c / 24))).add
    (((hs.pow 2).const_mul (d / 24 - g / 6)).add ((hs.pow 3).const_mul (g / 24)))).add
    (((tendsto_const_nhds (x := b)).add ((hs.const_mul c).add (((hs.pow 2).const_mul d).add ((hs.pow 3).const_mul g)))).mul tendsto_expRest4)
  simp only [mul_zero, add_zero, ne_eq, OfNat.ofNat_ne_zero, not_false_eq_true, zero_pow] at h
  refine h.congr' ?_
  filter_upwards [self_mem_nhdsWithin] with s hs0
  have hs0 : s ≠ 0 := hs0
  rw [exp_neg_eq4 hs0, eq_div_iff (pow_ne_zero 2 hs0), eq_sub_iff_add_eq, eq_div_iff (pow_ne_zero 2 hs0)]
  generalize expRest4 s = R
  rw [h4, h3, h2, h1, h0]
  ring

end Verif

namespace Verif.RTE

open Complex

theorem stepOf_smul {w : ℂ} (hw : w ≠ 0) (Y t y : ℂ) : stepOf (w * Y) t (w * y) = w * stepOf Y t y := by
  simp only [stepOf]
  rw [show w * Y * (w * y + w * Y * t) = w * (w * (Y * (y + Y * t))) by ring, show w * Y + w * y * t = w * (Y + y * t) by ring,
    mul_div_mul_left _ _ hw, mul_div_assoc]

theorem csqrt_of_sq {l : ℝ} (hl : 0 < l) : Complex.sqrt ((l ^ 2 : ℝ) : ℂ) = l := by
  have h := csqrt_sq ((l ^ 2 : ℝ) : ℂ)
  have hr := csqrt_re_nonneg ((l ^ 2 : ℝ) : ℂ)
  have : (Complex.sqrt ((l ^ 2 : ℝ) : ℂ) - l) * (Complex.sqrt ((l ^ 2 : ℝ) : ℂ) + l) = 0 := by
    push_cast at h ⊢
    linear_combination h
  rcases mul_eq_zero.1 this with h | h
  · exact sub_eq_zero.1 h
  · have : (Complex.sqrt ((l ^ 2 : ℝ) : ℂ)).re = -l := by
      rw [eq_neg_of_add_eq_zero_left h]; simp
    linarith

end Verif.RTE
