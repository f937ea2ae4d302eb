import Verif.Lemmas.OkadaField
import Mathlib.Analysis.Calculus.ParametricIntervalIntegral
import Mathlib.MeasureTheory.Integral.DominatedConvergence
import Mathlib.Topology.Order.ProjIcc

/-! # The four corner terms at a station on the line of the surface trace, as a limit from the side (helper lemmas) -/

namespace Verif.Okada

open Real Filter Topology

namespace Corner

/-- The strike-slip terms without the arc tangent. -/
noncomputable def strikeRest (k : Corner) (s c m : ℝ) : V3 ℝ :=
  ⟨-k.xi * (k.q * k.y11) - m * k.ai1 s c * s, -k.q / k.r + m * k.y s c / k.rd s c * s, k.q * (k.q * k.y11) - m * k.ai2 s c * s⟩

/-- The dip-slip terms without the arc tangent. -/
noncomputable def dipRest (k : Corner) (s c m : ℝ) : V3 ℝ :=
  ⟨-k.q / k.r + m * k.ai3 s c * (s * c), -k.et * (k.q * k.x11) - m * k.xi / k.rd s c * (s * c), k.q * (k.q * k.x11) + m * k.ai4 s c * (s * c)⟩

noncomputable def fieldRest (k : Corner) (s c m b1 b2 : ℝ) : V3 ℝ :=
  turned ((b1 / (2 * π)) • k.strikeRest s c m + (b2 / (2 * π)) • k.dipRest s c m) s c

theorem field_split (k : Corner) (s c m b1 b2 : ℝ) :
    k.field s c m b1 b2 = k.fieldRest s c m b1 b2 - k.tt • turned ⟨b1 / (2 * π), b2 / (2 * π), 0⟩ s c := by
  ext <;> simp [field, fieldRest, turned, strikeSlip, dipSlip, strikeRest, dipRest] <;> ring

section

variable {x w s c m : ℝ}

theorem d_trace (Y : ℝ) : (⟨x, Y * c - w, Y * s⟩ : Corner).d s c = -(w * s) := by simp only [d]; ring

theorem r_trace_pos (hw : w * s < 0) (_hsc : s ^ 2 + c ^ 2 = 1) (Y : ℝ) : 0 < (⟨x, Y * c - w, Y * s⟩ : Corner).r := by
  refine lt_of_le_of_ne (sqrt_nonneg _) fun h => ?_
  have h2 := r_sq (⟨x, Y * c - w, Y * s⟩ : Corner)
  rw [← h] at h2
  simp only at h2
  have h3 : Y * c - w = 0 := by nlinarith [sq_nonneg x, sq_nonneg (Y * c - w), sq_nonneg (Y * s)]
  have h4 : Y * s = 0 := by nlinarith [sq_nonneg x, sq_nonneg (Y * c - w), sq_nonneg (Y * s)]
  have : w * s = 0 := by linear_combination c * h4 - s * h3
  linarith

theorem rd_trace_pos (hw : w * s < 0) (hsc : s ^ 2 + c ^ 2 = 1) (Y : ℝ) : 0 < (⟨x, Y * c - w, Y * s⟩ : Corner).rd s c := by
  rw [rd, d_trace]
  have := r_trace_pos (x := x) hw hsc Y
  linarith

theorem continuous_r_trace : Continuous fun Y : ℝ => (⟨x, Y * c - w, Y * s⟩ : Corner).r := by
  simp only [r]
  fun_prop

theorem continuous_rd_trace : Continuous fun Y : ℝ => (⟨x, Y * c - w, Y * s⟩ : Corner).rd s c := by
  simp only [rd, d_trace]
  have := continuous_r_trace (x := x) (w := w) (s := s) (c := c)
  fun_prop

theorem et_trace_ne (hw : w ≠ 0) : ∀ᶠ Y : ℝ in 𝓝 0, Y * c - w ≠ 0 := by
  have h : ContinuousAt (fun Y : ℝ => Y * c - w) 0 := by fun_prop
  exact h.eventually_ne (by simpa using hw)

theorem et_trace_pos (hw : w < 0) : ∀ᶠ Y : ℝ in 𝓝 0, 0 < Y * c - w := by
  have h : ContinuousAt (fun Y : ℝ => Y * c - w) 0 := by fun_prop
  exact h.eventually_const_lt (by simpa using hw)

theorem abs_et_le (k : Corner) : |k.et| ≤ k.r := by
  refine abs_le_of_sq_le_sq ?_ (sqrt_nonneg _)
  change k.et ^ 2 ≤ k.r ^ 2
  rw [r_sq]
  nlinarith [sq_nonneg k.xi, sq_nonneg k.q]

theorem abs_xi_le (k : Corner) : |k.xi| ≤ k.r := by
  refine abs_le_of_sq_le_sq ?_ (sqrt_nonneg _)
  change k.xi ^ 2 ≤ k.r ^ 2
  rw [r_sq]
  nlinarith [sq_nonneg k.et, sq_nonneg k.q]

theorem ret_trace_pos (_hw : w ≠ 0) (hx : x ≠ 0 ∨ w < 0) : 0 < (⟨x, 0 * c - w, 0 * s⟩ : Corner).ret := by
  rw [ret]
  simp only
  rcases hx with hx | hx
  · have h2 := r_sq (⟨x, 0 * c - w, 0 * s⟩ : Corner)
    have h : |0 * c - w| < (⟨x, 0 * c - w, 0 * s⟩ : Corner).r := by
      refine abs_lt_of_sq_lt_sq ?_ (sqrt_nonneg _)
      change _ < (⟨x, 0 * c - w, 0 * s⟩ : Corner).r ^ 2
      rw [h2]
      simp only
      nlinarith [sq_pos_of_ne_zero hx]
    have := (abs_lt.1 h).1
    linarith
  · have : 0 ≤ (⟨x, 0 * c - w, 0 * s⟩ : Corner).r := sqrt_nonneg _
    linarith

theorem rxi_trace_pos (hw : w ≠ 0) : 0 < (⟨x, 0 * c - w, 0 * s⟩ : Corner).r + x := by
  have h2 := r_sq (⟨x, 0 * c - w, 0 * s⟩ : Corner)
  have h : |x| < (⟨x, 0 * c - w, 0 * s⟩ : Corner).r := by
    refine abs_lt_of_sq_lt_sq ?_ (sqrt_nonneg _)
    change _ < (⟨x, 0 * c - w, 0 * s⟩ : Corner).r ^ 2
    rw [h2]
    simp only
    nlinarith [sq_pos_of_ne_zero hw]
  have := (abs_lt.1 h).1
  linarith

theorem continuousAt_ale (hw : w ≠ 0) (hx : x ≠ 0 ∨ w < 0) : ContinuousAt (fun Y : ℝ => (⟨x, Y * c - w, Y * s⟩ : Corner).ale) 0 := by
  have hr := (continuous_r_trace (x := x) (w := w) (s := s) (c := c)).continuousAt (x := 0)
  have h : ContinuousAt (fun Y : ℝ => log (⟨x, Y * c - w, Y * s⟩ : Corner).ret) 0 := by
    refine ContinuousAt.log ?_ (ret_trace_pos hw hx).ne'
    simp only [ret]
    fun_prop
  refine h.congr ?_
  have key : ∀ᶠ Y : ℝ in 𝓝 0, ¬ (Y * c - w < 0 ∧ Y * s = 0 ∧ x = 0) := by
    rcases hx with hx | hx
    · exact Eventually.of_forall fun Y h => hx h.2.2
    · filter_upwards [et_trace_pos (c := c) hx] with Y hY h using by linarith [h.1]
  filter_upwards [key] with Y hY
  rw [ale, if_neg hY]

theorem continuousAt_y11 (hw : w ≠ 0) (hx : x ≠ 0 ∨ w < 0) (hws : w * s < 0) (hsc : s ^ 2 + c ^ 2 = 1) :
    ContinuousAt (fun Y : ℝ => (⟨x, Y * c - w, Y * s⟩ : Corner).y11) 0 := by
  have hr := (continuous_r_trace (x := x) (w := w) (s := s) (c := c)).continuousAt (x := 0)
  have h : ContinuousAt (fun Y : ℝ => 1 / ((⟨x, Y * c - w, Y * s⟩ : Corner).r * (⟨x, Y * c - w, Y * s⟩ : Corner).ret)) 0 := by
    refine ContinuousAt.div continuousAt_const ?_ (mul_pos (r_trace_pos hws hsc 0) (ret_trace_pos hw hx)).ne'
    simp only [ret]
    fun_prop
  refine h.congr ?_
  have key : ∀ᶠ Y : ℝ in 𝓝 0, ¬ (Y * c - w < 0 ∧ Y * s = 0 ∧ x = 0) := by
    rcases hx with hx | hx
    · exact Eventually.of_forall fun Y h => hx h.2.2
    · filter_upwards [et_trace_pos (c := c) hx] with Y hY h using by linarith [h.1]
  filter_upwards [key] with Y hY
  rw [y11, if_neg hY]

theorem continuousAt_x11 (hw : w ≠ 0) (hws : w * s < 0) (hsc : s ^ 2 + c ^ 2 = 1) :
    ContinuousAt (fun Y : ℝ => (⟨x, Y * c - w, Y * s⟩ : Corner).x11) 0 := by
  have hr := (continuous_r_trace (x := x) (w := w) (s := s) (c := c)).continuousAt (x := 0)
  have h : ContinuousAt (fun Y : ℝ => 1 / ((⟨x, Y * c - w, Y * s⟩ : Corner).r * ((⟨x, Y * c - w, Y * s⟩ : Corner).r + x))) 0 := by
    refine ContinuousAt.div continuousAt_const ?_ (mul_pos (r_trace_pos hws hsc 0) (rxi_trace_pos hw)).ne'
    fun_prop
  refine h.congr ?_
  filter_upwards [et_trace_ne (c := c) hw] with Y hY
  rw [x11, if_neg fun h => hY h.2.2]

theorem continuous_inv_r_trace (hws : w * s < 0) (hsc : s ^ 2 + c ^ 2 = 1) : Continuous fun Y : ℝ => ((⟨x, Y * c - w, Y * s⟩ : Corner).r)⁻¹ :=
  continuous_r_trace.inv₀ fun Y => (r_trace_pos hws hsc Y).ne'

theorem continuous_inv_rd_trace (hws : w * s < 0) (hsc : s ^ 2 + c ^ 2 = 1) :
    Continuous fun Y : ℝ => ((⟨x, Y * c - w, Y * s⟩ : Corner).rd s c)⁻¹ :=
  continuous_rd_trace.inv₀ fun Y => (rd_trace_pos hws hsc Y).ne'

theorem continuous_log_rd_trace (hws : w * s < 0) (hsc : s ^ 2 + c ^ 2 = 1) :
    Continuous fun Y : ℝ => log ((⟨x, Y * c - w, Y * s⟩ : Corner).rd s c) :=
  continuous_rd_trace.log fun Y => (rd_trace_pos hws hsc Y).ne'

theorem continuousAt_ai4 (hws : w * s < 0) (hsc : s ^ 2 + c ^ 2 = 1) :
    ContinuousAt (fun Y : ℝ => (⟨x, Y * c - w, Y * s⟩ : Corner).ai4 s c) 0 := by
  have hr := (continuous_r_trace (x := x) (w := w) (s := s) (c := c)).continuousAt (x := 0)
  have hi := (continuous_inv_rd_trace (x := x) hws hsc).continuousAt (x := 0)
  by_cases hc : c = 0
  · simp only [ai4, hc, ne_eq, not_true_eq_false, if_false, y, div_eq_mul_inv, mul_inv]
    rw [hc] at hi
    fun_prop
  · simp only [ai4, ne_eq, hc, not_false_eq_true, if_true]
    by_cases hx : x = 0
    · simp only [hx, if_true]
      exact continuousAt_const
    · simp only [hx, if_false, div_eq_mul_inv _ (rd _ _ _)]
      have hpos : (⟨x, 0 * c - w, 0 * s⟩ : Corner).r + √(x * x + 0 * s * (0 * s)) ≠ 0 := by
        have := r_trace_pos (x := x) hws hsc 0
        have := sqrt_nonneg (x * x + 0 * s * (0 * s))
        linarith
      have hne : x * ((⟨x, 0 * c - w, 0 * s⟩ : Corner).r + √(x * x + 0 * s * (0 * s))) * c ≠ 0 := mul_ne_zero (mul_ne_zero hx hpos) hc
      have ha : ContinuousAt (fun Y : ℝ => ((Y * c - w) * (√(x * x + Y * s * (Y * s)) + Y * s * c) +
          √(x * x + Y * s * (Y * s)) * ((⟨x, Y * c - w, Y * s⟩ : Corner).r + √(x * x + Y * s * (Y * s))) * s) /
          (x * ((⟨x, Y * c - w, Y * s⟩ : Corner).r + √(x * x + Y * s * (Y * s))) * c)) 0 :=
        ContinuousAt.div (by fun_prop) (by fun_prop) hne
      have hb := continuous_arctan.continuousAt.comp ha
      simp only [Function.comp_def] at hb
      fun_prop

theorem continuousAt_ai3 (hw : w ≠ 0) (hx : x ≠ 0 ∨ w < 0) (hws : w * s < 0) (hsc : s ^ 2 + c ^ 2 = 1) :
    ContinuousAt (fun Y : ℝ => (⟨x, Y * c - w, Y * s⟩ : Corner).ai3 s c) 0 := by
  have hi := (continuous_inv_rd_trace (x := x) hws hsc).continuousAt (x := 0)
  have hl := (continuous_log_rd_trace (x := x) hws hsc).continuousAt (x := 0)
  have ha := continuousAt_ale (c := c) (s := s) hw hx
  by_cases hc : c = 0
  · subst hc
    simp only [ai3, ne_eq, not_true_eq_false, if_false, y, div_eq_mul_inv _ (rd _ _ _), div_eq_mul_inv _ (rd _ _ _ * _), mul_inv]
    fun_prop
  · simp only [ai3, ne_eq, hc, not_false_eq_true, if_true, y, div_eq_mul_inv _ (rd _ _ _)]
    fun_prop

theorem continuousAt_strikeRest (hw : w ≠ 0) (hx : x ≠ 0 ∨ w < 0) (hws : w * s < 0) (hsc : s ^ 2 + c ^ 2 = 1) :
    ContinuousAt (fun Y : ℝ => ((⟨x, Y * c - w, Y * s⟩ : Corner).strikeRest s c m).x) 0 ∧
    ContinuousAt (fun Y : ℝ => ((⟨x, Y * c - w, Y * s⟩ : Corner).strikeRest s c m).y) 0 ∧
    ContinuousAt (fun Y : ℝ => ((⟨x, Y * c - w, Y * s⟩ : Corner).strikeRest s c m).z) 0 := by
  have hi := (continuous_inv_rd_trace (x := x) hws hsc).continuousAt (x := 0)
  have hl := (continuous_log_rd_trace (x := x) hws hsc).continuousAt (x := 0)
  have hr := (continuous_inv_r_trace (x := x) hws hsc).continuousAt (x := 0)
  have hy := continuousAt_y11 hw hx hws hsc
  have h4 := continuousAt_ai4 (x := x) hws hsc
  have h3 := continuousAt_ai3 hw hx hws hsc
  simp only [strikeRest, ai1, ai2, y, div_eq_mul_inv _ (rd _ _ _), div_eq_mul_inv _ (r _)]
  refine ⟨?_, ?_, ?_⟩ <;> fun_prop

theorem continuousAt_dipRest (hw : w ≠ 0) (hx : x ≠ 0 ∨ w < 0) (hws : w * s < 0) (hsc : s ^ 2 + c ^ 2 = 1) :
    ContinuousAt (fun Y : ℝ => ((⟨x, Y * c - w, Y * s⟩ : Corner).dipRest s c m).x) 0 ∧
    ContinuousAt (fun Y : ℝ => ((⟨x, Y * c - w, Y * s⟩ : Corner).dipRest s c m).y) 0 ∧
    ContinuousAt (fun Y : ℝ => ((⟨x, Y * c - w, Y * s⟩ : Corner).dipRest s c m).z) 0 := by
  have hi := (continuous_inv_rd_trace (x := x) hws hsc).continuousAt (x := 0)
  have hr := (continuous_inv_r_trace (x := x) hws hsc).continuousAt (x := 0)
  have hy := continuousAt_x11 (x := x) hw hws hsc
  have h4 := continuousAt_ai4 (x := x) hws hsc
  have h3 := continuousAt_ai3 hw hx hws hsc
  simp only [dipRest, div_eq_mul_inv _ (rd _ _ _), div_eq_mul_inv _ (r _)]
  refine ⟨?_, ?_, ?_⟩ <;> fun_prop

theorem continuousAt_fieldRest (v : V3 ℝ) (b1 b2 : ℝ) (hw : w ≠ 0) (hx : x ≠ 0 ∨ w < 0) (hws : w * s < 0) (hsc : s ^ 2 + c ^ 2 = 1) :
    ContinuousAt (fun Y : ℝ => v.dot ((⟨x, Y * c - w, Y * s⟩ : Corner).fieldRest s c m b1 b2)) 0 := by
  obtain ⟨a1, a2, a3⟩ := continuousAt_strikeRest (m := m) hw hx hws hsc
  obtain ⟨d1, d2, d3⟩ := continuousAt_dipRest (m := m) hw hx hws hsc
  simp only [fieldRest, turned, V3.dot, V3.add_x, V3.add_y, V3.add_z, V3.smul_x, V3.smul_y, V3.smul_z, smul_eq_mul]
  fun_prop

end

/-! ## The arc tangents -/

theorem arctan_sub_arctan {a b : ℝ} (h : 0 < a * b) : arctan a - arctan b = arctan b⁻¹ - arctan a⁻¹ := by
  rcases pos_and_pos_or_neg_and_neg_of_mul_pos h with ⟨ha, hb⟩ | ⟨ha, hb⟩
  · rw [arctan_inv_of_pos ha, arctan_inv_of_pos hb]; ring
  · rw [arctan_inv_of_neg ha, arctan_inv_of_neg hb]; ring

/-- The arc tangents of two corners at the same end of the fault cancel in the limit. -/
theorem tt_tendsto {x w w' s c : ℝ} (hs : s ≠ 0) (hw : w * s < 0) (hw' : w' * s < 0) (hsc : s ^ 2 + c ^ 2 = 1) :
    Tendsto (fun Y : ℝ => (⟨x, Y * c - w, Y * s⟩ : Corner).tt - (⟨x, Y * c - w', Y * s⟩ : Corner).tt) (𝓝[≠] 0) (𝓝 0) := by
  by_cases hx : x = 0
  · refine tendsto_const_nhds.congr fun Y => ?_
    simp only [tt, hx, zero_mul, zero_div, arctan_zero, ite_self, sub_self]
  have hw0 : w ≠ 0 := by rintro rfl; simp at hw
  have hw0' : w' ≠ 0 := by rintro rfl; simp at hw'
  have hr := continuous_r_trace (x := x) (w := w) (s := s) (c := c)
  have hr' := continuous_r_trace (x := x) (w := w') (s := s) (c := c)
  have hlim : Tendsto (fun Y : ℝ => arctan (Y * s * (⟨x, Y * c - w', Y * s⟩ : Corner).r / (x * (Y * c - w'))) -
      arctan (Y * s * (⟨x, Y * c - w, Y * s⟩ : Corner).r / (x * (Y * c - w)))) (𝓝 0) (𝓝 0) := by
    have h1 : ContinuousAt (fun Y : ℝ => Y * s * (⟨x, Y * c - w', Y * s⟩ : Corner).r / (x * (Y * c - w'))) 0 :=
      ContinuousAt.div (by fun_prop) (by fun_prop) (by simpa [hx] using hw0')
    have h2 : ContinuousAt (fun Y : ℝ => Y * s * (⟨x, Y * c - w, Y * s⟩ : Corner).r / (x * (Y * c - w))) 0 :=
      ContinuousAt.div (by fun_prop) (by fun_prop) (by simpa [hx] using hw0)
    have h := ((continuous_arctan.continuousAt.comp h1).tendsto).sub ((continuous_arctan.continuousAt.comp h2).tendsto)
    simpa [Function.comp_def] using h
  refine (hlim.mono_left nhdsWithin_le_nhds).congr' ?_
  have hww : 0 < w * w' := by
    have : 0 < (w * w') * s ^ 2 := by nlinarith
    have h2 := sq_pos_of_ne_zero hs
    by_contra hh
    nlinarith
  have hsame : ∀ᶠ Y : ℝ in 𝓝 0, 0 < (Y * c - w) * (Y * c - w') := by
    have h : ContinuousAt (fun Y : ℝ => (Y * c - w) * (Y * c - w')) 0 := by fun_prop
    exact h.eventually_const_lt (by simpa using hww)
  filter_upwards [nhdsWithin_le_nhds hsame, self_mem_nhdsWithin] with Y hY hY0
  have hq : Y * s ≠ 0 := mul_ne_zero hY0 hs
  rw [tt, tt, if_neg hq, if_neg hq]
  have hp := r_trace_pos (x := x) hw hsc Y
  have hp' := r_trace_pos (x := x) hw' hsc Y
  simp only
  generalize (⟨x, Y * c - w, Y * s⟩ : Corner).r = R at *
  generalize (⟨x, Y * c - w', Y * s⟩ : Corner).r = R' at *
  have hpos : 0 < x * (Y * c - w) / (Y * s * R) * (x * (Y * c - w') / (Y * s * R')) := by
    have e : x * (Y * c - w) / (Y * s * R) * (x * (Y * c - w') / (Y * s * R')) =
        x ^ 2 * ((Y * c - w) * (Y * c - w')) / ((Y * s) ^ 2 * (R * R')) := by
      rw [div_mul_div_comm]; congr 1 <;> ring
    rw [e]
    have := sq_pos_of_ne_zero hx
    have := sq_pos_of_ne_zero hq
    positivity
  rw [arctan_sub_arctan hpos, inv_div, inv_div]

/-! ## The integral over the fault as a function of the station -/

/-- Volterra's integrand at a corner that moves with the station. -/
theorem continuous_integral {v : V3 ℝ} {s c m b1 b2 a1 a2 w1 w2 X : ℝ} (hsc : s ^ 2 + c ^ 2 = 1) (hs : s ≠ 0) (hw1 : w1 * s < 0) (hw2 : w2 * s < 0) :
    Continuous fun Y : ℝ => ∫ w in w1..w2, ∫ a in a1..a2, v.dot ((⟨X - a, Y * c - w, Y * s⟩ : Corner).fieldMixed s c m b1 b2) := by
  have hle : min w1 w2 ≤ max w1 w2 := min_le_max
  set φ : ℝ → ℝ := fun w => (Set.projIcc (min w1 w2) (max w1 w2) hle w : ℝ) with hφ
  have cφ : Continuous φ := continuous_subtype_val.comp continuous_projIcc
  have hneg : ∀ w, φ w * s < 0 := by
    intro w
    have h := (Set.projIcc (min w1 w2) (max w1 w2) hle w).2
    change φ w ∈ Set.Icc _ _ at h
    generalize φ w = t at h
    obtain ⟨h1, h2⟩ := h
    rcases lt_or_gt_of_ne hs with hs | hs
    · have g1 : 0 < w1 := by nlinarith
      have g2 : 0 < w2 := by nlinarith
      have : 0 < t := lt_of_lt_of_le (lt_min g1 g2) h1
      nlinarith
    · have g1 : w1 < 0 := by nlinarith
      have g2 : w2 < 0 := by nlinarith
      have : t < 0 := lt_of_le_of_lt h2 (max_lt g1 g2)
      nlinarith
  have hc : Continuous fun Y : ℝ => ∫ w in w1..w2, ∫ a in a1..a2, v.dot ((⟨X - a, Y * c - φ w, Y * s⟩ : Corner).fieldMixed s c m b1 b2) := by
    have cr : Continuous fun p : (ℝ × ℝ) × ℝ => (⟨X - p.2, p.1.1 * c - φ p.1.2, p.1.1 * s⟩ : Corner).r := by
      simp only [r]; fun_prop
    have cu : Continuous fun p : (ℝ × ℝ) × ℝ => ((⟨X - p.2, p.1.1 * c - φ p.1.2, p.1.1 * s⟩ : Corner).r)⁻¹ :=
      cr.inv₀ fun p => (r_trace_pos (hneg _) hsc _).ne'
    have cw : Continuous fun p : (ℝ × ℝ) × ℝ => ((⟨X - p.2, p.1.1 * c - φ p.1.2, p.1.1 * s⟩ : Corner).rd s c)⁻¹ := by
      refine Continuous.inv₀ ?_ fun p => (rd_trace_pos (hneg _) hsc _).ne'
      simp only [rd, d]
      fun_prop
    have cM : Continuous fun p : (ℝ × ℝ) × ℝ => v.dot ((⟨X - p.2, p.1.1 * c - φ p.1.2, p.1.1 * s⟩ : Corner).fieldMixed s c m b1 b2) := by
      simp only [fieldMixed, turned, V3.dot, V3.add_x, V3.add_y, V3.add_z, V3.smul_x, V3.smul_y, V3.smul_z, smul_eq_mul, strikeMixed, dipMixed, y]
      fun_prop
    have h1 : Continuous fun p : ℝ × ℝ => ∫ a in a1..a2, v.dot ((⟨X - a, p.1 * c - φ p.2, p.1 * s⟩ : Corner).fieldMixed s c m b1 b2) :=
      intervalIntegral.continuous_parametric_intervalIntegral_of_continuous' (μ := MeasureTheory.volume)
        (f := fun (p : ℝ × ℝ) a => v.dot ((⟨X - a, p.1 * c - φ p.2, p.1 * s⟩ : Corner).fieldMixed s c m b1 b2)) cM a1 a2
    exact intervalIntegral.continuous_parametric_intervalIntegral_of_continuous' (μ := MeasureTheory.volume)
      (f := fun (Y : ℝ) w => ∫ a in a1..a2, v.dot ((⟨X - a, Y * c - φ w, Y * s⟩ : Corner).fieldMixed s c m b1 b2)) h1 w1 w2
  refine hc.congr fun Y => ?_
  refine intervalIntegral.integral_congr fun w hw => ?_
  have : φ w = w := by
    simp only [hφ]
    rw [Set.projIcc_of_mem hle (by rw [Set.uIcc] at hw; exact hw)]
  simp only [this]

/-- The four corner terms for a station on the line of the trace, provided that no corner is seen along the fault. -/
theorem four_corners_on_trace (v : V3 ℝ) {s c lam mu b1 b2 a1 a2 w1 w2 X : ℝ} (hsc : s ^ 2 + c ^ 2 = 1) (hmu : mu ≠ 0)
    (hw1 : w1 * s < 0) (hw2 : w2 * s < 0) (hX : 0 < s ∨ X ≠ a1 ∧ X ≠ a2) :
    let F := fun a w => (⟨X - a, 0 * c - w, 0 * s⟩ : Corner).field s c (mu / (lam + mu)) b1 b2
    v.dot (F a1 w1 - F a2 w1 - F a1 w2 + F a2 w2) =
      ∫ w in w1..w2, ∫ a in a1..a2, v.dot (Elastic.dislocation lam mu ⟨b1, b2 * c, b2 * s⟩ ⟨0, -s, c⟩
        ((⟨a, w * c, w * s⟩ : V3 ℝ) - ⟨X, 0, 0⟩)) := by
  intro F
  have hs : s ≠ 0 := by rintro rfl; simp at hw1
  have hm1 : w1 ≠ 0 := by rintro rfl; simp at hw1
  have hm2 : w2 ≠ 0 := by rintro rfl; simp at hw2
  set G : ℝ → ℝ → ℝ → V3 ℝ := fun Y a w => (⟨X - a, Y * c - w, Y * s⟩ : Corner).field s c (mu / (lam + mu)) b1 b2 with hG
  set R : ℝ → ℝ → ℝ → V3 ℝ := fun Y a w => (⟨X - a, Y * c - w, Y * s⟩ : Corner).fieldRest s c (mu / (lam + mu)) b1 b2 with hR
  have hcond : ∀ a, a = a1 ∨ a = a2 → ∀ w, w = w1 ∨ w = w2 → X - a ≠ 0 ∨ w < 0 := by
    intro a ha w hw
    rcases hX with h | h
    · right
      rcases hw with rfl | rfl <;> nlinarith
    · left
      rcases ha with rfl | rfl
      · exact sub_ne_zero.2 h.1
      · exact sub_ne_zero.2 h.2
  have cR := fun a ha w (hw : w = w1 ∨ w = w2) => continuousAt_fieldRest (m := mu / (lam + mu)) v b1 b2
    (by rcases hw with rfl | rfl <;> assumption) (hcond a ha w hw) (by rcases hw with rfl | rfl <;> assumption) hsc
  have hrest : ContinuousAt (fun Y => v.dot (R Y a1 w1 - R Y a2 w1 - R Y a1 w2 + R Y a2 w2)) 0 := by
    have h := (((cR a1 (.inl rfl) w1 (.inl rfl)).sub (cR a2 (.inr rfl) w1 (.inl rfl))).sub (cR a1 (.inl rfl) w2 (.inr rfl))).add
      (cR a2 (.inr rfl) w2 (.inr rfl))
    refine h.congr (Eventually.of_forall fun Y => ?_)
    simp only [Pi.add_apply, Pi.sub_apply, V3.dot, V3.add_x, V3.add_y, V3.add_z, V3.sub_x, V3.sub_y, V3.sub_z, hR]
    ring
  set T : V3 ℝ := turned ⟨b1 / (2 * π), b2 / (2 * π), 0⟩ s c with hT
  have hsplit : ∀ Y, v.dot (G Y a1 w1 - G Y a2 w1 - G Y a1 w2 + G Y a2 w2) = v.dot (R Y a1 w1 - R Y a2 w1 - R Y a1 w2 + R Y a2 w2) -
      (((⟨X - a1, Y * c - w1, Y * s⟩ : Corner).tt - (⟨X - a1, Y * c - w2, Y * s⟩ : Corner).tt) -
        ((⟨X - a2, Y * c - w1, Y * s⟩ : Corner).tt - (⟨X - a2, Y * c - w2, Y * s⟩ : Corner).tt)) * v.dot T := by
    intro Y
    simp only [hG, hR, field_split, ← hT, V3.dot, V3.add_x, V3.add_y, V3.add_z, V3.sub_x, V3.sub_y, V3.sub_z, V3.smul_x, V3.smul_y,
      V3.smul_z, smul_eq_mul]
    ring
  have h0 : v.dot (F a1 w1 - F a2 w1 - F a1 w2 + F a2 w2) = v.dot (R 0 a1 w1 - R 0 a2 w1 - R 0 a1 w2 + R 0 a2 w2) := by
    have := hsplit 0
    have e : ∀ x e : ℝ, (⟨x, e, 0 * s⟩ : Corner).tt = 0 := fun x e => by simp [tt]
    rw [e, e, e, e, sub_self, zero_mul, sub_zero] at this
    exact this
  have lim1 : Tendsto (fun Y => v.dot (G Y a1 w1 - G Y a2 w1 - G Y a1 w2 + G Y a2 w2)) (𝓝[≠] 0)
      (𝓝 (v.dot (F a1 w1 - F a2 w1 - F a1 w2 + F a2 w2))) := by
    rw [h0]
    have ht := ((tt_tendsto (x := X - a1) hs hw1 hw2 hsc).sub (tt_tendsto (x := X - a2) hs hw1 hw2 hsc)).mul_const (v.dot T)
    have h := (hrest.tendsto.mono_left (nhdsWithin_le_nhds (s := {0}ᶜ))).sub ht
    simp only [sub_self, zero_mul, sub_zero] at h
    exact h.congr fun Y => (hsplit Y).symm
  set I : ℝ → ℝ := fun Y => ∫ w in w1..w2, ∫ a in a1..a2, v.dot ((⟨X - a, Y * c - w, Y * s⟩ : Corner).fieldMixed s c (mu / (lam + mu)) b1 b2)
    with hI
  have hint : ∀ Y, (∫ w in w1..w2, ∫ a in a1..a2, v.dot (Elastic.dislocation lam mu ⟨b1, b2 * c, b2 * s⟩ ⟨0, -s, c⟩
        ((⟨a, w * c, w * s⟩ : V3 ℝ) - ⟨X, Y, 0⟩))) = I Y := by
    intro Y
    refine intervalIntegral.integral_congr fun w hw => ?_
    have hneg : w * s < 0 := by
      rw [Set.mem_uIcc] at hw
      rcases lt_or_gt_of_ne hs with h | h
      · have g1 : 0 < w1 := by nlinarith
        have g2 : 0 < w2 := by nlinarith
        rcases hw with t | t <;> nlinarith [t.1, t.2]
      · have g1 : w1 < 0 := by nlinarith
        have g2 : w2 < 0 := by nlinarith
        rcases hw with t | t <;> nlinarith [t.1, t.2]
    refine intervalIntegral.integral_congr fun a _ => ?_
    rw [fieldMixed_eq _ (r_trace_pos hneg hsc Y) hsc (rd_trace_pos hneg hsc Y) hmu]
    congr 2
    ext
    · simp [position]
    · simp only [position, y, V3.sub_y]; linear_combination Y * hsc
    · simp only [position, d, V3.sub_z]; ring
  have lim2 : Tendsto I (𝓝[≠] 0) (𝓝 (I 0)) := (continuous_integral hsc hs hw1 hw2).continuousAt.tendsto.mono_left nhdsWithin_le_nhds
  rw [hint 0]
  refine tendsto_nhds_unique lim1 (lim2.congr' ?_)
  filter_upwards [self_mem_nhdsWithin] with Y hY
  rw [← hint Y]
  exact (four_corners_along v hsc hmu hY hs hw1.le hw2.le).symm

/-- The station is off the line of the trace; or it lies on it, the fault is strictly below the surface, and the station is not level with
an end of a fault that is seen along its dip. -/
def OffOrClear (s a1 a2 w1 w2 X Y : ℝ) : Prop := Y ≠ 0 ∨ w1 * s < 0 ∧ w2 * s < 0 ∧ (0 < s ∨ X ≠ a1 ∧ X ≠ a2)

/-- The four corner terms are the integral over the fault, component by component in any direction. -/
theorem four_corners_dot (v : V3 ℝ) {s c lam mu b1 b2 a1 a2 w1 w2 X Y : ℝ} (hsc : s ^ 2 + c ^ 2 = 1) (hmu : mu ≠ 0)
    (hY : OffOrClear s a1 a2 w1 w2 X Y) (hs : s ≠ 0) (hw1 : w1 * s ≤ 0) (hw2 : w2 * s ≤ 0) :
    let F := fun a w => (⟨X - a, Y * c - w, Y * s⟩ : Corner).field s c (mu / (lam + mu)) b1 b2
    v.dot (F a1 w1 - F a2 w1 - F a1 w2 + F a2 w2) =
      ∫ w in w1..w2, ∫ a in a1..a2, v.dot (Elastic.dislocation lam mu ⟨b1, b2 * c, b2 * s⟩ ⟨0, -s, c⟩
        ((⟨a, w * c, w * s⟩ : V3 ℝ) - ⟨X, Y, 0⟩)) := by
  by_cases h : Y = 0
  · subst h
    obtain ⟨h1, h2, h3⟩ := hY.resolve_left (by simp)
    exact four_corners_on_trace v hsc hmu h1 h2 h3
  · exact four_corners_along v hsc hmu h hs hw1 hw2

/-- The four corner terms are the integral over the fault. -/
theorem four_corners {s c lam mu b1 b2 a1 a2 w1 w2 X Y : ℝ} (hsc : s ^ 2 + c ^ 2 = 1) (hmu : mu ≠ 0)
    (hY : OffOrClear s a1 a2 w1 w2 X Y) (hs : s ≠ 0) (hw1 : w1 * s ≤ 0) (hw2 : w2 * s ≤ 0) :
    let F := fun a w => (⟨X - a, Y * c - w, Y * s⟩ : Corner).field s c (mu / (lam + mu)) b1 b2
    F a1 w1 - F a2 w1 - F a1 w2 + F a2 w2 =
      Elastic.faultDisplacement lam mu ⟨b1, b2 * c, b2 * s⟩ ⟨0, -s, c⟩ (fun a w => ⟨a, w * c, w * s⟩) a1 a2 w1 w2 ⟨X, Y, 0⟩ := by
  intro F
  have h := fun v => four_corners_dot (lam := lam) (b1 := b1) (b2 := b2) (a1 := a1) (a2 := a2) (X := X) v hsc hmu hY hs hw1 hw2
  ext
  · have k := h ⟨1, 0, 0⟩
    simp only [V3.dot, one_mul, zero_mul, add_zero] at k
    exact k
  · have k := h ⟨0, 1, 0⟩
    simp only [V3.dot, one_mul, zero_mul, add_zero, zero_add] at k
    exact k
  · have k := h ⟨0, 0, 1⟩
    simp only [V3.dot, one_mul, zero_mul, add_zero, zero_add] at k
    exact k

end Corner

end Verif.Okada
