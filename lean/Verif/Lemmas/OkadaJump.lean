import Verif.Lemmas.OkadaTrace

/-! # The corner terms on both sides of the surface trace (helper lemmas) -/

namespace Verif.Okada

open Real Filter Topology

namespace Corner

variable {x w s c m b1 b2 : ℝ}

theorem tendsto_neg_right : Tendsto (fun Y : ℝ => -Y) (𝓝[>] 0) (𝓝 0) := by
  have : ContinuousAt (fun Y : ℝ => -Y) 0 := by fun_prop
  have h := this.tendsto
  rw [neg_zero] at h
  exact h.mono_left nhdsWithin_le_nhds

/-- What is continuous on the trace has no jump there. -/
theorem no_jump {g : ℝ → ℝ} (h : ContinuousAt g 0) : Tendsto (fun Y => g Y - g (-Y)) (𝓝[>] 0) (𝓝 0) := by
  have h1 := h.tendsto.mono_left (nhdsWithin_le_nhds (s := Set.Ioi 0))
  have h2 := h.tendsto.comp tendsto_neg_right
  simpa using h1.sub h2

/-- The arc tangent of a corner below the surface jumps by half a turn. -/
theorem tt_jump (hx : x ≠ 0) (hw : w * s < 0) (hsc : s ^ 2 + c ^ 2 = 1) :
    Tendsto (fun Y : ℝ => (⟨x, Y * c - w, Y * s⟩ : Corner).tt - (⟨x, -Y * c - w, -Y * s⟩ : Corner).tt) (𝓝[>] 0)
      (𝓝 (if 0 < x then π else -π)) := by
  have hw0 : w ≠ 0 := by rintro rfl; simp at hw
  have hs0 : s ≠ 0 := by rintro rfl; simp at hw
  have hr := continuous_r_trace (x := x) (w := w) (s := s) (c := c)
  set g : ℝ → ℝ := fun Y => Y * s * (⟨x, Y * c - w, Y * s⟩ : Corner).r / (x * (Y * c - w)) with hg
  have hgc : ContinuousAt (fun Y => arctan (g Y)) 0 :=
    continuous_arctan.continuousAt.comp (f := g) (x := 0) (ContinuousAt.div (by fun_prop) (by fun_prop) (by simpa [hx] using hw0))
  have hlim := no_jump hgc
  have htt : ∀ Y : ℝ, Y ≠ 0 → (⟨x, Y * c - w, Y * s⟩ : Corner).tt = arctan (g Y)⁻¹ := by
    intro Y hY
    rw [tt, if_neg (mul_ne_zero hY hs0), hg, inv_div]
  have hsame : ∀ᶠ Y : ℝ in 𝓝 0, 0 < (Y * c - w) * -w := by
    have h : ContinuousAt (fun Y : ℝ => (Y * c - w) * -w) 0 := by fun_prop
    refine h.eventually_const_lt ?_
    nlinarith [sq_pos_of_ne_zero hw0]
  have hsign : ∀ Y : ℝ, 0 < (Y * c - w) * -w → ∃ k : ℝ, 0 < k ∧ g Y = Y * x * k := by
    intro Y hY
    have hp := r_trace_pos (x := x) hw hsc Y
    have hne : Y * c - w ≠ 0 := left_ne_zero_of_mul hY.ne'
    refine ⟨(⟨x, Y * c - w, Y * s⟩ : Corner).r * (-(w * s)) * ((Y * c - w) * -w) / (x ^ 2 * (Y * c - w) ^ 2 * w ^ 2), ?_, ?_⟩
    · have h1 : 0 < -(w * s) := by linarith
      have := sq_pos_of_ne_zero hx
      have := sq_pos_of_ne_zero hne
      have := sq_pos_of_ne_zero hw0
      positivity
    · rw [hg]
      field_simp
  have hev : ∀ᶠ Y : ℝ in 𝓝[>] 0, (if 0 < x then π else -π) - (arctan (g Y) - arctan (g (-Y))) =
      (⟨x, Y * c - w, Y * s⟩ : Corner).tt - (⟨x, -Y * c - w, -Y * s⟩ : Corner).tt := by
    filter_upwards [nhdsWithin_le_nhds hsame, tendsto_neg_right.eventually hsame, self_mem_nhdsWithin] with Y h1 h2 hY
    have hY : 0 < Y := hY
    obtain ⟨k1, p1, e1⟩ := hsign Y h1
    obtain ⟨k2, p2, e2⟩ := hsign (-Y) h2
    rw [htt Y hY.ne', htt (-Y) (neg_ne_zero.2 hY.ne')]
    split_ifs with hx0
    · have q1 : 0 < g Y := by rw [e1]; positivity
      have q2 : g (-Y) < 0 := by rw [e2]; have : 0 < Y * x * k2 := by positivity
                                 linarith
      rw [arctan_inv_of_pos q1, arctan_inv_of_neg q2]
      ring
    · have hx0 : 0 < -x := by
        rcases lt_or_gt_of_ne hx with h | h
        · linarith
        · exact absurd h hx0
      have q1 : g Y < 0 := by rw [e1]; have : 0 < Y * -x * k1 := by positivity
                              linarith
      have q2 : 0 < g (-Y) := by rw [e2]; have : 0 < Y * -x * k2 := by positivity
                                 linarith
      rw [arctan_inv_of_neg q1, arctan_inv_of_pos q2]
      ring
  have := (hlim.const_sub (if 0 < x then π else -π)).congr' hev
  rwa [sub_zero] at this

/-- A corner below the surface. -/
theorem deep_jump (v : V3 ℝ) (hx : x ≠ 0) (hw : w * s < 0) (hsc : s ^ 2 + c ^ 2 = 1) :
    Tendsto (fun Y : ℝ => v.dot ((⟨x, Y * c - w, Y * s⟩ : Corner).field s c m b1 b2) -
      v.dot ((⟨x, -Y * c - w, -Y * s⟩ : Corner).field s c m b1 b2)) (𝓝[>] 0)
      (𝓝 (-(if 0 < x then π else -π) * v.dot (turned ⟨b1 / (2 * π), b2 / (2 * π), 0⟩ s c))) := by
  have hw0 : w ≠ 0 := by rintro rfl; simp at hw
  have h1 := no_jump (continuousAt_fieldRest (m := m) v b1 b2 hw0 (.inl hx) hw hsc)
  have h2 := (tt_jump hx hw hsc).mul_const (v.dot (turned ⟨b1 / (2 * π), b2 / (2 * π), 0⟩ s c))
  have h := h1.sub h2
  rw [zero_sub, ← neg_mul] at h
  refine h.congr fun Y => ?_
  simp only [field_split]
  simp only [V3.dot, V3.sub_x, V3.sub_y, V3.sub_z, V3.smul_x, V3.smul_y, V3.smul_z, smul_eq_mul]
  ring

/-! ## A corner on the surface -/

theorem top_r (hsc : s ^ 2 + c ^ 2 = 1) (Y : ℝ) : (⟨x, Y * c - 0, Y * s⟩ : Corner).r = √(x ^ 2 + Y ^ 2) := by
  rw [r]
  congr 1
  simp only
  linear_combination Y ^ 2 * hsc

theorem top_field (hx : x ≠ 0) (hs : s ≠ 0) (hsc : s ^ 2 + c ^ 2 = 1) :
    ∃ X1 X2 : ℝ → ℝ, ContinuousAt X1 0 ∧ ContinuousAt X2 0 ∧ ∀ Y : ℝ, Y ≠ 0 →
      (⟨x, Y * c - 0, Y * s⟩ : Corner).x11 * (Y * s) * (Y * c) = X1 Y ∧ (⟨x, Y * c - 0, Y * s⟩ : Corner).x11 * (Y * s) * (Y * s) = X2 Y := by
  have hpos : ∀ Y : ℝ, 0 < √(x ^ 2 + Y ^ 2) := fun Y => sqrt_pos.2 (by positivity)
  have hc : Continuous fun Y : ℝ => (√(x ^ 2 + Y ^ 2) - x) / √(x ^ 2 + Y ^ 2) :=
    Continuous.div (by fun_prop) (by fun_prop) fun Y => (hpos Y).ne'
  refine ⟨fun Y => s * c * ((√(x ^ 2 + Y ^ 2) - x) / √(x ^ 2 + Y ^ 2)), fun Y => s ^ 2 * ((√(x ^ 2 + Y ^ 2) - x) / √(x ^ 2 + Y ^ 2)),
    (continuous_const.mul hc).continuousAt, (continuous_const.mul hc).continuousAt, fun Y hY => ?_⟩
  have hq : ¬ (x < 0 ∧ Y * s = 0 ∧ Y * c - 0 = 0) := fun h => mul_ne_zero hY hs h.2.1
  have h2 : √(x ^ 2 + Y ^ 2) ^ 2 = x ^ 2 + Y ^ 2 := sq_sqrt (by positivity)
  have hp := hpos Y
  have hrx : √(x ^ 2 + Y ^ 2) + x ≠ 0 := by
    intro h
    have : √(x ^ 2 + Y ^ 2) ^ 2 = x ^ 2 := by rw [show √(x ^ 2 + Y ^ 2) = -x by linarith]; ring
    have : Y ^ 2 = 0 := by linarith
    exact hY (by simpa using this)
  rw [x11, if_neg hq, top_r hsc]
  simp only
  generalize √(x ^ 2 + Y ^ 2) = R at *
  have h3 : 1 / (R * (R + x)) * Y ^ 2 = (R - x) / R := by
    field_simp
    linear_combination -h2
  constructor
  · linear_combination s * c * h3
  · linear_combination s ^ 2 * h3

theorem top_tt (hx : x ≠ 0) (hs : s ≠ 0) (hsc : s ^ 2 + c ^ 2 = 1) :
    ∃ T : ℝ → ℝ, ContinuousAt T 0 ∧ ∀ Y : ℝ, Y ≠ 0 → (⟨x, Y * c - 0, Y * s⟩ : Corner).tt = T Y := by
  have hpos : ∀ Y : ℝ, 0 < √(x ^ 2 + Y ^ 2) := fun Y => sqrt_pos.2 (by positivity)
  have hc : Continuous fun Y : ℝ => x * c / (s * √(x ^ 2 + Y ^ 2)) :=
    Continuous.div (by fun_prop) (by fun_prop) fun Y => mul_ne_zero hs (hpos Y).ne'
  refine ⟨fun Y => arctan (x * c / (s * √(x ^ 2 + Y ^ 2))), (continuous_arctan.comp hc).continuousAt, fun Y hY => ?_⟩
  rw [tt, if_neg (mul_ne_zero hY hs), top_r hsc]
  have := (hpos Y).ne'
  congr 1
  simp only
  field_simp
  ring

/-- The terms that are continuous. -/
theorem top_continuous (hx : x ≠ 0) (hsc : s ^ 2 + c ^ 2 = 1) :
    ContinuousAt (fun Y : ℝ => (⟨x, Y * c - 0, Y * s⟩ : Corner).y11) 0 ∧
    ContinuousAt (fun Y : ℝ => ((⟨x, Y * c - 0, Y * s⟩ : Corner).r)⁻¹) 0 ∧
    ContinuousAt (fun Y : ℝ => ((⟨x, Y * c - 0, Y * s⟩ : Corner).rd s c)⁻¹) 0 ∧
    ContinuousAt (fun Y : ℝ => log ((⟨x, Y * c - 0, Y * s⟩ : Corner).rd s c)) 0 ∧
    ContinuousAt (fun Y : ℝ => (⟨x, Y * c - 0, Y * s⟩ : Corner).ai3 s c) 0 ∧
    ContinuousAt (fun Y : ℝ => (⟨x, Y * c - 0, Y * s⟩ : Corner).ai4 s c) 0 := by
  have hpos : ∀ Y : ℝ, 0 < √(x ^ 2 + Y ^ 2) := fun Y => sqrt_pos.2 (by positivity)
  have hret : √(x ^ 2 + 0 ^ 2) + (0 * c - 0) ≠ 0 := by
    have := hpos 0
    simpa using this.ne'
  have hn : ∀ Y : ℝ, ¬ (Y * c - 0 < 0 ∧ Y * s = 0 ∧ x = 0) := fun Y h => hx h.2.2
  have hrd : ∀ Y : ℝ, (⟨x, Y * c - 0, Y * s⟩ : Corner).rd s c = √(x ^ 2 + Y ^ 2) := fun Y => by
    rw [rd, d_trace, top_r hsc]; ring
  have hi : ContinuousAt (fun Y : ℝ => (√(x ^ 2 + Y ^ 2))⁻¹) 0 := ContinuousAt.inv₀ (by fun_prop) (hpos 0).ne'
  have hl : ContinuousAt (fun Y : ℝ => log (√(x ^ 2 + Y ^ 2))) 0 := ContinuousAt.log (by fun_prop) (hpos 0).ne'
  have ha : ContinuousAt (fun Y : ℝ => log (√(x ^ 2 + Y ^ 2) + (Y * c - 0))) 0 := ContinuousAt.log (by fun_prop) hret
  have hale : ∀ Y : ℝ, (⟨x, Y * c - 0, Y * s⟩ : Corner).ale = log (√(x ^ 2 + Y ^ 2) + (Y * c - 0)) := fun Y => by
    rw [ale, if_neg (hn Y), ret, top_r hsc]
  refine ⟨?_, ?_, ?_, ?_, ?_, ?_⟩
  · simp only [y11, if_neg (hn _), ret, top_r hsc]
    exact ContinuousAt.div (by fun_prop) (by fun_prop) (mul_ne_zero (hpos 0).ne' hret)
  · simp only [top_r hsc]; exact hi
  · simp only [hrd]; exact hi
  · simp only [hrd]; exact hl
  · by_cases hc : c = 0
    · subst hc
      simp only [ai3, ne_eq, not_true_eq_false, if_false, y, hrd, hale, div_eq_mul_inv _ (√(x ^ 2 + _ ^ 2)),
        div_eq_mul_inv _ (√(x ^ 2 + _ ^ 2) * _), mul_inv]
      fun_prop
    · simp only [ai3, ne_eq, hc, not_false_eq_true, if_true, y, hrd, hale, div_eq_mul_inv _ (√(x ^ 2 + _ ^ 2))]
      fun_prop
  · by_cases hc : c = 0
    · subst hc
      simp only [ai4, ne_eq, not_true_eq_false, if_false, y, hrd, div_eq_mul_inv, mul_inv]
      fun_prop
    · simp only [ai4, ne_eq, hc, not_false_eq_true, if_true, hx, if_false, hrd, top_r hsc, div_eq_mul_inv _ (√(x ^ 2 + _ ^ 2))]
      have hne : x * (√(x ^ 2 + 0 ^ 2) + √(x * x + 0 * s * (0 * s))) * c ≠ 0 := by
        have := hpos 0
        have := sqrt_nonneg (x * x + 0 * s * (0 * s))
        exact mul_ne_zero (mul_ne_zero hx (by linarith)) hc
      have hb : ContinuousAt (fun Y : ℝ => ((Y * c - 0) * (√(x * x + Y * s * (Y * s)) + Y * s * c) +
          √(x * x + Y * s * (Y * s)) * (√(x ^ 2 + Y ^ 2) + √(x * x + Y * s * (Y * s))) * s) /
          (x * (√(x ^ 2 + Y ^ 2) + √(x * x + Y * s * (Y * s))) * c)) 0 := ContinuousAt.div (by fun_prop) (by fun_prop) hne
      have hb := continuous_arctan.continuousAt.comp hb
      simp only [Function.comp_def] at hb
      fun_prop

/-- A corner on the surface: no jump. -/
theorem top_jump (v : V3 ℝ) (hx : x ≠ 0) (hs : s ≠ 0) (hsc : s ^ 2 + c ^ 2 = 1) :
    Tendsto (fun Y : ℝ => v.dot ((⟨x, Y * c - 0, Y * s⟩ : Corner).field s c m b1 b2) -
      v.dot ((⟨x, -Y * c - 0, -Y * s⟩ : Corner).field s c m b1 b2)) (𝓝[>] 0) (𝓝 0) := by
  obtain ⟨X1, X2, c1, c2, hX⟩ := top_field hx hs hsc
  obtain ⟨T, cT, hT⟩ := top_tt hx hs hsc
  obtain ⟨a1, a2, a3, a4, a5, a6⟩ := top_continuous hx hsc
  have hg : ∃ g : ℝ → ℝ, ContinuousAt g 0 ∧ ∀ Y, Y ≠ 0 → v.dot ((⟨x, Y * c - 0, Y * s⟩ : Corner).field s c m b1 b2) = g Y := by
    refine ⟨fun Y => v.dot (turned ((b1 / (2 * π)) • ⟨-x * (Y * s * (⟨x, Y * c - 0, Y * s⟩ : Corner).y11) - T Y -
        m * (-x * ((⟨x, Y * c - 0, Y * s⟩ : Corner).rd s c)⁻¹ * c - (⟨x, Y * c - 0, Y * s⟩ : Corner).ai4 s c * s) * s,
      -(Y * s) * ((⟨x, Y * c - 0, Y * s⟩ : Corner).r)⁻¹ + m * ((Y * c - 0) * c + Y * s * s) * ((⟨x, Y * c - 0, Y * s⟩ : Corner).rd s c)⁻¹ * s,
      Y * s * (Y * s * (⟨x, Y * c - 0, Y * s⟩ : Corner).y11) - m * (log ((⟨x, Y * c - 0, Y * s⟩ : Corner).rd s c) +
        (⟨x, Y * c - 0, Y * s⟩ : Corner).ai3 s c * s) * s⟩ + (b2 / (2 * π)) •
      ⟨-(Y * s) * ((⟨x, Y * c - 0, Y * s⟩ : Corner).r)⁻¹ + m * (⟨x, Y * c - 0, Y * s⟩ : Corner).ai3 s c * (s * c),
       -X1 Y - T Y - m * x * ((⟨x, Y * c - 0, Y * s⟩ : Corner).rd s c)⁻¹ * (s * c),
       X2 Y + m * (⟨x, Y * c - 0, Y * s⟩ : Corner).ai4 s c * (s * c)⟩) s c), ?_, ?_⟩
    · simp only [turned, V3.dot, V3.add_x, V3.add_y, V3.add_z, V3.smul_x, V3.smul_y, V3.smul_z, smul_eq_mul]
      fun_prop
    · intro Y hY
      obtain ⟨e1, e2⟩ := hX Y hY
      simp only [← e1, ← e2, ← hT Y hY]
      simp only [field, strikeSlip, dipSlip, ai1, ai2, y, turned, V3.dot, V3.add_x, V3.add_y, V3.add_z, V3.smul_x, V3.smul_y, V3.smul_z,
        smul_eq_mul, div_eq_mul_inv]
      ring
  obtain ⟨g, cg, hg⟩ := hg
  refine (no_jump cg).congr' ?_
  filter_upwards [self_mem_nhdsWithin] with Y hY
  have hY : 0 < Y := hY
  rw [hg Y hY.ne', hg (-Y) (neg_ne_zero.2 hY.ne')]

end Corner

end Verif.Okada
