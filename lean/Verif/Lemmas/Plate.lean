import Verif.Lemmas.PlaneTotal
import Mathlib.Analysis.Calculus.Deriv.Abs

/-! # Integrals over wide boxes (helper lemmas) -/

namespace Verif.Plate

open Real MeasureTheory Set Filter Topology Prism Plane

/-- Attraction across a layer of a point at distance `h` from the layer, per unit of area. -/
noncomputable def pull (h : ℝ) (w : ℝ × ℝ) : ℝ := h / √(w.1 ^ 2 + w.2 ^ 2 + h ^ 2) ^ 3

theorem pull_integrable (h : ℝ) : Integrable (pull h) := by
  by_cases hh : h = 0
  · subst hh
    have : pull 0 = fun _ => 0 := by funext w; simp [pull]
    rw [this]
    exact integrable_zero _ _ _
  · exact (total_cube hh).1

theorem pull_norm (h : ℝ) (w : ℝ × ℝ) : ‖pull h w‖ = |h| / √(w.1 ^ 2 + w.2 ^ 2 + h ^ 2) ^ 3 := by
  rw [pull, norm_div, norm_eq_abs, norm_of_nonneg (by positivity)]

theorem pull_norm_total (h : ℝ) : ∫ w, ‖pull h w‖ ≤ 2 * π := by
  by_cases hh : h = 0
  · subst hh
    simp [pull, pi_pos.le]
  · have e : ∀ w : ℝ × ℝ, ‖pull h w‖ = |h| / √(w.1 ^ 2 + w.2 ^ 2 + |h| ^ 2) ^ 3 := fun w => by rw [pull_norm, sq_abs]
    simp only [e]
    rw [(total_cube (abs_pos.2 hh).ne').2, abs_abs, div_self (abs_pos.2 hh).ne', mul_one]

/-- No part of a layer attracts more than the whole layer. -/
theorem layer_le (h : ℝ) (R : Set (ℝ × ℝ)) : |∫ w in R, pull h w| ≤ 2 * π := by
  rw [← norm_eq_abs]
  refine (norm_integral_le_integral_norm _).trans ((setIntegral_le_integral (pull_integrable h).norm ?_).trans (pull_norm_total h))
  exact Eventually.of_forall fun _ => norm_nonneg _

/-- What the layer beyond the distance `L` contributes. -/
theorem tail_eq {h L : ℝ} (hh : h ≠ 0) (hL : 0 < L) :
    ∫ w in {w : ℝ × ℝ | L ^ 2 ≤ w.1 ^ 2 + w.2 ^ 2}, ‖pull h w‖ = 2 * π * (|h| / √(L ^ 2 + h ^ 2)) := by
  have hm : MeasurableSet {w : ℝ × ℝ | L ^ 2 ≤ w.1 ^ 2 + w.2 ^ 2} := measurableSet_le (by fun_prop) (by fun_prop)
  rw [← integral_indicator hm]
  have e : ∀ w : ℝ × ℝ, indicator {w : ℝ × ℝ | L ^ 2 ≤ w.1 ^ 2 + w.2 ^ 2} (fun w => ‖pull h w‖) w =
      (fun t => if L ^ 2 ≤ t then |h| / √(t + h ^ 2) ^ 3 else 0) (w.1 ^ 2 + w.2 ^ 2) := fun w => by
    simp only [indicator_apply, mem_ofPred_eq, pull_norm]
  simp only [e]
  rw [Ball.radial_integral fun t => if L ^ 2 ≤ t then |h| / √(t + h ^ 2) ^ 3 else 0]
  congr 1
  have e2 : ∀ r ∈ Ioi (0 : ℝ), r * (if L ^ 2 ≤ r ^ 2 then |h| / √(r ^ 2 + h ^ 2) ^ 3 else 0) =
      indicator (Ici L) (fun r => r * (|h| / √(r ^ 2 + h ^ 2) ^ 3)) r := fun r hr => by
    have hr := mem_Ioi.1 hr
    simp only [indicator_apply, mem_Ici, pow_le_pow_iff_left₀ hL.le hr.le two_ne_zero]
    split_ifs <;> simp
  rw [setIntegral_congr_fun measurableSet_Ioi e2, setIntegral_indicator measurableSet_Ici,
    inter_eq_right.2 (show Ici L ⊆ Ioi 0 from fun r hr => hL.trans_le (mem_Ici.1 hr)), integral_Ici_eq_integral_Ioi]
  have hpos : ∀ r : ℝ, 0 < r ^ 2 + h ^ 2 := fun r => by positivity
  have hd : ∀ r : ℝ, HasDerivAt (fun r => -(|h| / √(r ^ 2 + h ^ 2))) (r * (|h| / √(r ^ 2 + h ^ 2) ^ 3)) r := by
    intro r
    have hs := (sqrt_pos.2 (hpos r)).ne'
    refine (((hasDerivAt_const r |h|).fun_div ((((hasDerivAt_id r).pow 2).add_const (h ^ 2)).sqrt (hpos r).ne') hs).neg).congr_deriv ?_
    simp only [id]
    norm_num
    field_simp
  have lim : Tendsto (fun r : ℝ => -(|h| / √(r ^ 2 + h ^ 2))) atTop (𝓝 (-0)) := by
    refine Tendsto.neg (Tendsto.const_div_atTop ?_ _)
    refine tendsto_sqrt_atTop.comp (tendsto_atTop_add_const_right _ _ (tendsto_pow_atTop (by norm_num)))
  rw [integral_Ioi_of_hasDerivAt_of_nonneg' (a := L) (fun r _ => hd r)
    (fun r hr => by have := hL.trans (mem_Ioi.1 hr); positivity) lim]
  ring

/-- A wide piece of a layer attracts nearly like the whole layer. -/
theorem layer_near {h L : ℝ} (hh : h ≠ 0) (hL : 0 < L) {R : Set (ℝ × ℝ)} (hR : MeasurableSet R)
    (hw : ∀ w : ℝ × ℝ, w.1 ^ 2 + w.2 ^ 2 < L ^ 2 → w ∈ R) :
    |(∫ w in R, pull h w) - 2 * π * (h / |h|)| ≤ 2 * π * (|h| / L) := by
  have hsplit := integral_add_compl hR (pull_integrable h)
  have htot : ∫ w, pull h w = 2 * π * (h / |h|) := (total_cube hh).2
  have hsub : Rᶜ ⊆ {w : ℝ × ℝ | L ^ 2 ≤ w.1 ^ 2 + w.2 ^ 2} := fun w hwR => by
    by_contra hn
    exact hwR (hw w (not_le.1 hn))
  have e : (∫ w in R, pull h w) - 2 * π * (h / |h|) = -∫ w in Rᶜ, pull h w := by linarith
  rw [e, abs_neg, ← norm_eq_abs]
  refine (norm_integral_le_integral_norm _).trans ((setIntegral_mono_set (pull_integrable h).norm.integrableOn
    (Eventually.of_forall fun _ => norm_nonneg _) hsub.eventuallyLE).trans ?_)
  rw [tail_eq hh hL]
  have : L ≤ √(L ^ 2 + h ^ 2) := le_sqrt_of_sq_le (by nlinarith [sq_nonneg h])
  gcongr

/-- The integral of the sign. -/
theorem integral_sgn {a b : ℝ} (hab : a ≤ b) : IntegrableOn (fun u : ℝ => u / |u|) (Ioc a b) ∧ ∫ u in Ioc a b, u / |u| = |b| - |a| := by
  have hi : IntegrableOn (fun u : ℝ => u / |u|) (Ioc a b) := by
    refine Measure.integrableOn_of_bounded (M := 1) measure_Ioc_lt_top.ne ?_ (Eventually.of_forall fun u => ?_)
    · exact (measurable_id.div (continuous_abs.measurable)).aestronglyMeasurable
    · rw [norm_div, norm_eq_abs, norm_eq_abs, abs_abs]
      exact div_self_le_one _
  refine ⟨hi, ?_⟩
  rw [← intervalIntegral.integral_of_le hab]
  refine integral_eq_of_hasDerivAt_off_countable_of_le (fun u => |u|) _ hab (countable_singleton 0) (by fun_prop) (fun u hu => ?_) ?_
  · have h0 : u ≠ 0 := hu.2
    rcases lt_or_gt_of_ne h0 with h | h
    · refine (hasDerivAt_abs_neg h).congr_deriv ?_
      rw [abs_of_neg h, div_neg, div_self h0]
    · refine (hasDerivAt_abs_pos h).congr_deriv ?_
      rw [abs_of_pos h, div_self h0]
  · rwa [intervalIntegrable_iff_integrableOn_Ioc_of_le hab]

/-- The attraction of a box across its layers. -/
theorem slab_eq (b : Box) (h : b.Proper) (p : V3 ℝ) :
    let R := Ioc (b.min.y - p.y) (b.max.y - p.y) ×ˢ Ioc (b.min.z - p.z) (b.max.z - p.z)
    IntegrableOn (fun u => ∫ w in R, pull u w) (Ioc (b.min.x - p.x) (b.max.x - p.x)) ∧
    -b.evalDefInt Py.prismFz p 1 = ∫ u in Ioc (b.min.x - p.x) (b.max.x - p.x), ∫ w in R, pull u w := by
  intro R
  obtain ⟨-, ⟨ix, hx⟩, -⟩ := newton_box b h p
  have e : ∀ q : ℝ × ℝ × ℝ, (q.1 - p.x) / (vec q - p).len ^ 3 =
      (fun q : ℝ × ℝ × ℝ => pull q.1 q.2) (q - (p.x, p.y, p.z)) := fun q => by
    simp only [pull, V3.len, vec, V3.sub_x, V3.sub_y, V3.sub_z, Prod.fst_sub, Prod.snd_sub]
    congr 3
    ring
  simp only [e] at ix hx
  rw [integral_shift b p fun q : ℝ × ℝ × ℝ => pull q.1 q.2] at hx
  have ix2 : IntegrableOn (fun q : ℝ × ℝ × ℝ => pull q.1 q.2) (Ioc (b.min.x - p.x) (b.max.x - p.x) ×ˢ R) := by
    rw [points_eq_preimage b p] at ix
    exact ((measurePreserving_shift _).integrableOn_comp_preimage (MeasurableEquiv.subRight _).measurableEmbedding).1 ix
  rw [Measure.volume_eq_prod] at ix2
  rw [Measure.volume_eq_prod, setIntegral_prod _ ix2] at hx
  refine ⟨?_, hx.symm⟩
  rw [IntegrableOn, ← Measure.prod_restrict] at ix2
  exact ix2.integral_prod_left

theorem slab_le (b : Box) (h : b.Proper) (p : V3 ℝ) : |b.evalDefInt Py.prismFz p 1| ≤ 2 * π * (b.max.x - b.min.x) := by
  rw [← abs_neg, (slab_eq b h p).2, ← norm_eq_abs]
  refine (norm_setIntegral_le_of_norm_le_const measure_Ioc_lt_top (C := 2 * π) fun u _ => ?_).trans ?_
  · rw [norm_eq_abs]
    exact layer_le u _
  · have := h.1
    rw [Real.volume_real_Ioc_of_le (by linarith)]
    exact le_of_eq (by ring)

/-- A box that reaches at least `L` to all sides of the station along its layers. -/
theorem slab_near (b : Box) (h : b.Proper) (p : V3 ℝ) {L H : ℝ} (hL : 0 < L) (y0 : b.min.y ≤ p.y - L) (y1 : p.y + L ≤ b.max.y)
    (z0 : b.min.z ≤ p.z - L) (z1 : p.z + L ≤ b.max.z) (h0 : |b.min.x - p.x| ≤ H) (h1 : |b.max.x - p.x| ≤ H) :
    |-b.evalDefInt Py.prismFz p 1 - 2 * π * (|b.max.x - p.x| - |b.min.x - p.x|)| ≤ 2 * π * (H / L) * (b.max.x - b.min.x) := by
  obtain ⟨i1, e1⟩ := slab_eq b h p
  have hb := h.1
  obtain ⟨i2, e2⟩ := integral_sgn (a := b.min.x - p.x) (b := b.max.x - p.x) (by linarith)
  rw [e1, ← e2, ← integral_const_mul, ← integral_sub i1 (i2.const_mul _), ← norm_eq_abs]
  have hH : 0 ≤ H := (abs_nonneg _).trans h0
  refine (norm_setIntegral_le_of_norm_le_const measure_Ioc_lt_top (C := 2 * π * (H / L)) fun u hu => ?_).trans ?_
  · rw [norm_eq_abs]
    have hu' : |u| ≤ H := abs_le.2 ⟨by linarith [(abs_le.1 h0).1, hu.1], by linarith [(abs_le.1 h1).2, hu.2]⟩
    by_cases hz : u = 0
    · subst hz
      have : ∀ w, pull 0 w = 0 := fun w => by simp [pull]
      simp only [this, integral_zero, abs_zero, div_zero, mul_zero, sub_zero]
      positivity
    · refine (layer_near hz hL (measurableSet_Ioc.prod measurableSet_Ioc) fun w hw => ?_).trans (by gcongr)
      have a1 := abs_lt.1 (abs_lt_of_sq_lt_sq (show w.1 ^ 2 < L ^ 2 by nlinarith [sq_nonneg w.2]) hL.le)
      have a2 := abs_lt.1 (abs_lt_of_sq_lt_sq (show w.2 ^ 2 < L ^ 2 by nlinarith [sq_nonneg w.1]) hL.le)
      exact ⟨⟨by linarith [a1.1], by linarith [a1.2]⟩, ⟨by linarith [a2.1], by linarith [a2.2]⟩⟩
  · rw [Real.volume_real_Ioc_of_le (by linarith)]
    exact le_of_eq (by ring)

/-- The box with the axes renamed. -/
def turned (b : Box) : Box := ⟨⟨b.min.z, b.min.x, b.min.y⟩, ⟨b.max.z, b.max.x, b.max.y⟩⟩

theorem turned_eval (b : Box) (f : ℝ → ℝ → ℝ → ℝ) (p : V3 ℝ) :
    (turned b).evalDefInt f ⟨p.z, p.x, p.y⟩ 1 = b.evalDefInt f p 0 ∧ (turned (turned b)).evalDefInt f ⟨p.y, p.z, p.x⟩ 1 = b.evalDefInt f p 2 := by
  simp only [turned, Box.evalDefInt, cycleN, and_self]

theorem turned_proper {b : Box} (h : b.Proper) : (turned b).Proper := ⟨h.2.2, h.1, h.2.1⟩

/-! ### The second derivative across the plate -/

theorem arctan_near {t : ℝ} (ht : 0 < t) : |arctan t - π / 2| ≤ 1 / t := by
  have h1 := arctan_inv_of_pos ht
  have h3 : 0 ≤ arctan t⁻¹ := arctan_nonneg.2 (by positivity)
  have h2 := le_tan h3 (arctan_lt_pi_div_two _)
  rw [tan_arctan] at h2
  rw [abs_le, one_div]
  constructor <;> linarith

theorem corner_near {x y h L H : ℝ} (hL : 0 < L) (hx : L ≤ x) (hy : L ≤ y) (hH : |h| ≤ H) :
    |Py.prismFzz x y h - π / 2 * (h / |h|)| ≤ H * √(2 * L ^ 2 + H ^ 2) / L ^ 2 := by
  have hH0 : 0 ≤ H := (abs_nonneg h).trans hH
  by_cases hz : h = 0
  · subst hz
    simp only [Py.prismFzz, ne_eq, not_true_eq_false, if_false, zero_div, mul_zero, sub_zero, abs_zero]
    positivity
  have hx0 := hL.trans_le hx
  have hy0 := hL.trans_le hy
  have hr : 0 < √(x * x + y * y + h * h) := sqrt_pos.2 (by nlinarith)
  have ha := abs_pos.2 hz
  have key : |arctan (x * y / (|h| * √(x * x + y * y + h * h))) - π / 2| ≤ H * √(2 * L ^ 2 + H ^ 2) / L ^ 2 := by
    refine (arctan_near (by positivity)).trans ?_
    rw [one_div_div]
    have e : |h| * √(x * x + y * y + h * h) / (x * y) = |h| * (√(x * x + y * y + h * h) / (x * y)) := by ring
    have e' : H * √(2 * L ^ 2 + H ^ 2) / L ^ 2 = H * (√(2 * L ^ 2 + H ^ 2) / L ^ 2) := by ring
    rw [e, e']
    refine mul_le_mul hH ?_ (by positivity) hH0
    rw [div_le_div_iff₀ (by positivity) (by positivity)]
    have hp : x * y = √((x * y) ^ 2) := (sqrt_sq (by positivity)).symm
    have hq : L ^ 2 = √((L ^ 2) ^ 2) := (sqrt_sq (by positivity)).symm
    have l1 : √(x * x + y * y + h * h) * L ^ 2 = √((x * x + y * y + h * h) * (L ^ 2) ^ 2) := by
      rw [sqrt_mul (by nlinarith), ← hq]
    have l2 : √(2 * L ^ 2 + H ^ 2) * (x * y) = √((2 * L ^ 2 + H ^ 2) * (x * y) ^ 2) := by
      rw [sqrt_mul (by positivity), ← hp]
    rw [l1, l2]
    apply sqrt_le_sqrt
    have x2 : L ^ 2 ≤ x ^ 2 := by gcongr
    have y2 : L ^ 2 ≤ y ^ 2 := by gcongr
    have h2 : h ^ 2 ≤ H ^ 2 := by rw [← sq_abs h]; gcongr
    have t1 : x ^ 2 * (L ^ 2) * L ^ 2 ≤ x ^ 2 * y ^ 2 * L ^ 2 := by gcongr
    have t2 : y ^ 2 * (L ^ 2) * L ^ 2 ≤ y ^ 2 * x ^ 2 * L ^ 2 := by gcongr
    have t3 : h ^ 2 * (L ^ 2 * L ^ 2) ≤ H ^ 2 * (x ^ 2 * y ^ 2) := by gcongr
    nlinarith
  simp only [Py.prismFzz, ne_eq, hz, not_false_eq_true, if_true]
  rcases lt_or_gt_of_ne hz with hn | hp
  · rw [abs_of_neg hn] at key ⊢
    have e : x * y / (h * √(x * x + y * y + h * h)) = -(x * y / (-h * √(x * x + y * y + h * h))) := by
      rw [neg_mul, div_neg, neg_neg]
    rw [e, arctan_neg, div_neg, div_self hz]
    have : -arctan (x * y / (-h * √(x * x + y * y + h * h))) - π / 2 * -1 = -(arctan (x * y / (-h * √(x * x + y * y + h * h))) - π / 2) := by ring
    rw [this, abs_neg]
    exact key
  · rw [abs_of_pos hp] at key ⊢
    rw [div_self hz, mul_one]
    exact key

theorem fzz_neg_x (x y z : ℝ) : Py.prismFzz (-x) y z = -Py.prismFzz x y z := by
  simp only [Py.prismFzz]
  split_ifs
  · rw [neg_mul, neg_mul_neg, neg_div, arctan_neg]
  · simp

theorem fzz_neg_y (x y z : ℝ) : Py.prismFzz x (-y) z = -Py.prismFzz x y z := by
  simp only [Py.prismFzz]
  split_ifs
  · rw [mul_neg, neg_mul_neg, neg_div, arctan_neg]
  · simp

/-- The second derivative across a wide box. -/
theorem zz_near (b : Box) (p : V3 ℝ) {L H : ℝ} (hL : 0 < L) (x0 : b.min.x ≤ p.x - L) (x1 : p.x + L ≤ b.max.x)
    (y0 : b.min.y ≤ p.y - L) (y1 : p.y + L ≤ b.max.y) (h0 : |b.min.z - p.z| ≤ H) (h1 : |b.max.z - p.z| ≤ H) :
    |b.evalDefInt Py.prismFzz p 0 - 2 * π * ((b.max.z - p.z) / |b.max.z - p.z| - (b.min.z - p.z) / |b.min.z - p.z|)| ≤
      8 * (H * √(2 * L ^ 2 + H ^ 2) / L ^ 2) := by
  have c : ∀ {x y h : ℝ}, L ≤ x → L ≤ y → |h| ≤ H → _ := fun {x y h} hx hy hh => abs_le.1 (corner_near (x := x) (y := y) (h := h) hL hx hy hh)
  have hx0 : L ≤ -(b.min.x - p.x) := by linarith
  have hx1 : L ≤ b.max.x - p.x := by linarith
  have hy0 : L ≤ -(b.min.y - p.y) := by linarith
  have hy1 : L ≤ b.max.y - p.y := by linarith
  obtain ⟨a1, a2⟩ := c hx1 hy1 h1
  obtain ⟨b1, b2⟩ := c hx1 hy1 h0
  obtain ⟨c1, c2⟩ := c hx1 hy0 h1
  obtain ⟨d1, d2⟩ := c hx1 hy0 h0
  obtain ⟨e1, e2⟩ := c hx0 hy1 h1
  obtain ⟨f1, f2⟩ := c hx0 hy1 h0
  obtain ⟨g1, g2⟩ := c hx0 hy0 h1
  obtain ⟨i1, i2⟩ := c hx0 hy0 h0
  rw [fzz_neg_y] at c1 c2 d1 d2
  rw [fzz_neg_x] at e1 e2 f1 f2
  rw [fzz_neg_x, fzz_neg_y] at g1 g2 i1 i2
  simp only [Box.evalDefInt, cycleN]
  rw [abs_le]
  constructor <;> linarith

end Verif.Plate
