import Mathlib.MeasureTheory.Integral.IntegralEqImproper
import Mathlib.MeasureTheory.Group.Integral
import Mathlib.MeasureTheory.Measure.Haar.Unique
import Verif.Spec.PlaneTotal
import Verif.Props.NewtonBall
import Verif.Props.PrismTensor

/-! # Integrals over a horizontal plane (helper lemmas) -/

namespace Verif.Plane

open Real MeasureTheory Set Filter Topology Prism

/-- `1/√(r²+h²)³` as a function of the square of the distance from the foot. -/
theorem radial_cube {h : ℝ} (hh : h ≠ 0) :
    ∫ r in Ioi (0 : ℝ), r * (h / √(r ^ 2 + h ^ 2) ^ 3) = h / |h| := by
  have hpos : ∀ r : ℝ, 0 < r ^ 2 + h ^ 2 := fun r => by positivity
  have hd : ∀ r : ℝ, HasDerivAt (fun r => -(|h| / √(r ^ 2 + h ^ 2))) (r * (|h| / √(r ^ 2 + h ^ 2) ^ 3)) r := by
    intro r
    have hs := (sqrt_pos.2 (hpos r)).ne'
    refine (((hasDerivAt_const r |h|).fun_div ((((hasDerivAt_id r).pow 2).add_const (h ^ 2)).sqrt (hpos r).ne') hs).neg).congr_deriv ?_
    simp only [id]
    norm_num
    field_simp
  have lim : Tendsto (fun r : ℝ => -(|h| / √(r ^ 2 + h ^ 2))) atTop (𝓝 (-0)) := by
    refine Tendsto.neg (Tendsto.const_div_atTop ?_ _)
    refine tendsto_sqrt_atTop.comp (tendsto_atTop_add_const_right _ _ (tendsto_pow_atTop (by norm_num)))
  have key := integral_Ioi_of_hasDerivAt_of_nonneg' (a := 0) (fun r _ => hd r) (fun r hr => by have := mem_Ioi.1 hr; positivity) lim
  have e : ∀ r : ℝ, r * (h / √(r ^ 2 + h ^ 2) ^ 3) = h / |h| * (r * (|h| / √(r ^ 2 + h ^ 2) ^ 3)) := fun r => by
    have := abs_pos.2 hh
    field_simp
  simp only [e, integral_const_mul, key]
  have : √(0 ^ 2 + h ^ 2) = |h| := by rw [zero_pow two_ne_zero, zero_add, sqrt_sq_eq_abs]
  rw [this, div_self (abs_pos.2 hh).ne']
  ring

theorem radial_tidal {h : ℝ} (hh : h ≠ 0) :
    ∫ r in Ioi (0 : ℝ), r * (3 * h * h / √(r ^ 2 + h ^ 2) ^ 5 - 1 / √(r ^ 2 + h ^ 2) ^ 3) = 0 := by
  have hpos : ∀ r : ℝ, 0 < r ^ 2 + h ^ 2 := fun r => by positivity
  have hd : ∀ r : ℝ, HasDerivAt (fun r => r ^ 2 / √(r ^ 2 + h ^ 2) ^ 3) (r * (3 * h * h / √(r ^ 2 + h ^ 2) ^ 5 - 1 / √(r ^ 2 + h ^ 2) ^ 3)) r := by
    intro r
    have hs := (sqrt_pos.2 (hpos r)).ne'
    have h2 : √(r ^ 2 + h ^ 2) ^ 2 = r ^ 2 + h ^ 2 := sq_sqrt (hpos r).le
    have hq : HasDerivAt (fun r : ℝ => r ^ 2 + h ^ 2) (2 * r) r := by simpa using ((hasDerivAt_id r).pow 2).add_const (h ^ 2)
    have hr2 : HasDerivAt (fun r : ℝ => r ^ 2) (2 * r) r := by simpa using hasDerivAt_pow 2 r
    refine (hr2.fun_div ((hq.sqrt (hpos r).ne').fun_pow 3) (pow_ne_zero 3 hs)).congr_deriv ?_
    generalize √(r ^ 2 + h ^ 2) = R at *
    field_simp
    norm_num
    grind
  have lim : Tendsto (fun r : ℝ => r ^ 2 / √(r ^ 2 + h ^ 2) ^ 3) atTop (𝓝 0) := by
    have hl : Tendsto (fun r : ℝ => 1 / √(r ^ 2 + h ^ 2)) atTop (𝓝 0) := by
      refine Tendsto.const_div_atTop ?_ _
      exact tendsto_sqrt_atTop.comp (tendsto_atTop_add_const_right _ _ (tendsto_pow_atTop (by norm_num)))
    refine squeeze_zero (fun r => by positivity) (fun r => ?_) hl
    have hs := sqrt_pos.2 (hpos r)
    have h2 : √(r ^ 2 + h ^ 2) ^ 2 = r ^ 2 + h ^ 2 := sq_sqrt (hpos r).le
    rw [div_le_div_iff₀ (by positivity) hs]
    nlinarith [mul_nonneg (sq_nonneg h) hs.le]
  have hi : IntegrableOn (fun r : ℝ => r * (3 * h * h / √(r ^ 2 + h ^ 2) ^ 5 - 1 / √(r ^ 2 + h ^ 2) ^ 3)) (Ioi 0) := by
    have h1 : IntegrableOn (fun r : ℝ => r * (h / √(r ^ 2 + h ^ 2) ^ 3)) (Ioi 0) := by
      by_contra hn
      have := radial_cube hh
      rw [integral_undef hn] at this
      exact div_ne_zero hh (abs_pos.2 hh).ne' this.symm
    refine (h1.norm.const_mul (4 / |h|)).mono' (by fun_prop) ?_
    refine (ae_restrict_iff' measurableSet_Ioi).2 (Eventually.of_forall fun r hr => ?_)
    have hr0 : 0 < r := hr
    have hs := sqrt_pos.2 (hpos r)
    have h2 : √(r ^ 2 + h ^ 2) ^ 2 = r ^ 2 + h ^ 2 := sq_sqrt (hpos r).le
    have ha := abs_pos.2 hh
    generalize √(r ^ 2 + h ^ 2) = R at *
    rw [norm_eq_abs, norm_eq_abs, abs_mul, abs_mul, abs_of_pos hr0, abs_div h, abs_of_pos (pow_pos hs 3)]
    have e : 4 / |h| * (r * (|h| / R ^ 3)) = r * (4 / R ^ 3) := by field_simp
    rw [e]
    refine mul_le_mul_of_nonneg_left ?_ hr0.le
    have b1 : 3 * h * h / R ^ 5 ≤ 3 / R ^ 3 := by
      rw [div_le_div_iff₀ (by positivity) (by positivity)]
      have : 3 * h * h ≤ 3 * R ^ 2 := by nlinarith
      calc 3 * h * h * R ^ 3 ≤ 3 * R ^ 2 * R ^ 3 := mul_le_mul_of_nonneg_right this (by positivity)
        _ = 3 * R ^ 5 := by ring
    have b2 : 0 ≤ 3 * h * h / R ^ 5 := div_nonneg (by nlinarith [sq_nonneg h]) (by positivity)
    have b3 : 0 < 1 / R ^ 3 := by positivity
    have b4 : 4 / R ^ 3 = 3 / R ^ 3 + 1 / R ^ 3 := by ring
    rw [abs_le]
    constructor <;> linarith [b1, b2, b3, b4, show 3 / R ^ 3 = 3 * (1 / R ^ 3) by ring]
  rw [integral_Ioi_of_hasDerivAt_of_tendsto' (fun r _ => hd r) hi lim]
  simp

/-- Shifting the plane along itself. -/
theorem shift (k : ℝ × ℝ → ℝ) (a b : ℝ) :
    (Integrable (fun w : ℝ × ℝ => k (w.1 - a, w.2 - b)) ↔ Integrable k) ∧ ∫ w : ℝ × ℝ, k (w.1 - a, w.2 - b) = ∫ w, k w := by
  have i2 : (volume : Measure (ℝ × ℝ)).IsAddHaarMeasure := by
    rw [Measure.volume_eq_prod]; exact Measure.prod.instIsAddHaarMeasure _ _
  constructor
  · exact (measurePreserving_sub_right volume ((a, b) : ℝ × ℝ)).integrable_comp_emb (MeasurableEquiv.subRight ((a, b) : ℝ × ℝ)).measurableEmbedding
  · exact integral_sub_right_eq_self k ((a, b) : ℝ × ℝ)

/-- The vertical part of an inverse-square field adds up to `2π` over a plane. -/
theorem total_cube {h : ℝ} (hh : h ≠ 0) :
    Integrable (fun w : ℝ × ℝ => h / √(w.1 ^ 2 + w.2 ^ 2 + h ^ 2) ^ 3) ∧ ∫ w : ℝ × ℝ, h / √(w.1 ^ 2 + w.2 ^ 2 + h ^ 2) ^ 3 = 2 * π * (h / |h|) := by
  have e := Ball.radial_integral fun t => h / √(t + h ^ 2) ^ 3
  rw [radial_cube hh] at e
  refine ⟨?_, e⟩
  by_contra hn
  rw [integral_undef hn] at e
  have : 2 * π * (h / |h|) ≠ 0 := mul_ne_zero (by positivity) (div_ne_zero hh (abs_pos.2 hh).ne')
  exact this e.symm

/-- The function changes its sign with the first coordinate. -/
theorem total_odd_x {k : ℝ × ℝ → ℝ} (h : ∀ x y, k (-x, y) = -k (x, y)) : ∫ w, k w = 0 := by
  have mp : MeasurePreserving (fun w : ℝ × ℝ => (-w.1, w.2)) volume volume := by
    rw [Measure.volume_eq_prod]
    exact (Measure.measurePreserving_neg volume).prod (MeasurePreserving.id volume)
  have me : MeasurableEmbedding (fun w : ℝ × ℝ => (-w.1, w.2)) :=
    ((MeasurableEquiv.neg ℝ).prodCongr (MeasurableEquiv.refl ℝ)).measurableEmbedding
  have e := mp.integral_comp me k
  have e2 : ∀ w : ℝ × ℝ, k (-w.1, w.2) = -k w := fun w => h w.1 w.2
  simp only [e2, integral_neg] at e
  linarith

/-- Exchanging the two coordinates. -/
theorem total_swap (k : ℝ × ℝ → ℝ) : ∫ w : ℝ × ℝ, k (w.2, w.1) = ∫ w, k w := by
  have mp : MeasurePreserving (Prod.swap : ℝ × ℝ → ℝ × ℝ) volume volume := by
    rw [Measure.volume_eq_prod]; exact Measure.measurePreserving_swap
  exact mp.integral_comp MeasurableEquiv.prodComm.measurableEmbedding k

theorem len_mk (x y h : ℝ) : (⟨x, y, h⟩ : V3 ℝ).len = √(x ^ 2 + y ^ 2 + h ^ 2) := by
  simp only [V3.len]

/-- The tidal tensor of a point at height `h` above or below the plane: how it is bounded. -/
theorem tidal_entry_le {x y h : ℝ} (hh : h ≠ 0) {u v : ℝ} (hu : u ^ 2 ≤ x ^ 2 + y ^ 2 + h ^ 2) (hv : v ^ 2 ≤ x ^ 2 + y ^ 2 + h ^ 2) (e : ℝ) (he : |e| ≤ 1) :
    |3 * u * v / √(x ^ 2 + y ^ 2 + h ^ 2) ^ 5 - e / √(x ^ 2 + y ^ 2 + h ^ 2) ^ 3| ≤ 4 / |h| * |h / √(x ^ 2 + y ^ 2 + h ^ 2) ^ 3| := by
  have hp : 0 < x ^ 2 + y ^ 2 + h ^ 2 := by positivity
  have hs := sqrt_pos.2 hp
  have h2 : √(x ^ 2 + y ^ 2 + h ^ 2) ^ 2 = x ^ 2 + y ^ 2 + h ^ 2 := sq_sqrt hp.le
  have ha := abs_pos.2 hh
  rw [← h2] at hu hv
  generalize √(x ^ 2 + y ^ 2 + h ^ 2) = R at *
  have hu' : |u| ≤ R := abs_le_of_sq_le_sq hu hs.le
  have hv' : |v| ≤ R := abs_le_of_sq_le_sq hv hs.le
  rw [abs_div h, abs_of_pos (pow_pos hs 3)]
  have e1 : 4 / |h| * (|h| / R ^ 3) = 4 / R ^ 3 := by field_simp
  rw [e1]
  have b1 : |3 * u * v / R ^ 5| ≤ 3 / R ^ 3 := by
    rw [abs_div, abs_of_pos (pow_pos hs 5), div_le_div_iff₀ (by positivity) (by positivity), abs_mul, abs_mul, abs_of_pos (by norm_num : (0 : ℝ) < 3)]
    have := mul_le_mul hu' hv' (abs_nonneg _) hs.le
    calc 3 * |u| * |v| * R ^ 3 = 3 * (|u| * |v|) * R ^ 3 := by ring
      _ ≤ 3 * (R * R) * R ^ 3 := by gcongr
      _ = 3 * R ^ 5 := by ring
  have b2 : |e / R ^ 3| ≤ 1 / R ^ 3 := by
    rw [abs_div, abs_of_pos (pow_pos hs 3)]
    exact div_le_div_of_nonneg_right he (by positivity)
  have := abs_sub (3 * u * v / R ^ 5) (e / R ^ 3)
  calc _ ≤ |3 * u * v / R ^ 5| + |e / R ^ 3| := this
    _ ≤ 3 / R ^ 3 + 1 / R ^ 3 := add_le_add b1 b2
    _ = 4 / R ^ 3 := by ring

theorem tidal_bounded {x y h : ℝ} (hh : h ≠ 0) :
    let T := tidal ⟨x, y, h⟩
    let B := 4 / |h| * |h / √(x ^ 2 + y ^ 2 + h ^ 2) ^ 3|
    (|T.x.x| ≤ B ∧ |T.x.y| ≤ B ∧ |T.x.z| ≤ B) ∧ (|T.y.x| ≤ B ∧ |T.y.y| ≤ B ∧ |T.y.z| ≤ B) ∧ |T.z.x| ≤ B ∧ |T.z.y| ≤ B ∧ |T.z.z| ≤ B := by
  have bx : x ^ 2 ≤ x ^ 2 + y ^ 2 + h ^ 2 := by nlinarith [sq_nonneg y, sq_nonneg h]
  have by' : y ^ 2 ≤ x ^ 2 + y ^ 2 + h ^ 2 := by nlinarith [sq_nonneg x, sq_nonneg h]
  have bz : h ^ 2 ≤ x ^ 2 + y ^ 2 + h ^ 2 := by nlinarith [sq_nonneg y, sq_nonneg x]
  have d : ∀ {u : ℝ}, u ^ 2 ≤ x ^ 2 + y ^ 2 + h ^ 2 → |3 * u * u / √(x ^ 2 + y ^ 2 + h ^ 2) ^ 5 - 1 / √(x ^ 2 + y ^ 2 + h ^ 2) ^ 3| ≤
      4 / |h| * |h / √(x ^ 2 + y ^ 2 + h ^ 2) ^ 3| := fun hu => tidal_entry_le hh hu hu 1 (by norm_num)
  have o : ∀ {u v : ℝ}, u ^ 2 ≤ x ^ 2 + y ^ 2 + h ^ 2 → v ^ 2 ≤ x ^ 2 + y ^ 2 + h ^ 2 → |3 * u * v / √(x ^ 2 + y ^ 2 + h ^ 2) ^ 5| ≤
      4 / |h| * |h / √(x ^ 2 + y ^ 2 + h ^ 2) ^ 3| := fun hu hv => by
    simpa using tidal_entry_le hh hu hv 0 (by norm_num)
  simp only [tidal, len_mk]
  exact ⟨⟨d bx, o bx by', o bx bz⟩, ⟨o by' bx, d by', o by' bz⟩, o bz bx, o bz by', d bz⟩

theorem tidal_measurable (h : ℝ) :
    let T := fun w : ℝ × ℝ => tidal ⟨w.1, w.2, h⟩
    (Measurable (fun w => (T w).x.x) ∧ Measurable (fun w => (T w).x.y) ∧ Measurable (fun w => (T w).x.z)) ∧
    (Measurable (fun w => (T w).y.x) ∧ Measurable (fun w => (T w).y.y) ∧ Measurable (fun w => (T w).y.z)) ∧
    Measurable (fun w => (T w).z.x) ∧ Measurable (fun w => (T w).z.y) ∧ Measurable (fun w => (T w).z.z) := by
  simp only [tidal, len_mk]
  refine ⟨⟨?_, ?_, ?_⟩, ⟨?_, ?_, ?_⟩, ?_, ?_, ?_⟩ <;> fun_prop

theorem tidal_integrable {h : ℝ} (hh : h ≠ 0) :
    let T := fun w : ℝ × ℝ => tidal ⟨w.1, w.2, h⟩
    (Integrable (fun w => (T w).x.x) ∧ Integrable (fun w => (T w).x.y) ∧ Integrable (fun w => (T w).x.z)) ∧
    (Integrable (fun w => (T w).y.x) ∧ Integrable (fun w => (T w).y.y) ∧ Integrable (fun w => (T w).y.z)) ∧
    Integrable (fun w => (T w).z.x) ∧ Integrable (fun w => (T w).z.y) ∧ Integrable (fun w => (T w).z.z) := by
  obtain ⟨⟨m1, m2, m3⟩, ⟨m4, m5, m6⟩, m7, m8, m9⟩ := tidal_measurable h
  have hi := (total_cube hh).1.norm.const_mul (4 / |h|)
  have key : ∀ {f : ℝ × ℝ → ℝ}, Measurable f → (∀ w, |f w| ≤ 4 / |h| * |h / √(w.1 ^ 2 + w.2 ^ 2 + h ^ 2) ^ 3|) → Integrable f := fun hm hb =>
    hi.mono' hm.aestronglyMeasurable (Eventually.of_forall hb)
  have b := fun w : ℝ × ℝ => tidal_bounded (x := w.1) (y := w.2) hh
  exact ⟨⟨key m1 fun w => (b w).1.1, key m2 fun w => (b w).1.2.1, key m3 fun w => (b w).1.2.2⟩,
    ⟨key m4 fun w => (b w).2.1.1, key m5 fun w => (b w).2.1.2.1, key m6 fun w => (b w).2.1.2.2⟩,
    key m7 fun w => (b w).2.2.1, key m8 fun w => (b w).2.2.2.1, key m9 fun w => (b w).2.2.2.2⟩

/-- Every entry of the tidal tensor of a point off the plane adds up to nothing over the plane. -/
theorem tidal_total {h : ℝ} (hh : h ≠ 0) :
    let T := fun w : ℝ × ℝ => tidal ⟨w.1, w.2, h⟩
    (∫ w, (T w).x.x = 0 ∧ ∫ w, (T w).x.y = 0 ∧ ∫ w, (T w).x.z = 0) ∧ (∫ w, (T w).y.x = 0 ∧ ∫ w, (T w).y.y = 0 ∧ ∫ w, (T w).y.z = 0) ∧
    ∫ w, (T w).z.x = 0 ∧ ∫ w, (T w).z.y = 0 ∧ ∫ w, (T w).z.z = 0 := by
  obtain ⟨⟨i1, i2, i3⟩, ⟨i4, i5, i6⟩, i7, i8, i9⟩ := tidal_integrable hh
  have hzz : ∫ w : ℝ × ℝ, (tidal ⟨w.1, w.2, h⟩).z.z = 0 := by
    simp only [tidal, len_mk]
    have e := Ball.radial_integral fun t => 3 * h * h / √(t + h ^ 2) ^ 5 - 1 / √(t + h ^ 2) ^ 3
    rw [radial_tidal hh, mul_zero] at e
    exact e
  have hsw : ∫ w : ℝ × ℝ, (tidal ⟨w.1, w.2, h⟩).y.y = ∫ w : ℝ × ℝ, (tidal ⟨w.1, w.2, h⟩).x.x := by
    rw [← total_swap fun w => (tidal ⟨w.1, w.2, h⟩).x.x]
    simp only [tidal, len_mk]
    congr 1; funext w; rw [add_comm (w.2 ^ 2)]
  have htr : ∀ w : ℝ × ℝ, (tidal ⟨w.1, w.2, h⟩).x.x + (tidal ⟨w.1, w.2, h⟩).y.y = -(tidal ⟨w.1, w.2, h⟩).z.z := fun w => by
    simp only [tidal, len_mk]
    have hp : 0 < w.1 ^ 2 + w.2 ^ 2 + h ^ 2 := by positivity
    have hs := sqrt_pos.2 hp
    have h2 : √(w.1 ^ 2 + w.2 ^ 2 + h ^ 2) ^ 2 = w.1 ^ 2 + w.2 ^ 2 + h ^ 2 := sq_sqrt hp.le
    generalize √(w.1 ^ 2 + w.2 ^ 2 + h ^ 2) = R at *
    field_simp
    linear_combination (-3) * h2
  have hxx : ∫ w : ℝ × ℝ, (tidal ⟨w.1, w.2, h⟩).x.x = 0 := by
    have e := integral_add i1 i5
    simp only [htr, integral_neg, hzz, hsw] at e
    linarith
  have oxy : ∫ w : ℝ × ℝ, (tidal ⟨w.1, w.2, h⟩).x.y = 0 := total_odd_x (k := fun w => (tidal ⟨w.1, w.2, h⟩).x.y) fun x y => by
    simp only [tidal, len_mk, neg_sq]; ring
  have oyx : ∫ w : ℝ × ℝ, (tidal ⟨w.1, w.2, h⟩).y.x = 0 := total_odd_x (k := fun w => (tidal ⟨w.1, w.2, h⟩).y.x) fun x y => by
    simp only [tidal, len_mk, neg_sq]; ring
  have oxz : ∫ w : ℝ × ℝ, (tidal ⟨w.1, w.2, h⟩).x.z = 0 := total_odd_x (k := fun w => (tidal ⟨w.1, w.2, h⟩).x.z) fun x y => by
    simp only [tidal, len_mk, neg_sq]; ring
  have ozx : ∫ w : ℝ × ℝ, (tidal ⟨w.1, w.2, h⟩).z.x = 0 := total_odd_x (k := fun w => (tidal ⟨w.1, w.2, h⟩).z.x) fun x y => by
    simp only [tidal, len_mk, neg_sq]; ring
  have oyz : ∫ w : ℝ × ℝ, (tidal ⟨w.1, w.2, h⟩).y.z = 0 := by
    rw [← total_swap]
    exact total_odd_x (k := fun w => (tidal ⟨w.2, w.1, h⟩).y.z) fun x y => by simp only [tidal, len_mk, neg_sq]; ring
  have ozy : ∫ w : ℝ × ℝ, (tidal ⟨w.1, w.2, h⟩).z.y = 0 := by
    rw [← total_swap]
    exact total_odd_x (k := fun w => (tidal ⟨w.2, w.1, h⟩).z.y) fun x y => by simp only [tidal, len_mk, neg_sq]; ring
  exact ⟨⟨hxx, oxy, oxz⟩, ⟨oyx, hsw.trans hxx, oyz⟩, ozx, ozy, hzz⟩

/-- The integral over the plane and the integral over a body can be exchanged. -/
theorem body_total {k : ℝ → ℝ × ℝ → ℝ} (hm : Measurable fun u : ℝ × ℝ × ℝ => k u.1 u.2) {S : Set (ℝ × ℝ × ℝ)} (hS : MeasurableSet S)
    (hv : volume S ≠ ⊤) (z : ℝ) {B : ℝ} (hk : ∀ q ∈ S, Integrable (k (q.2.2 - z)) ∧ ∫ w, ‖k (q.2.2 - z) w‖ ≤ B) :
    Integrable (fun w : ℝ × ℝ => ∫ q in S, k (q.2.2 - z) (w.1 - q.1, w.2 - q.2.1)) ∧
    ∫ w : ℝ × ℝ, ∫ q in S, k (q.2.2 - z) (w.1 - q.1, w.2 - q.2.1) = ∫ q in S, ∫ w, k (q.2.2 - z) w := by
  have hm2 : Measurable fun u : (ℝ × ℝ) × ℝ × ℝ × ℝ => k (u.2.2.2 - z) (u.1.1 - u.2.1, u.1.2 - u.2.2.1) := by
    have : Measurable fun u : (ℝ × ℝ) × ℝ × ℝ × ℝ => (u.2.2.2 - z, (u.1.1 - u.2.1, u.1.2 - u.2.2.1)) := by fun_prop
    exact hm.comp this
  have hfin : IsFiniteMeasure (volume.restrict S) := ⟨by rw [Measure.restrict_apply_univ]; exact hv.lt_top⟩
  have hi : Integrable (fun u : (ℝ × ℝ) × ℝ × ℝ × ℝ => k (u.2.2.2 - z) (u.1.1 - u.2.1, u.1.2 - u.2.2.1)) (volume.prod (volume.restrict S)) := by
    rw [integrable_prod_iff' hm2.aestronglyMeasurable]
    constructor
    · refine (ae_restrict_iff' hS).2 (Eventually.of_forall fun q hq => ?_)
      exact ((shift (k (q.2.2 - z)) q.1 q.2.1).1).2 (hk q hq).1
    · refine Integrable.mono' (integrable_const B) ?_ ?_
      · exact (hm2.norm.stronglyMeasurable.integral_prod_left' (μ := volume)).aestronglyMeasurable
      · refine (ae_restrict_iff' hS).2 (Eventually.of_forall fun q hq => ?_)
        rw [norm_of_nonneg (integral_nonneg fun _ => norm_nonneg _)]
        have := (shift (fun w => ‖k (q.2.2 - z) w‖) q.1 q.2.1).2
        simp only at this ⊢
        rw [this]
        exact (hk q hq).2
  refine ⟨hi.integral_prod_left, ?_⟩
  rw [integral_integral_swap hi]
  congr 1
  funext q
  exact (shift (k (q.2.2 - z)) q.1 q.2.1).2

theorem sub_len (q : ℝ × ℝ × ℝ) (w : ℝ × ℝ) (z : ℝ) :
    (vec q - (⟨w.1, w.2, z⟩ : V3 ℝ)).len = √((w.1 - q.1) ^ 2 + (w.2 - q.2.1) ^ 2 + (q.2.2 - z) ^ 2) := by
  simp only [V3.len, vec, V3.sub_x, V3.sub_y, V3.sub_z]
  congr 1; ring

theorem integral_sign (S : Set (ℝ × ℝ × ℝ)) (hv : volume S ≠ ⊤) (z : ℝ) :
    ∫ q in S, (q.2.2 - z) / |q.2.2 - z| = volume.real (S ∩ {q | z < q.2.2}) - volume.real (S ∩ {q | q.2.2 < z}) := by
  have m1 : MeasurableSet {q : ℝ × ℝ × ℝ | z < q.2.2} := measurableSet_lt (by fun_prop) (by fun_prop)
  have m2 : MeasurableSet {q : ℝ × ℝ × ℝ | q.2.2 < z} := measurableSet_lt (by fun_prop) (by fun_prop)
  have e : ∀ q : ℝ × ℝ × ℝ, (q.2.2 - z) / |q.2.2 - z| = indicator {q | z < q.2.2} (fun _ => (1 : ℝ)) q - indicator {q | q.2.2 < z} (fun _ => (1 : ℝ)) q := by
    intro q
    rcases lt_trichotomy q.2.2 z with h | h | h
    · rw [indicator_of_notMem (by simp [h.le]), indicator_of_mem (by simpa using h), abs_of_neg (by linarith), div_neg, div_self (by linarith)]
      norm_num
    · rw [indicator_of_notMem (by simp [h]), indicator_of_notMem (by simp [h]), h]
      simp
    · rw [indicator_of_mem (by simpa using h), indicator_of_notMem (by simp [h.le]), abs_of_pos (by linarith), div_self (by linarith)]
      norm_num
  have hfin : IsFiniteMeasure (volume.restrict S) := ⟨by rw [Measure.restrict_apply_univ]; exact hv.lt_top⟩
  simp only [e]
  rw [integral_sub ((integrable_const _).indicator m1) ((integrable_const _).indicator m2), setIntegral_indicator m1, setIntegral_indicator m2]
  simp

/-- The vertical attraction of a body adds up over a plane to `2π` times the volume above the plane less the volume below it. -/
theorem body_cube {S : Set (ℝ × ℝ × ℝ)} (hS : MeasurableSet S) (hv : volume S ≠ ⊤) (z : ℝ) :
    PlaneTotal (fun p => ∫ q in S, (q.2.2 - p.z) / (vec q - p).len ^ 3) z
      (2 * π * (volume.real (S ∩ {q | z < q.2.2}) - volume.real (S ∩ {q | q.2.2 < z}))) := by
  have hm : Measurable fun u : ℝ × ℝ × ℝ => (fun h (w : ℝ × ℝ) => h / √(w.1 ^ 2 + w.2 ^ 2 + h ^ 2) ^ 3) u.1 u.2 := by fun_prop
  have key : ∀ h : ℝ, Integrable (fun w : ℝ × ℝ => h / √(w.1 ^ 2 + w.2 ^ 2 + h ^ 2) ^ 3) ∧
      ∫ w : ℝ × ℝ, ‖h / √(w.1 ^ 2 + w.2 ^ 2 + h ^ 2) ^ 3‖ ≤ 2 * π ∧ ∫ w : ℝ × ℝ, h / √(w.1 ^ 2 + w.2 ^ 2 + h ^ 2) ^ 3 = 2 * π * (h / |h|) := by
    intro h
    by_cases hh : h = 0
    · subst hh
      simp [pi_pos.le]
    · refine ⟨(total_cube hh).1, ?_, (total_cube hh).2⟩
      have e : ∀ w : ℝ × ℝ, ‖h / √(w.1 ^ 2 + w.2 ^ 2 + h ^ 2) ^ 3‖ = |h| / √(w.1 ^ 2 + w.2 ^ 2 + |h| ^ 2) ^ 3 := fun w => by
        rw [norm_div, norm_eq_abs, norm_of_nonneg (by positivity), sq_abs]
      simp only [e]
      rw [(total_cube (abs_pos.2 hh).ne').2, abs_abs, div_self (abs_pos.2 hh).ne', mul_one]
  obtain ⟨h1, h2⟩ := body_total (k := fun h (w : ℝ × ℝ) => h / √(w.1 ^ 2 + w.2 ^ 2 + h ^ 2) ^ 3) hm hS hv z (B := 2 * π) fun q _ => ⟨(key _).1, (key _).2.1⟩
  simp only [PlaneTotal, sub_len]
  refine ⟨h1, h2.trans ?_⟩
  simp only [(key _).2.2, integral_const_mul, integral_sign S hv z]

theorem tidal_sub (q : ℝ × ℝ × ℝ) (w : ℝ × ℝ) (z : ℝ) :
    tidal (vec q - (⟨w.1, w.2, z⟩ : V3 ℝ)) = tidal ⟨w.1 - q.1, w.2 - q.2.1, -(q.2.2 - z)⟩ := by
  have hl : (vec q - (⟨w.1, w.2, z⟩ : V3 ℝ)).len = (⟨w.1 - q.1, w.2 - q.2.1, -(q.2.2 - z)⟩ : V3 ℝ).len := by
    rw [sub_len, len_mk, neg_sq]
  simp only [tidal, hl]
  generalize (⟨w.1 - q.1, w.2 - q.2.1, -(q.2.2 - z)⟩ : V3 ℝ).len = l
  simp only [vec, V3.sub_x, V3.sub_y, V3.sub_z]
  ext <;> simp only <;> ring

/-- The tidal tensor of a body that keeps a distance from the plane. -/
theorem body_tidal {S : Set (ℝ × ℝ × ℝ)} (hS : MeasurableSet S) (hv : volume S ≠ ⊤) {z δ : ℝ} (hδ : 0 < δ) (hd : ∀ q ∈ S, δ ≤ |q.2.2 - z|) :
    (PlaneTotal (fun p => ∫ q in S, (tidal (vec q - p)).x.x) z 0 ∧ PlaneTotal (fun p => ∫ q in S, (tidal (vec q - p)).x.y) z 0 ∧
      PlaneTotal (fun p => ∫ q in S, (tidal (vec q - p)).x.z) z 0) ∧
    (PlaneTotal (fun p => ∫ q in S, (tidal (vec q - p)).y.x) z 0 ∧ PlaneTotal (fun p => ∫ q in S, (tidal (vec q - p)).y.y) z 0 ∧
      PlaneTotal (fun p => ∫ q in S, (tidal (vec q - p)).y.z) z 0) ∧
    PlaneTotal (fun p => ∫ q in S, (tidal (vec q - p)).z.x) z 0 ∧ PlaneTotal (fun p => ∫ q in S, (tidal (vec q - p)).z.y) z 0 ∧
      PlaneTotal (fun p => ∫ q in S, (tidal (vec q - p)).z.z) z 0 := by
  have key : ∀ {k : ℝ → ℝ × ℝ → ℝ}, Measurable (fun u : ℝ × ℝ × ℝ => k u.1 u.2) →
      (∀ {h : ℝ} (w : ℝ × ℝ), h ≠ 0 → |k h w| ≤ 4 / |h| * |h / √(w.1 ^ 2 + w.2 ^ 2 + h ^ 2) ^ 3|) → (∀ {h : ℝ}, h ≠ 0 → ∫ w, k h w = 0) →
      Integrable (fun w : ℝ × ℝ => ∫ q in S, k (q.2.2 - z) (w.1 - q.1, w.2 - q.2.1)) ∧
      ∫ w : ℝ × ℝ, ∫ q in S, k (q.2.2 - z) (w.1 - q.1, w.2 - q.2.1) = 0 := by
    intro k hm hb h0
    have hne : ∀ q ∈ S, q.2.2 - z ≠ 0 := fun q hq => abs_pos.1 (lt_of_lt_of_le hδ (hd q hq))
    have hi : ∀ {h : ℝ}, h ≠ 0 → Integrable (k h) := fun {h} hh =>
      ((total_cube hh).1.norm.const_mul (4 / |h|)).mono' (hm.comp (measurable_const.prodMk measurable_id)).aestronglyMeasurable
        (Eventually.of_forall fun w => hb w hh)
    obtain ⟨h1, h2⟩ := body_total hm hS hv z (B := 8 * π / δ) fun q hq => ⟨hi (hne q hq), by
      have hh := hne q hq
      have ha := abs_pos.2 hh
      refine (integral_mono (hi hh).norm ((total_cube hh).1.norm.const_mul (4 / |q.2.2 - z|)) fun w => hb w hh).trans ?_
      have e : ∀ w : ℝ × ℝ, ‖(q.2.2 - z) / √(w.1 ^ 2 + w.2 ^ 2 + (q.2.2 - z) ^ 2) ^ 3‖ = |q.2.2 - z| / √(w.1 ^ 2 + w.2 ^ 2 + |q.2.2 - z| ^ 2) ^ 3 := fun w => by
        rw [norm_div, norm_eq_abs, norm_of_nonneg (by positivity), sq_abs]
      simp only [e]
      rw [integral_const_mul, (total_cube ha.ne').2, abs_abs, div_self ha.ne', mul_one]
      calc 4 / |q.2.2 - z| * (2 * π) = 8 * π / |q.2.2 - z| := by ring
        _ ≤ 8 * π / δ := div_le_div_of_nonneg_left (by positivity) hδ (hd q hq)⟩
    refine ⟨h1, h2.trans ?_⟩
    rw [setIntegral_congr_fun hS (g := fun _ => (0 : ℝ)) fun q hq => h0 (hne q hq)]
    simp
  have b := fun {h : ℝ} (w : ℝ × ℝ) (hh : h ≠ 0) => tidal_bounded (x := w.1) (y := w.2) (neg_ne_zero.2 hh)
  simp only [abs_neg, neg_sq, neg_div] at b
  have t := fun {h : ℝ} (hh : h ≠ 0) => tidal_total (neg_ne_zero.2 hh)
  have m : (Measurable (fun u : ℝ × ℝ × ℝ => (tidal ⟨u.2.1, u.2.2, -u.1⟩).x.x) ∧ Measurable (fun u : ℝ × ℝ × ℝ => (tidal ⟨u.2.1, u.2.2, -u.1⟩).x.y) ∧
      Measurable (fun u : ℝ × ℝ × ℝ => (tidal ⟨u.2.1, u.2.2, -u.1⟩).x.z)) ∧ (Measurable (fun u : ℝ × ℝ × ℝ => (tidal ⟨u.2.1, u.2.2, -u.1⟩).y.x) ∧
      Measurable (fun u : ℝ × ℝ × ℝ => (tidal ⟨u.2.1, u.2.2, -u.1⟩).y.y) ∧ Measurable (fun u : ℝ × ℝ × ℝ => (tidal ⟨u.2.1, u.2.2, -u.1⟩).y.z)) ∧
      Measurable (fun u : ℝ × ℝ × ℝ => (tidal ⟨u.2.1, u.2.2, -u.1⟩).z.x) ∧ Measurable (fun u : ℝ × ℝ × ℝ => (tidal ⟨u.2.1, u.2.2, -u.1⟩).z.y) ∧
      Measurable (fun u : ℝ × ℝ × ℝ => (tidal ⟨u.2.1, u.2.2, -u.1⟩).z.z) := by
    simp only [tidal, len_mk]
    refine ⟨⟨?_, ?_, ?_⟩, ⟨?_, ?_, ?_⟩, ?_, ?_, ?_⟩ <;> fun_prop
  obtain ⟨⟨m1, m2, m3⟩, ⟨m4, m5, m6⟩, m7, m8, m9⟩ := m
  simp only [PlaneTotal, tidal_sub]
  exact ⟨⟨key (k := fun h w => (tidal ⟨w.1, w.2, -h⟩).x.x) m1 (fun w hh => (b w hh).1.1) fun hh => (t hh).1.1,
      key (k := fun h w => (tidal ⟨w.1, w.2, -h⟩).x.y) m2 (fun w hh => (b w hh).1.2.1) fun hh => (t hh).1.2.1,
      key (k := fun h w => (tidal ⟨w.1, w.2, -h⟩).x.z) m3 (fun w hh => (b w hh).1.2.2) fun hh => (t hh).1.2.2⟩,
    ⟨key (k := fun h w => (tidal ⟨w.1, w.2, -h⟩).y.x) m4 (fun w hh => (b w hh).2.1.1) fun hh => (t hh).2.1.1,
      key (k := fun h w => (tidal ⟨w.1, w.2, -h⟩).y.y) m5 (fun w hh => (b w hh).2.1.2.1) fun hh => (t hh).2.1.2.1,
      key (k := fun h w => (tidal ⟨w.1, w.2, -h⟩).y.z) m6 (fun w hh => (b w hh).2.1.2.2) fun hh => (t hh).2.1.2.2⟩,
    key (k := fun h w => (tidal ⟨w.1, w.2, -h⟩).z.x) m7 (fun w hh => (b w hh).2.2.1) fun hh => (t hh).2.2.1,
    key (k := fun h w => (tidal ⟨w.1, w.2, -h⟩).z.y) m8 (fun w hh => (b w hh).2.2.2.1) fun hh => (t hh).2.2.2.1,
    key (k := fun h w => (tidal ⟨w.1, w.2, -h⟩).z.z) m9 (fun w hh => (b w hh).2.2.2.2) fun hh => (t hh).2.2.2.2⟩

end Verif.Plane
