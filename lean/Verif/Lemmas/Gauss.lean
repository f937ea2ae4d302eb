import Verif.Spec.Outflow
import Verif.Props.PrismPoisson
import Verif.Lemmas.PlaneTotal

/-! # Flow through rectangles (helper lemmas) -/

namespace Verif.Gauss

open Real MeasureTheory Set Filter Topology Prism

/-- The normal component of an inverse-square field on a plane at distance `h`. -/
noncomputable def ker (h x y : ℝ) : ℝ := h / √(x ^ 2 + y ^ 2 + h ^ 2) ^ 3

/-- The corners of a rectangle. -/
noncomputable def corners (a b c d h : ℝ) : ℝ := at' b d h - at' a d h - at' b c h + at' a c h

theorem rr_eq (x y h : ℝ) : √(x ^ 2 + y ^ 2 + h ^ 2) = rr x y h := by
  unfold rr; congr 1; ring

theorem at_zero (x y : ℝ) : at' x y 0 = 0 := by simp [at']

theorem ker_zero (x y : ℝ) : ker 0 x y = 0 := by simp [ker]

theorem continuous_ker {h : ℝ} (hh : h ≠ 0) : Continuous fun w : ℝ × ℝ => ker h w.1 w.2 := by
  unfold ker
  refine Continuous.div continuous_const (by fun_prop) fun w => ?_
  have : 0 < w.1 ^ 2 + w.2 ^ 2 + h ^ 2 := by positivity
  exact (pow_pos (sqrt_pos.2 this) 3).ne'

theorem deriv_first {h : ℝ} (hh : h ≠ 0) (x y : ℝ) : HasDerivAt (fun x => at' x y h) (y * h / (rr x y h * (x * x + h * h))) x :=
  (kgrad_at hh).dx

theorem deriv_second {h : ℝ} (hh : h ≠ 0) (x y : ℝ) : HasDerivAt (fun y => y * h / (rr x y h * (x * x + h * h))) (ker h x y) y := by
  have hr : 0 < rr x y h := rr_pos_of (Or.inr (Or.inr hh))
  have hd : HasDerivAt (fun y => rr x y h) (y / rr x y h) y := (kgrad_rr hr.ne').dy
  have hx : x * x + h * h ≠ 0 := sq_add_ne' hh x
  have hs := rr_sq x y h
  have hq := ((hasDerivAt_id y).mul_const h).fun_div (hd.mul_const (x * x + h * h)) (mul_ne_zero hr.ne' hx)
  refine hq.congr_deriv ?_
  rw [ker, rr_eq]
  simp only [id]
  generalize rr x y h = r at *
  have hxe : x * x + h * h = r ^ 2 - y ^ 2 := by rw [hs]; ring
  rw [hxe] at hx ⊢
  field_simp

theorem continuous_second {h : ℝ} (hh : h ≠ 0) (p e : ℝ) : Continuous fun x : ℝ => e * h / (rr (x - p) e h * ((x - p) * (x - p) + h * h)) := by
  refine Continuous.div continuous_const ?_ fun x => mul_ne_zero (rr_pos_of (Or.inr (Or.inr hh))).ne' (sq_add_ne' hh _)
  have : Continuous fun x : ℝ => rr (x - p) e h := by unfold rr; fun_prop
  fun_prop

theorem face_inner {h : ℝ} (hh : h ≠ 0) (p q x : ℝ) {c d : ℝ} (hcd : c ≤ d) : ∫ y in Icc c d, ker h (x - p) (y - q) =
      (d - q) * h / (rr (x - p) (d - q) h * ((x - p) * (x - p) + h * h)) - (c - q) * h / (rr (x - p) (c - q) h * ((x - p) * (x - p) + h * h)) := by
  rw [integral_Icc_eq_integral_Ioc, ← intervalIntegral.integral_of_le hcd]
  have hd : ∀ y ∈ uIcc c d, HasDerivAt (fun y => (y - q) * h / (rr (x - p) (y - q) h * ((x - p) * (x - p) + h * h))) (ker h (x - p) (y - q)) y :=
    fun y _ => (deriv_second hh (x - p) (y - q)).comp_sub_const y q
  refine intervalIntegral.integral_eq_sub_of_hasDerivAt hd ?_
  have hc : Continuous fun y : ℝ => ker h (x - p) (y - q) := by
    unfold ker
    refine Continuous.div continuous_const (by fun_prop) fun y => ?_
    have : 0 < (x - p) ^ 2 + (y - q) ^ 2 + h ^ 2 := by positivity
    exact (pow_pos (sqrt_pos.2 this) 3).ne'
  exact hc.intervalIntegrable _ _

theorem face_outer {h : ℝ} (hh : h ≠ 0) (p e : ℝ) {a b : ℝ} :
    ∫ x in a..b, e * h / (rr (x - p) e h * ((x - p) * (x - p) + h * h)) = at' (b - p) e h - at' (a - p) e h := by
  have hd : ∀ x ∈ uIcc a b, HasDerivAt (fun x => at' (x - p) e h) (e * h / (rr (x - p) e h * ((x - p) * (x - p) + h * h))) x :=
    fun x _ => (deriv_first hh (x - p) e).comp_sub_const x p
  exact intervalIntegral.integral_eq_sub_of_hasDerivAt hd ((continuous_second hh p e).intervalIntegrable _ _)

/-- The flow through a rectangle. -/
theorem face {h : ℝ} (p q : ℝ) {a b c d : ℝ} (hab : a ≤ b) (hcd : c ≤ d) :
    IntegrableOn (fun w : ℝ × ℝ => ker h (w.1 - p) (w.2 - q)) (Icc a b ×ˢ Icc c d) ∧
    ∫ w in Icc a b ×ˢ Icc c d, ker h (w.1 - p) (w.2 - q) = corners (a - p) (b - p) (c - q) (d - q) h := by
  by_cases hh : h = 0
  · subst hh
    simp [ker_zero, corners, at_zero]
  have hc : Continuous fun w : ℝ × ℝ => ker h (w.1 - p) (w.2 - q) := by
    unfold ker
    refine Continuous.div continuous_const (by fun_prop) fun w => ?_
    have : 0 < (w.1 - p) ^ 2 + (w.2 - q) ^ 2 + h ^ 2 := by positivity
    exact (pow_pos (sqrt_pos.2 this) 3).ne'
  have hi : IntegrableOn (fun w : ℝ × ℝ => ker h (w.1 - p) (w.2 - q)) (Icc a b ×ˢ Icc c d) :=
    hc.continuousOn.integrableOn_compact (isCompact_Icc.prod isCompact_Icc)
  refine ⟨hi, ?_⟩
  rw [Measure.volume_eq_prod] at hi ⊢
  rw [setIntegral_prod _ hi]
  simp only [face_inner hh p q _ hcd]
  rw [integral_Icc_eq_integral_Ioc, ← intervalIntegral.integral_of_le hab,
    intervalIntegral.integral_sub ((continuous_second hh p _).intervalIntegrable _ _) ((continuous_second hh p _).intervalIntegrable _ _),
    face_outer hh, face_outer hh]
  simp only [corners]
  ring

theorem at_bound (x y h : ℝ) : |at' x y h| ≤ π / 2 := by
  unfold at'
  rw [abs_le]
  exact ⟨(neg_pi_div_two_lt_arctan _).le, (arctan_lt_pi_div_two _).le⟩

theorem corners_bound (a b c d h : ℝ) : |corners a b c d h| ≤ 2 * π := by
  have h1 := abs_le.1 (at_bound b d h)
  have h2 := abs_le.1 (at_bound a d h)
  have h3 := abs_le.1 (at_bound b c h)
  have h4 := abs_le.1 (at_bound a c h)
  rw [corners, abs_le]
  constructor <;> linarith [h1.1, h1.2, h2.1, h2.2, h3.1, h3.2, h4.1, h4.2]

theorem norm_ker (h x y : ℝ) : ‖ker h x y‖ = ker |h| x y := by
  rw [ker, ker, norm_div, norm_eq_abs, norm_of_nonneg (by positivity), sq_abs]

/-- The flow through a rectangle of a body's inverse-square field. -/
theorem body_face {S : Set (ℝ × ℝ × ℝ)} (hv : volume S ≠ ⊤) {A B C : ℝ × ℝ × ℝ → ℝ} (hA : Measurable A) (hB : Measurable B)
    (hC : Measurable C) {a b c d : ℝ} (hab : a ≤ b) (hcd : c ≤ d) :
    IntegrableOn (fun w : ℝ × ℝ => ∫ s in S, ker (C s) (w.1 - A s) (w.2 - B s)) (Icc a b ×ˢ Icc c d) ∧
    IntegrableOn (fun s => corners (a - A s) (b - A s) (c - B s) (d - B s) (C s)) S ∧
    ∫ w in Icc a b ×ˢ Icc c d, ∫ s in S, ker (C s) (w.1 - A s) (w.2 - B s) = ∫ s in S, corners (a - A s) (b - A s) (c - B s) (d - B s) (C s) := by
  have hm : Measurable fun u : (ℝ × ℝ) × ℝ × ℝ × ℝ => ker (C u.2) (u.1.1 - A u.2) (u.1.2 - B u.2) := by
    unfold ker
    fun_prop
  have hfin : IsFiniteMeasure (volume.restrict S) := ⟨by rw [Measure.restrict_apply_univ]; exact hv.lt_top⟩
  have hi : Integrable (fun u : (ℝ × ℝ) × ℝ × ℝ × ℝ => ker (C u.2) (u.1.1 - A u.2) (u.1.2 - B u.2))
      ((volume.restrict (Icc a b ×ˢ Icc c d)).prod (volume.restrict S)) := by
    rw [integrable_prod_iff' hm.aestronglyMeasurable]
    constructor
    · exact Eventually.of_forall fun s => (face (h := C s) (A s) (B s) hab hcd).1
    · refine Integrable.mono' (integrable_const (2 * π)) ?_ ?_
      · exact (hm.norm.stronglyMeasurable.integral_prod_left' (μ := volume.restrict (Icc a b ×ˢ Icc c d))).aestronglyMeasurable
      · refine Eventually.of_forall fun s => ?_
        rw [norm_of_nonneg (integral_nonneg fun _ => norm_nonneg _)]
        simp only [norm_ker]
        rw [(face (h := |C s|) (A s) (B s) hab hcd).2]
        exact (le_abs_self _).trans (corners_bound _ _ _ _ _)
  have e : ∀ s, ∫ w in Icc a b ×ˢ Icc c d, ker (C s) (w.1 - A s) (w.2 - B s) = corners (a - A s) (b - A s) (c - B s) (d - B s) (C s) :=
    fun s => (face (h := C s) (A s) (B s) hab hcd).2
  refine ⟨hi.integral_prod_left, ?_, ?_⟩
  · have := hi.integral_prod_right
    simp only [e] at this
    exact this
  · rw [integral_integral_swap hi]
    simp only [e]

theorem fzz_all (x y z : ℝ) : Py.prismFzz x y z = at' x y z := by
  by_cases h : z = 0
  · subst h
    rw [at_zero]
    simp [Py.prismFzz]
  · exact prismFzz_eq h

theorem corners_swap (a b c d h : ℝ) : corners a b c d h = corners c d a b h := by
  simp only [corners]
  rw [at_swap d b, at_swap d a, at_swap c b, at_swap c a]
  ring

/-- The six faces around a point. -/
noncomputable def six (lo hi : V3 ℝ) (x y z : ℝ) : ℝ :=
  corners (lo.y - y) (hi.y - y) (lo.z - z) (hi.z - z) (hi.x - x) - corners (lo.y - y) (hi.y - y) (lo.z - z) (hi.z - z) (lo.x - x) +
  (corners (lo.x - x) (hi.x - x) (lo.z - z) (hi.z - z) (hi.y - y) - corners (lo.x - x) (hi.x - x) (lo.z - z) (hi.z - z) (lo.y - y)) +
  (corners (lo.x - x) (hi.x - x) (lo.y - y) (hi.y - y) (hi.z - z) - corners (lo.x - x) (hi.x - x) (lo.y - y) (hi.y - y) (lo.z - z))

theorem six_eq {lo hi : V3 ℝ} (hb : (⟨lo, hi⟩ : Box).Proper) (x y z : ℝ) :
    six lo hi x y z = 4 * π * (cover lo.x hi.x x * cover lo.y hi.y y * cover lo.z hi.z z) := by
  have h := sum_fzz ⟨lo, hi⟩ hb ⟨x, y, z⟩
  rw [evalDefInt_cycle1, evalDefInt_cycle2] at h
  simp only [Box.evalDefInt, cycleN, fzz_all] at h
  rw [← h, six, corners_swap (lo.x - x) _ (lo.z - z), corners_swap (lo.x - x) _ (lo.z - z)]
  simp only [corners]
  ring

/-- The flow of the inverse-square field of a point. -/
theorem point_outflow {lo hi : V3 ℝ} (hb : (⟨lo, hi⟩ : Box).Proper) (l : V3 ℝ) (k : ℝ) {F : V3 ℝ → V3 ℝ}
    (hF : ∀ p, F p = (k / (p - l).len ^ 3) • (p - l)) :
    Outflow F lo hi (4 * π * k * (cover lo.x hi.x l.x * cover lo.y hi.y l.y * cover lo.z hi.z l.z)) := by
  obtain ⟨hx, hy, hz⟩ := hb
  have ex : ∀ (x : ℝ) (w : ℝ × ℝ), (F ⟨x, w.1, w.2⟩).x = k * ker (x - l.x) (w.1 - l.y) (w.2 - l.z) := fun x w => by
    simp only [hF, V3.smul_x, V3.len, V3.sub_x, V3.sub_y, V3.sub_z, smul_eq_mul, ker]
    rw [show (w.1 - l.y) ^ 2 + (w.2 - l.z) ^ 2 + (x - l.x) ^ 2 = (x - l.x) ^ 2 + (w.1 - l.y) ^ 2 + (w.2 - l.z) ^ 2 by ring]
    ring
  have ey : ∀ (y : ℝ) (w : ℝ × ℝ), (F ⟨w.1, y, w.2⟩).y = k * ker (y - l.y) (w.1 - l.x) (w.2 - l.z) := fun y w => by
    simp only [hF, V3.smul_y, V3.len, V3.sub_x, V3.sub_y, V3.sub_z, smul_eq_mul, ker]
    rw [show (w.1 - l.x) ^ 2 + (w.2 - l.z) ^ 2 + (y - l.y) ^ 2 = (w.1 - l.x) ^ 2 + (y - l.y) ^ 2 + (w.2 - l.z) ^ 2 by ring]
    ring
  have ez : ∀ (z : ℝ) (w : ℝ × ℝ), (F ⟨w.1, w.2, z⟩).z = k * ker (z - l.z) (w.1 - l.x) (w.2 - l.y) := fun z w => by
    simp only [hF, V3.smul_z, V3.len, V3.sub_x, V3.sub_y, V3.sub_z, smul_eq_mul, ker]
    ring
  simp only [Outflow, ex, ey, ez, integral_const_mul]
  refine ⟨fun x _ => (face _ _ hy.le hz.le).1.const_mul k, fun y _ => (face _ _ hx.le hz.le).1.const_mul k,
    fun z _ => (face _ _ hx.le hy.le).1.const_mul k, ?_⟩
  simp only at hx hy hz
  rw [(face _ _ hy.le hz.le).2, (face _ _ hy.le hz.le).2, (face _ _ hx.le hz.le).2, (face _ _ hx.le hz.le).2, (face _ _ hx.le hy.le).2,
    (face _ _ hx.le hy.le).2]
  have := six_eq ⟨hx, hy, hz⟩ l.x l.y l.z
  rw [six] at this
  linear_combination k * this

/-- The covers are the indicator of the box up to its faces. -/
theorem integral_cover (S : Set (ℝ × ℝ × ℝ)) (lo hi : V3 ℝ) :
    ∫ q in S, cover lo.x hi.x q.1 * cover lo.y hi.y q.2.1 * cover lo.z hi.z q.2.2 = volume.real (S ∩ (⟨lo, hi⟩ : Box).points) := by
  have hm : MeasurableSet (⟨lo, hi⟩ : Box).points := measurableSet_Ioc.prod (measurableSet_Ioc.prod measurableSet_Ioc)
  have ax : ∀ t : ℝ, ∀ᵐ q : ℝ × ℝ × ℝ, q.1 ≠ t := fun t => by
    rw [ae_iff]
    have e : {q : ℝ × ℝ × ℝ | ¬ q.1 ≠ t} = {t} ×ˢ Set.univ := by ext q; simp
    rw [e, Measure.volume_eq_prod, Measure.prod_prod]
    simp
  have ay : ∀ t : ℝ, ∀ᵐ q : ℝ × ℝ × ℝ, q.2.1 ≠ t := fun t => by
    rw [ae_iff]
    have e : {q : ℝ × ℝ × ℝ | ¬ q.2.1 ≠ t} = Set.univ ×ˢ {t} ×ˢ Set.univ := by ext q; simp
    rw [e, Measure.volume_eq_prod, Measure.prod_prod, Measure.volume_eq_prod, Measure.prod_prod]
    simp
  have az : ∀ t : ℝ, ∀ᵐ q : ℝ × ℝ × ℝ, q.2.2 ≠ t := fun t => by
    rw [ae_iff]
    have e : {q : ℝ × ℝ × ℝ | ¬ q.2.2 ≠ t} = Set.univ ×ˢ Set.univ ×ˢ {t} := by ext q; simp
    rw [e, Measure.volume_eq_prod, Measure.prod_prod, Measure.volume_eq_prod, Measure.prod_prod]
    simp
  have c1 : ∀ {a b t : ℝ}, t ≠ a → t ≠ b → cover a b t = if t ∈ Ioc a b then 1 else 0 := by
    intro a b t h1 h2
    unfold cover
    by_cases h : t ∈ Ioc a b
    · rw [if_pos ⟨h.1, lt_of_le_of_ne h.2 h2⟩, if_pos h]
    · rw [if_neg (fun h' => h ⟨h'.1, h'.2.le⟩), if_neg (by simp [h1, h2]), if_neg h]
  have e : ∀ᵐ q : ℝ × ℝ × ℝ, cover lo.x hi.x q.1 * cover lo.y hi.y q.2.1 * cover lo.z hi.z q.2.2 =
      indicator (⟨lo, hi⟩ : Box).points (fun _ => (1 : ℝ)) q := by
    filter_upwards [ax lo.x, ax hi.x, ay lo.y, ay hi.y, az lo.z, az hi.z] with q h1 h2 h3 h4 h5 h6
    rw [c1 h1 h2, c1 h3 h4, c1 h5 h6]
    by_cases a1 : q.1 ∈ Ioc lo.x hi.x
    · by_cases a2 : q.2.1 ∈ Ioc lo.y hi.y
      · by_cases a3 : q.2.2 ∈ Ioc lo.z hi.z
        · rw [if_pos a1, if_pos a2, if_pos a3, indicator_of_mem (show q ∈ (⟨lo, hi⟩ : Box).points from ⟨a1, a2, a3⟩)]
          norm_num
        · rw [if_neg a3, indicator_of_notMem (show q ∉ (⟨lo, hi⟩ : Box).points from fun h => a3 h.2.2), mul_zero]
      · rw [if_neg a2, indicator_of_notMem (show q ∉ (⟨lo, hi⟩ : Box).points from fun h => a2 h.2.1), mul_zero, zero_mul]
    · rw [if_neg a1, indicator_of_notMem (show q ∉ (⟨lo, hi⟩ : Box).points from fun h => a1 h.1), zero_mul, zero_mul]
  rw [integral_congr_ae (ae_restrict_of_ae e), setIntegral_indicator hm]
  simp

/-- The flow of the inverse-square field of a body. -/
theorem body_outflow {S : Set (ℝ × ℝ × ℝ)} (hv : volume S ≠ ⊤) {lo hi : V3 ℝ} (hb : (⟨lo, hi⟩ : Box).Proper) (k : ℝ)
    {F : V3 ℝ → V3 ℝ} (hF : ∀ p, F p = ⟨k * ∫ q in S, (p.x - q.1) / (p - vec q).len ^ 3, k * ∫ q in S, (p.y - q.2.1) / (p - vec q).len ^ 3,
      k * ∫ q in S, (p.z - q.2.2) / (p - vec q).len ^ 3⟩) :
    Outflow F lo hi (4 * π * k * volume.real (S ∩ (⟨lo, hi⟩ : Box).points)) := by
  obtain ⟨hx, hy, hz⟩ := hb
  simp only at hx hy hz
  have ex : ∀ (x : ℝ) (w : ℝ × ℝ), (F ⟨x, w.1, w.2⟩).x = k * ∫ q in S, ker (x - q.1) (w.1 - q.2.1) (w.2 - q.2.2) := fun x w => by
    simp only [hF, V3.len, V3.sub_x, V3.sub_y, V3.sub_z, vec, ker]
    congr 2
    funext q
    congr 3
    ring
  have ey : ∀ (y : ℝ) (w : ℝ × ℝ), (F ⟨w.1, y, w.2⟩).y = k * ∫ q in S, ker (y - q.2.1) (w.1 - q.1) (w.2 - q.2.2) := fun x w => by
    simp only [hF, V3.len, V3.sub_x, V3.sub_y, V3.sub_z, vec, ker]
    congr 2
    funext q
    congr 3
    ring
  have ez : ∀ (z : ℝ) (w : ℝ × ℝ), (F ⟨w.1, w.2, z⟩).z = k * ∫ q in S, ker (z - q.2.2) (w.1 - q.1) (w.2 - q.2.1) := fun x w => by
    simp only [hF, V3.len, V3.sub_x, V3.sub_y, V3.sub_z, vec, ker]
  have fx := fun x => body_face hv (A := fun q => q.2.1) (B := fun q => q.2.2) (C := fun q => x - q.1) (by fun_prop) (by fun_prop) (by fun_prop) hy.le hz.le
  have fy := fun y => body_face hv (A := fun q => q.1) (B := fun q => q.2.2) (C := fun q => y - q.2.1) (by fun_prop) (by fun_prop) (by fun_prop) hx.le hz.le
  have fz := fun z => body_face hv (A := fun q => q.1) (B := fun q => q.2.1) (C := fun q => z - q.2.2) (by fun_prop) (by fun_prop) (by fun_prop) hx.le hy.le
  simp only [Outflow, ex, ey, ez, integral_const_mul]
  refine ⟨fun x _ => (fx x).1.const_mul k, fun y _ => (fy y).1.const_mul k, fun z _ => (fz z).1.const_mul k, ?_⟩
  rw [(fx _).2.2, (fx _).2.2, (fy _).2.2, (fy _).2.2, (fz _).2.2, (fz _).2.2]
  have i1 := (fx hi.x).2.1.sub (fx lo.x).2.1
  have i2 := (fy hi.y).2.1.sub (fy lo.y).2.1
  have i3 := (fz hi.z).2.1.sub (fz lo.z).2.1
  have hsum : ∫ q in S, six lo hi q.1 q.2.1 q.2.2 = 4 * π * volume.real (S ∩ (⟨lo, hi⟩ : Box).points) := by
    simp only [six_eq ⟨hx, hy, hz⟩]
    rw [integral_const_mul, integral_cover S]
  have hsplit := integral_add' (i1.add i2) i3
  rw [integral_add' i1 i2] at hsplit
  simp only [Pi.add_apply, Pi.sub_apply] at hsplit
  rw [integral_sub (fx hi.x).2.1 (fx lo.x).2.1, integral_sub (fy hi.y).2.1 (fy lo.y).2.1, integral_sub (fz hi.z).2.1 (fz lo.z).2.1] at hsplit
  simp only [six] at hsum
  rw [hsplit] at hsum
  linear_combination k * hsum

end Verif.Gauss
