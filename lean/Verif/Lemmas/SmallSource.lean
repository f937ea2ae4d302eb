import Verif.Lemmas.FarField
import Verif.Lemmas.Neumann
import Mathlib.Analysis.SpecialFunctions.Integrals.Basic

/-! # How the fields of wires change when the wire shrinks (helper lemmas) -/

namespace Verif.FarField

open V3

theorem abs_dot_le (a b : V3 ℝ) : |a.dot b| ≤ a.len * b.len := by
  rw [abs_le]
  refine ⟨?_, dot_le_len a b⟩
  have h := dot_le_len (-a) b
  have e : (-a).dot b = -a.dot b := by simp only [dot, neg_x, neg_y, neg_z]; ring
  rw [len_neg, e] at h
  linarith

theorem len_cross_le (a b : V3 ℝ) : (a.cross b).len ≤ a.len * b.len := by
  rw [len_le_iff (mul_nonneg (len_nonneg _) (len_nonneg _)), cross_dot_self, dot_self, dot_self, mul_pow]
  nlinarith [sq_nonneg (a.dot b)]

/-- `d/|d|³` -/
noncomputable def newton (d : V3 ℝ) : V3 ℝ := (1 / d.len ^ 3) • d

/-- The derivative of `d/|d|³` at `b` in the direction `e`. -/
noncomputable def newtonDeriv (b e : V3 ℝ) : V3 ℝ := (1 / b.len ^ 3) • e - (3 * b.dot e / b.len ^ 5) • b

namespace Near

variable {a b : V3 ℝ} {m δ : ℝ}

/-- `d/|d|³` changes little. -/
theorem newton_first (h : Near a b m δ) : (newton a - newton b).len ≤ 4 * δ / m ^ 3 := by
  have ha := h.apos
  have hb := h.bpos
  have hA := one_div_pos.2 ha
  have hB := one_div_pos.2 hb
  have hm := one_div_pos.2 h.pos
  have hd := h.dnn
  have e : newton a - newton b = (1 / a.len ^ 3) • (a - b) + (1 / a.len ^ 3 - 1 / b.len ^ 3) • b := by
    simp only [newton]; module
  rw [e]
  refine (len_add_le _ _).trans ?_
  rw [len_smul, len_smul, abs_of_pos (by positivity)]
  have h1 : 1 / a.len ^ 3 * (a - b).len ≤ (1 / m) ^ 3 * δ := by
    rw [← one_div_pow]
    exact mul_le_mul (pow_le_pow_left₀ hA.le h.inv_a 3) h.diff (len_nonneg _) (by positivity)
  have h2 : |1 / a.len ^ 3 - 1 / b.len ^ 3| * b.len ≤ 3 * (δ * (1 / m) ^ 3) := by
    have e2 : 1 / a.len ^ 3 - 1 / b.len ^ 3 =
        (1 / a.len - 1 / b.len) * ((1 / a.len) ^ 2 + 1 / a.len * (1 / b.len) + (1 / b.len) ^ 2) := by
      field_simp
      ring
    have h3 : (1 / a.len) ^ 2 + 1 / a.len * (1 / b.len) + (1 / b.len) ^ 2 ≤ 3 * (1 / m) ^ 2 := by
      have h2 := pow_le_pow_left₀ hA.le h.inv_a 2
      have h3 := pow_le_pow_left₀ hB.le h.inv_b 2
      have h4 := mul_le_mul h.inv_a h.inv_b hB.le hm.le
      nlinarith
    rw [e2, abs_mul, abs_of_pos (by positivity : 0 < (1 / a.len) ^ 2 + 1 / a.len * (1 / b.len) + (1 / b.len) ^ 2)]
    have h5 : |1 / a.len - 1 / b.len| * b.len ≤ δ * (1 / m) := by
      calc _ ≤ δ * (1 / a.len) * (1 / b.len) * b.len := mul_le_mul_of_nonneg_right h.inv_sub (len_nonneg _)
        _ = δ * (1 / a.len) := by field_simp
        _ ≤ _ := mul_le_mul_of_nonneg_left h.inv_a hd
    calc _ = (|1 / a.len - 1 / b.len| * b.len) * ((1 / a.len) ^ 2 + 1 / a.len * (1 / b.len) + (1 / b.len) ^ 2) := by ring
      _ ≤ δ * (1 / m) * (3 * (1 / m) ^ 2) := mul_le_mul h5 h3 (by positivity) (by positivity)
      _ = _ := by ring
  have e3 : 4 * δ / m ^ 3 = 4 * (δ * (1 / m) ^ 3) := by field_simp
  rw [e3]
  linarith

/-- `d/|d|³` up to second order. -/
theorem newton_second (h : Near a b m δ) : (newton a - newton b - newtonDeriv b (a - b)).len ≤ 12 * δ ^ 2 / m ^ 4 := by
  have ha := h.apos
  have hb := h.bpos
  have hA := one_div_pos.2 ha
  have hB := one_div_pos.2 hb
  have hm := one_div_pos.2 h.pos
  have hd := h.dnn
  have hs := h.second_order
  have hx := (abs_len_sub_le a b).trans h.diff
  have e : newton a - newton b - newtonDeriv b (a - b) = (1 / a.len ^ 3 - 1 / b.len ^ 3) • (a - b) +
      (1 / a.len ^ 3 - 1 / b.len ^ 3 + 3 * b.dot (a - b) / b.len ^ 5) • b := by
    simp only [newton, newtonDeriv]; module
  rw [e]
  refine (len_add_le _ _).trans ?_
  rw [len_smul, len_smul]
  have h1 : |1 / a.len ^ 3 - 1 / b.len ^ 3| * (a - b).len ≤ 3 * δ / m ^ 4 * δ :=
    mul_le_mul h.cube_sub h.diff (len_nonneg _) (div_nonneg (by linarith) (pow_nonneg h.pos.le 4))
  have h2 : |1 / a.len ^ 3 - 1 / b.len ^ 3 + 3 * b.dot (a - b) / b.len ^ 5| * b.len ≤ 9 * (δ ^ 2 * (1 / m) ^ 4) := by
    have e2 : (1 / a.len ^ 3 - 1 / b.len ^ 3 + 3 * b.dot (a - b) / b.len ^ 5) * b.len =
        3 * (1 / b.len) * (1 / a.len - 1 / b.len + b.dot (a - b) / b.len ^ 3) +
          (a.len - b.len) ^ 2 * ((1 / a.len) ^ 3 * (1 / b.len) + 2 * ((1 / a.len) ^ 2 * (1 / b.len) ^ 2)) := by
      generalize b.dot (a - b) = s
      generalize a.len = A at *
      generalize b.len = B at *
      field_simp
      ring
    have e3 : |1 / a.len ^ 3 - 1 / b.len ^ 3 + 3 * b.dot (a - b) / b.len ^ 5| * b.len =
        |(1 / a.len ^ 3 - 1 / b.len ^ 3 + 3 * b.dot (a - b) / b.len ^ 5) * b.len| := by rw [abs_mul, abs_of_pos hb]
    rw [e3, e2]
    refine (abs_add_le _ _).trans ?_
    have g1 : |3 * (1 / b.len) * (1 / a.len - 1 / b.len + b.dot (a - b) / b.len ^ 3)| ≤ 3 * (1 / m) * (2 * δ ^ 2 / m ^ 3) := by
      rw [abs_mul, abs_of_pos (by positivity : 0 < 3 * (1 / b.len))]
      exact mul_le_mul (by linarith [h.inv_b]) hs (abs_nonneg _) (by positivity)
    have hsq : (a.len - b.len) ^ 2 ≤ δ ^ 2 := by rw [← sq_abs]; exact pow_le_pow_left₀ (abs_nonneg _) hx 2
    have g2 : (1 / a.len) ^ 3 * (1 / b.len) + 2 * ((1 / a.len) ^ 2 * (1 / b.len) ^ 2) ≤ 3 * (1 / m) ^ 4 := by
      have i1 := mul_le_mul (pow_le_pow_left₀ hA.le h.inv_a 3) h.inv_b hB.le (by positivity)
      have i2 := mul_le_mul (pow_le_pow_left₀ hA.le h.inv_a 2) (pow_le_pow_left₀ hB.le h.inv_b 2) (by positivity) (by positivity)
      nlinarith
    have g3 : |(a.len - b.len) ^ 2 * ((1 / a.len) ^ 3 * (1 / b.len) + 2 * ((1 / a.len) ^ 2 * (1 / b.len) ^ 2))| ≤ δ ^ 2 * (3 * (1 / m) ^ 4) := by
      rw [abs_of_nonneg (by positivity)]
      exact mul_le_mul hsq g2 (by positivity) (by positivity)
    have e4 : 3 * (1 / m) * (2 * δ ^ 2 / m ^ 3) = 6 * (δ ^ 2 * (1 / m) ^ 4) := by
      have := h.pos.ne'
      field_simp
      ring
    linarith
  have e5 : 12 * δ ^ 2 / m ^ 4 = 12 * (δ ^ 2 * (1 / m) ^ 4) := by
    field_simp
  have e6 : 3 * δ / m ^ 4 * δ = 3 * (δ ^ 2 * (1 / m) ^ 4) := by
    field_simp
  rw [e5]
  linarith

end Near

end Verif.FarField

namespace Verif.WireIntegral

open V3 FarField

namespace Curve

variable (c : Curve) (o : V3 ℝ)

/-- `∫ w · dl` -/
noncomputable def mom0 (w : V3 ℝ) : ℝ := ∫ t in c.lo..c.hi, w.dot (c.T t)

/-- `∫ (u · (s - o)) (w · dl)` -/
noncomputable def mom1 (u w : V3 ℝ) : ℝ := ∫ t in c.lo..c.hi, u.dot (c.P t - o) * w.dot (c.T t)

/-- `∫ w · (dl × (s - o))` -/
noncomputable def mom2 (w : V3 ℝ) : ℝ := ∫ t in c.lo..c.hi, w.dot ((c.T t).cross (c.P t - o))

/-- The piece is within `δ` of `o`, and its tangent is at most `τ` long. -/
structure Small (δ τ : ℝ) : Prop where
  near : ∀ t, c.lo ≤ t → t ≤ c.hi → (c.P t - o).len ≤ δ
  speed : ∀ t, c.lo ≤ t → t ≤ c.hi → (c.T t).len ≤ τ

end Curve

variable {c : Curve} {o q : V3 ℝ} {δ τ : ℝ}

theorem Curve.Small.near_of (h : c.Small o δ τ) (hq : δ < (q - o).len) {t : ℝ} (h0 : c.lo ≤ t) (h1 : t ≤ c.hi) :
    Near (q - c.P t) (q - o) ((q - o).len - δ) δ := by
  have hd := h.near t h0 h1
  have e : q - c.P t - (q - o) = -(c.P t - o) := by abel
  have hn : 0 ≤ δ := (len_nonneg _).trans hd
  refine ⟨by linarith, ?_, by linarith, by rw [e, len_neg]; exact hd⟩
  have := abs_len_sub_le (q - o) (q - c.P t)
  rw [show q - o - (q - c.P t) = c.P t - o by abel] at this
  have := (abs_le.1 (this.trans hd)).2
  linarith

theorem Curve.Good.integral_bound (hc : c.Good) {f g : ℝ → ℝ} (hf : ContinuousOn f (Set.Icc c.lo c.hi)) (hg : ContinuousOn g (Set.Icc c.lo c.hi))
    {C : ℝ} (h : ∀ t, c.lo ≤ t → t ≤ c.hi → |f t - g t| ≤ C) :
    |(∫ t in c.lo..c.hi, f t) - ∫ t in c.lo..c.hi, g t| ≤ C * (c.hi - c.lo) := by
  have k : ∀ {g : ℝ → ℝ}, ContinuousOn g (Set.Icc c.lo c.hi) → IntervalIntegrable g MeasureTheory.volume c.lo c.hi := fun h =>
    (h.mono (by rw [Set.uIcc_of_le hc.le])).intervalIntegrable
  rw [← intervalIntegral.integral_sub (k hf) (k hg)]
  have := intervalIntegral.norm_integral_le_of_norm_le_const (f := fun t => f t - g t) (C := C) (a := c.lo) (b := c.hi) fun t ht => by
    rw [Set.uIoc_of_le hc.le] at ht
    exact h t ht.1.le ht.2
  rwa [abs_of_nonneg (sub_nonneg.2 hc.le)] at this

theorem Curve.Good.cont_dot (hc : c.Good) (w : V3 ℝ) : Continuous fun t => w.dot (c.T t) := by
  have := hc.tx; have := hc.ty; have := hc.tz
  simp only [V3.dot]
  fun_prop

theorem Curve.Good.cont_pos (hc : c.Good) (u : V3 ℝ) : Continuous fun t => u.dot (c.P t - o) := by
  have := hc.px; have := hc.py; have := hc.pz
  simp only [V3.dot, sub_x, sub_y, sub_z]
  fun_prop

theorem Curve.Good.cont_ang (hc : c.Good) (w : V3 ℝ) : Continuous fun t => w.dot ((c.T t).cross (c.P t - o)) := by
  have := hc.px; have := hc.py; have := hc.pz
  have := hc.tx; have := hc.ty; have := hc.tz
  simp only [V3.dot, cross_x, cross_y, cross_z, sub_x, sub_y, sub_z]
  fun_prop

theorem Curve.Small.ne (h : c.Small o δ τ) (hq : δ < (q - o).len) (t : ℝ) (h0 : c.lo ≤ t) (h1 : t ≤ c.hi) : q ≠ c.P t := fun e => by
  have := (h.near_of hq h0 h1).apos
  rw [e, sub_self] at this
  simp [V3.len] at this

theorem Curve.Good.continuousOn_flux (hc : c.Good) (h : c.Small o δ τ) (hq : δ < (q - o).len) (w : V3 ℝ) :
    ContinuousOn (fun t => w.dot ((c.T t).cross (q - c.P t)) / (q - c.P t).len ^ 3) (Set.Icc c.lo c.hi) := by
  have := hc.px; have := hc.py; have := hc.pz
  have := hc.tx; have := hc.ty; have := hc.tz
  refine ContinuousOn.div (Continuous.continuousOn ?_) ((hc.len c q).pow 3).continuousOn fun t ht =>
    pow_ne_zero 3 (h.near_of hq ht.1 ht.2).apos.ne'
  simp only [V3.dot, cross_x, cross_y, cross_z, sub_x, sub_y, sub_z]
  fun_prop

/-- The potential of a small piece of wire. -/
theorem Curve.Good.pot_far (hc : c.Good) (h : c.Small o δ τ) (hq : δ < (q - o).len) (w : V3 ℝ) :
    |w.dot (c.pot q) - (c.mom0 w / (q - o).len + c.mom1 o (q - o) w / (q - o).len ^ 3)| ≤
      w.len * τ * (2 * δ ^ 2 / ((q - o).len - δ) ^ 3) * (c.hi - c.lo) := by
  have hT := hc.cont_dot w
  have hP := hc.cont_pos (o := o) (q - o)
  have i1 : IntervalIntegrable (fun t => w.dot (c.T t) / (q - o).len) MeasureTheory.volume c.lo c.hi :=
    Continuous.intervalIntegrable (by fun_prop) _ _
  have i2 : IntervalIntegrable (fun t => (q - o).dot (c.P t - o) * w.dot (c.T t) / (q - o).len ^ 3) MeasureTheory.volume c.lo c.hi :=
    Continuous.intervalIntegrable (by fun_prop) _ _
  rw [hc.dot_pot (h.ne hq), mom0, mom1, ← intervalIntegral.integral_div, ← intervalIntegral.integral_div, ← intervalIntegral.integral_add i1 i2]
  refine hc.integral_bound (ContinuousOn.div hT.continuousOn (hc.len c q).continuousOn fun t ht => (h.near_of hq ht.1 ht.2).apos.ne')
    (Continuous.continuousOn (by fun_prop)) fun t h0 h1 => ?_
  have hn := h.near_of hq h0 h1
  have e : w.dot (c.T t) / (q - c.P t).len - (w.dot (c.T t) / (q - o).len + (q - o).dot (c.P t - o) * w.dot (c.T t) / (q - o).len ^ 3) =
      w.dot (c.T t) * (1 / (q - c.P t).len - 1 / (q - o).len + (q - o).dot (q - c.P t - (q - o)) / (q - o).len ^ 3) := by
    have : (q - o).dot (q - c.P t - (q - o)) = -(q - o).dot (c.P t - o) := by simp only [V3.dot, sub_x, sub_y, sub_z]; ring
    rw [this]
    ring
  rw [Pi.div_apply, e, abs_mul]
  refine mul_le_mul ((abs_dot_le _ _).trans (mul_le_mul_of_nonneg_left (h.speed t h0 h1) (len_nonneg _))) hn.second_order (abs_nonneg _) ?_
  exact mul_nonneg (len_nonneg _) ((len_nonneg _).trans (h.speed t h0 h1))

theorem triple_newton (w T d : V3 ℝ) : w.dot (T.cross d) / d.len ^ 3 = w.dot (T.cross (newton d)) := by
  simp only [newton, V3.dot, cross_x, cross_y, cross_z, smul_x, smul_y, smul_z, smul_eq_mul]
  ring

theorem abs_triple_le (w T d : V3 ℝ) {τ C : ℝ} (hT : T.len ≤ τ) (hd : d.len ≤ C) : |w.dot (T.cross d)| ≤ w.len * τ * C := by
  refine (abs_dot_le _ _).trans ?_
  rw [mul_assoc]
  refine mul_le_mul_of_nonneg_left ((len_cross_le _ _).trans ?_) (len_nonneg _)
  exact mul_le_mul hT hd (len_nonneg _) ((len_nonneg _).trans hT)

/-- The flux density of a small piece of wire, to first order. -/
theorem Curve.Good.flux_near (hc : c.Good) (h : c.Small o δ τ) (hq : δ < (q - o).len) (w : V3 ℝ) :
    |w.dot (c.flux q) - c.mom0 ((newton (q - o)).cross w)| ≤ w.len * τ * (4 * δ / ((q - o).len - δ) ^ 3) * (c.hi - c.lo) := by
  rw [hc.dot_flux (h.ne hq), mom0]
  refine hc.integral_bound (hc.continuousOn_flux h hq w) (hc.cont_dot _).continuousOn fun t h0 h1 => ?_
  have hn := h.near_of hq h0 h1
  have e : w.dot ((c.T t).cross (q - c.P t)) / (q - c.P t).len ^ 3 - ((newton (q - o)).cross w).dot (c.T t) =
      w.dot ((c.T t).cross (newton (q - c.P t) - newton (q - o))) := by
    rw [triple_newton]
    simp only [V3.dot, cross_x, cross_y, cross_z, sub_x, sub_y, sub_z]
    ring
  rw [e]
  exact abs_triple_le _ _ _ (h.speed t h0 h1) hn.newton_first

/-- The flux density of a small piece of wire, to second order. -/
theorem Curve.Good.flux_far (hc : c.Good) (h : c.Small o δ τ) (hq : δ < (q - o).len) (w : V3 ℝ) :
    |w.dot (c.flux q) - (c.mom0 ((newton (q - o)).cross w) + 3 * c.mom1 o (q - o) ((q - o).cross w) / (q - o).len ^ 5 -
        c.mom2 o w / (q - o).len ^ 3)| ≤ w.len * τ * (12 * δ ^ 2 / ((q - o).len - δ) ^ 4) * (c.hi - c.lo) := by
  have hT := hc.cont_dot ((newton (q - o)).cross w)
  have hT2 := hc.cont_dot ((q - o).cross w)
  have hP := hc.cont_pos (o := o) (q - o)
  have hA := hc.cont_ang (o := o) w
  have i1 : IntervalIntegrable (fun t => ((newton (q - o)).cross w).dot (c.T t)) MeasureTheory.volume c.lo c.hi := hT.intervalIntegrable _ _
  have i2 : IntervalIntegrable (fun t => 3 * ((q - o).dot (c.P t - o) * ((q - o).cross w).dot (c.T t)) / (q - o).len ^ 5) MeasureTheory.volume
    c.lo c.hi := Continuous.intervalIntegrable (by fun_prop) _ _
  have i12 : IntervalIntegrable (fun t => ((newton (q - o)).cross w).dot (c.T t) +
    3 * ((q - o).dot (c.P t - o) * ((q - o).cross w).dot (c.T t)) / (q - o).len ^ 5) MeasureTheory.volume c.lo c.hi := i1.add i2
  have i3 : IntervalIntegrable (fun t => w.dot ((c.T t).cross (c.P t - o)) / (q - o).len ^ 3) MeasureTheory.volume c.lo c.hi :=
    Continuous.intervalIntegrable (by fun_prop) _ _
  rw [hc.dot_flux (h.ne hq), mom0, mom1, mom2, ← intervalIntegral.integral_const_mul, ← intervalIntegral.integral_div,
    ← intervalIntegral.integral_div, ← intervalIntegral.integral_add i1 i2, ← intervalIntegral.integral_sub i12 i3]
  refine hc.integral_bound (hc.continuousOn_flux h hq w) (Continuous.continuousOn (by fun_prop)) fun t h0 h1 => ?_
  have hn := h.near_of hq h0 h1
  have e : w.dot ((c.T t).cross (q - c.P t)) / (q - c.P t).len ^ 3 - (((newton (q - o)).cross w).dot (c.T t) +
      3 * ((q - o).dot (c.P t - o) * ((q - o).cross w).dot (c.T t)) / (q - o).len ^ 5 - w.dot ((c.T t).cross (c.P t - o)) / (q - o).len ^ 3) =
      w.dot ((c.T t).cross (newton (q - c.P t) - newton (q - o) - newtonDeriv (q - o) (q - c.P t - (q - o)))) := by
    rw [triple_newton]
    simp only [newtonDeriv, V3.dot, cross_x, cross_y, cross_z, sub_x, sub_y, sub_z, smul_x, smul_y, smul_z, smul_eq_mul]
    generalize (newton (q - c.P t)) = n1
    generalize (newton (q - o)) = n2
    ring
  rw [e]
  exact abs_triple_le _ _ _ (h.speed t h0 h1) hn.newton_second

/-! ## Straight pieces and circles -/

theorem len_convex {a b : V3 ℝ} {t : ℝ} (h0 : 0 ≤ t) (h1 : t ≤ 1) (ha : (a - o).len ≤ δ) (hb : (b - o).len ≤ δ) :
    (a + t • (b - a) - o).len ≤ δ := by
  have e : a + t • (b - a) - o = (1 - t) • (a - o) + t • (b - o) := by module
  rw [e]
  refine (len_add_le _ _).trans ?_
  rw [len_smul, len_smul, abs_of_nonneg h0, abs_of_nonneg (by linarith)]
  nlinarith

theorem straight_small (a : V3 ℝ × V3 ℝ) (h1 : (a.1 - o).len ≤ δ) (h2 : (a.2 - o).len ≤ δ) : (straight a).Small o δ (a.2 - a.1).len :=
  ⟨fun _ h0 ht => len_convex h0 ht h1 h2, fun _ _ _ => le_rfl⟩

theorem straight_mom0 (a : V3 ℝ × V3 ℝ) (w : V3 ℝ) : (straight a).mom0 w = w.dot (a.2 - a.1) := by
  simp [Curve.mom0, straight]

theorem straight_mom1 (a : V3 ℝ × V3 ℝ) (o u w : V3 ℝ) :
    (straight a).mom1 o u w = (u.dot (a.1 - o) + u.dot (a.2 - o)) / 2 * w.dot (a.2 - a.1) := by
  have e : ∀ t : ℝ, u.dot (a.1 + t • (a.2 - a.1) - o) * w.dot (a.2 - a.1) =
      u.dot (a.1 - o) * w.dot (a.2 - a.1) + (u.dot (a.2 - o) - u.dot (a.1 - o)) * w.dot (a.2 - a.1) * t := by
    intro t
    simp only [V3.dot, add_x, add_y, add_z, sub_x, sub_y, sub_z, smul_x, smul_y, smul_z, smul_eq_mul]
    ring
  simp only [Curve.mom1, straight, e]
  rw [intervalIntegral.integral_add (by simp) (Continuous.intervalIntegrable (by fun_prop) _ _), intervalIntegral.integral_const,
    intervalIntegral.integral_const_mul, integral_id]
  simp only [sub_zero, smul_eq_mul]
  ring

theorem straight_mom2 (a : V3 ℝ × V3 ℝ) (o w : V3 ℝ) : (straight a).mom2 o w = -w.dot ((a.1 - o).cross (a.2 - o)) := by
  have e : ∀ t : ℝ, w.dot ((a.2 - a.1).cross (a.1 + t • (a.2 - a.1) - o)) = -w.dot ((a.1 - o).cross (a.2 - o)) := by
    intro t
    simp only [V3.dot, cross_x, cross_y, cross_z, add_x, add_y, add_z, sub_x, sub_y, sub_z, smul_x, smul_y, smul_z, smul_eq_mul]
    ring
  simp [Curve.mom2, straight, e]

/-- Bounds for a vector from bounds for its components in every direction. -/
theorem len_le_of_dot {v : V3 ℝ} {C : ℝ} (h : ∀ w : V3 ℝ, |w.dot v| ≤ w.len * C) : v.len ≤ C := by
  by_cases hv : v.len = 0
  · have h1 := h ⟨1, 0, 0⟩
    have e : (⟨1, 0, 0⟩ : V3 ℝ).len = 1 := by simp [V3.len]
    rw [e, one_mul] at h1
    rw [hv]
    exact (abs_nonneg _).trans h1
  · have h1 := h v
    rw [dot_self, abs_of_nonneg (by positivity), sq] at h1
    exact le_of_mul_le_mul_left h1 (lt_of_le_of_ne (len_nonneg _) (Ne.symm hv))

/-! ## Wires -/

theorem telescope {f : V3 ℝ × V3 ℝ → ℝ} {g : V3 ℝ → ℝ} (hf : ∀ a b, f (a, b) = g b - g a) (p : V3 ℝ) (l : List (V3 ℝ)) :
    ((segs (p :: l)).map f).sum = g ((p :: l).getLast (by simp)) - g p := by
  induction l generalizing p with
  | nil => simp [segs]
  | cons b r ih =>
    rw [segs, List.map_cons, List.sum_cons, ih, hf, List.getLast_cons_cons]
    ring

theorem sum_bound {f g h : V3 ℝ × V3 ℝ → ℝ} (l : List (V3 ℝ × V3 ℝ)) (hb : ∀ a ∈ l, |f a - g a| ≤ h a) :
    |(l.map f).sum - (l.map g).sum| ≤ (l.map h).sum := by
  induction l with
  | nil => simp
  | cons a l ih =>
    have h1 := hb a (by simp)
    have h2 := ih fun b hb' => hb b (by simp [hb'])
    simp only [List.map_cons, List.sum_cons]
    have e : f a + (l.map f).sum - (g a + (l.map g).sum) = (f a - g a) + ((l.map f).sum - (l.map g).sum) := by ring
    rw [e]
    exact (abs_add_le _ _).trans (add_le_add h1 h2)

theorem segs_mem {nodes : List (V3 ℝ)} {a : V3 ℝ × V3 ℝ} (h : a ∈ segs nodes) : a.1 ∈ nodes ∧ a.2 ∈ nodes := by
  induction nodes with
  | nil => simp [segs] at h
  | cons p0 l ih =>
    cases l with
    | nil => simp [segs] at h
    | cons p1 r =>
      simp only [segs, List.mem_cons] at h
      rcases h with rfl | h
      · simp
      · have := ih h
        exact ⟨List.mem_cons_of_mem _ this.1, List.mem_cons_of_mem _ this.2⟩

open Real in
theorem round_small {e1 e2 n : V3 ℝ} (he : CircularWire.IsFrame e1 e2 n) {a : ℝ} (ha : 0 ≤ a) : (round o e1 e2 a).Small o a a := by
  obtain ⟨h1, h2, h3, -⟩ := he
  simp only [V3.dot] at h1 h2 h3
  refine ⟨fun t _ _ => ?_, fun t _ _ => ?_⟩ <;> rw [len_le_iff ha] <;>
    simp only [round, CircularWire.point, CircularWire.tangent, V3.dot, add_x, add_y, add_z, sub_x, sub_y, sub_z, smul_x, smul_y, smul_z, smul_eq_mul]
  · refine le_of_eq ?_
    linear_combination a ^ 2 * cos t ^ 2 * h1 + a ^ 2 * sin t ^ 2 * h2 + 2 * a ^ 2 * cos t * sin t * h3 + a ^ 2 * sin_sq_add_cos_sq t
  · refine le_of_eq ?_
    linear_combination a ^ 2 * sin t ^ 2 * h1 + a ^ 2 * cos t ^ 2 * h2 - 2 * a ^ 2 * cos t * sin t * h3 + a ^ 2 * sin_sq_add_cos_sq t

open Real in
theorem round_mom0 (o e1 e2 w : V3 ℝ) (a : ℝ) : (round o e1 e2 a).mom0 w = 0 := by
  have e : ∀ t : ℝ, w.dot (CircularWire.tangent e1 e2 a t) = -(a * w.dot e1) * sin t + a * w.dot e2 * cos t := by
    intro t
    simp only [CircularWire.tangent, V3.dot, add_x, add_y, add_z, smul_x, smul_y, smul_z, smul_eq_mul]
    ring
  simp only [Curve.mom0, round, e]
  rw [intervalIntegral.integral_add (Continuous.intervalIntegrable (by fun_prop) _ _) (Continuous.intervalIntegrable (by fun_prop) _ _),
    intervalIntegral.integral_const_mul, intervalIntegral.integral_const_mul, integral_sin, integral_cos]
  simp

open Real in
theorem round_mom1 {e1 e2 n : V3 ℝ} (he : CircularWire.IsFrame e1 e2 n) (o u w : V3 ℝ) (a : ℝ) :
    (round o e1 e2 a).mom1 o u w = w.dot (((π * a ^ 2) • n).cross u) := by
  have e : ∀ t : ℝ, u.dot (CircularWire.point o e1 e2 a t - o) * w.dot (CircularWire.tangent e1 e2 a t) =
      a ^ 2 * (u.dot e1 * w.dot e2) * cos t ^ 2 - a ^ 2 * (u.dot e2 * w.dot e1) * sin t ^ 2 +
        a ^ 2 * (u.dot e2 * w.dot e2 - u.dot e1 * w.dot e1) * (sin t * cos t) := by
    intro t
    simp only [CircularWire.point, CircularWire.tangent, V3.dot, add_x, add_y, add_z, sub_x, sub_y, sub_z, smul_x, smul_y, smul_z, smul_eq_mul]
    ring
  simp only [Curve.mom1, round, e]
  rw [intervalIntegral.integral_add (Continuous.intervalIntegrable (by fun_prop) _ _) (Continuous.intervalIntegrable (by fun_prop) _ _),
    intervalIntegral.integral_sub (Continuous.intervalIntegrable (by fun_prop) _ _) (Continuous.intervalIntegrable (by fun_prop) _ _),
    intervalIntegral.integral_const_mul, intervalIntegral.integral_const_mul, intervalIntegral.integral_const_mul, integral_sin_sq, integral_cos_sq,
    integral_sin_mul_cos₁]
  rw [← he.2.2.2]
  simp only [V3.dot, cross_x, cross_y, cross_z, smul_x, smul_y, smul_z, smul_eq_mul, sin_two_pi, cos_two_pi, sin_zero, cos_zero]
  ring

open Real in
theorem round_mom2 {e1 e2 n : V3 ℝ} (he : CircularWire.IsFrame e1 e2 n) (o w : V3 ℝ) (a : ℝ) :
    (round o e1 e2 a).mom2 o w = -2 * w.dot ((π * a ^ 2) • n) := by
  have e : ∀ t : ℝ, w.dot ((CircularWire.tangent e1 e2 a t).cross (CircularWire.point o e1 e2 a t - o)) = -(a ^ 2 * w.dot n) := by
    intro t
    rw [← he.2.2.2]
    simp only [CircularWire.point, CircularWire.tangent, V3.dot, cross_x, cross_y, cross_z, add_x, add_y, add_z, sub_x, sub_y, sub_z, smul_x, smul_y,
      smul_z, smul_eq_mul]
    linear_combination -a ^ 2 * (w.x * (e1.y * e2.z - e1.z * e2.y) + w.y * (e1.z * e2.x - e1.x * e2.z) + w.z * (e1.x * e2.y - e1.y * e2.x)) *
      sin_sq_add_cos_sq t
  simp only [Curve.mom2, round, e]
  rw [intervalIntegral.integral_const]
  simp only [V3.dot, smul_x, smul_y, smul_z, smul_eq_mul]
  ring

end Verif.WireIntegral
