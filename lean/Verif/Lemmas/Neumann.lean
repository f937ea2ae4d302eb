import Verif.Spec.AlongWire
import Verif.Props.LineCurrent
import Verif.Lemmas.Distance
import Mathlib.MeasureTheory.Integral.IntervalIntegral.FundThmCalculus
import Mathlib.MeasureTheory.Integral.Prod

/-! # Line integrals along wires (helper lemmas) -/

namespace Verif.WireIntegral

open V3 Static BiotSavart Spatial

variable {p0 p1 q : V3 ℝ}

theorem continuous_point (p0 p1 : V3 ℝ) : Continuous fun t : ℝ => (q - (p0 + t • (p1 - p0))).len := by
  unfold V3.len
  simp only [V3.sub_x, V3.sub_y, V3.sub_z, V3.add_x, V3.add_y, V3.add_z, V3.smul_x, V3.smul_y, V3.smul_z, smul_eq_mul]
  fun_prop

theorem off_len (ho : OffLine p0 p1 q) (t : ℝ) : (q - (p0 + t • (p1 - p0))).len ≠ 0 := by
  intro e
  apply ho
  have := V3.len_eq_zero.1 e
  have e' : q - p0 = t • (p1 - p0) := by
    rw [← sub_eq_zero, ← this]; abel
  rw [e']
  ext <;> simp <;> ring

/-- The potential of a segment in closed form. -/
theorem segmentPotential_closed (h : p0 ≠ p1) (ho : OffLine p0 p1 q) : segmentPotential p0 p1 q = -potFree p0 p1 q := by
  have hrho := rho2_pos h ho
  have hl := len_sub_pos h.symm
  set l := (p1 - p0).len with hl'
  set T := tan p0 p1 with hT
  set s := T.dot (q - p0) with hs
  set ρ := rho2 p0 p1 q with hρ
  have eL : p1 - p0 = l • T := by ext <;> simp [hT, unit, ← hl'] <;> field_simp
  have hTT : T.dot T = 1 := tan_dot_self h
  have hd : ∀ t : ℝ, (q - (p0 + t • (p1 - p0))).len ^ 2 = (s - t * l) ^ 2 + ρ := by
    intro t
    have e1 : (q - (p0 + t • (p1 - p0))).len ^ 2 =
        (q - p0).len ^ 2 - 2 * t * l * s + t ^ 2 * l ^ 2 * T.dot T := by
      rw [eL, V3.len_sq, V3.len_sq, hs]
      simp only [V3.dot, V3.sub_x, V3.sub_y, V3.sub_z, V3.add_x, V3.add_y, V3.add_z, V3.smul_x, V3.smul_y,
        V3.smul_z, smul_eq_mul]
      ring
    rw [e1, hTT, hρ, rho2]; ring
  have hdpos : ∀ t : ℝ, 0 < (s - t * l) ^ 2 + ρ := fun t => by positivity
  have hdl : ∀ t : ℝ, (q - (p0 + t • (p1 - p0))).len = Real.sqrt ((s - t * l) ^ 2 + ρ) := fun t => by
    rw [← hd t, Real.sqrt_sq (V3.len_nonneg _)]
  have hsum : ∀ t : ℝ, 0 < (s - t * l) + Real.sqrt ((s - t * l) ^ 2 + ρ) := fun t => by
    have : |s - t * l| < Real.sqrt ((s - t * l) ^ 2 + ρ) := by
      rw [← Real.sqrt_sq_eq_abs]
      exact Real.sqrt_lt_sqrt (sq_nonneg _) (by linarith)
    linarith [neg_abs_le (s - t * l)]
  have hder : ∀ t : ℝ, HasDerivAt (fun t : ℝ => -Real.log ((s - t * l) + Real.sqrt ((s - t * l) ^ 2 + ρ)) / l)
      (1 / Real.sqrt ((s - t * l) ^ 2 + ρ)) t := by
    intro t
    have h1 : HasDerivAt (fun t : ℝ => s - t * l) (-l) t := by
      simpa using ((hasDerivAt_id t).mul_const l).const_sub s
    have h2 := ((h1.fun_pow 2).add_const ρ).sqrt (hdpos t).ne'
    have h3 := ((h1.fun_add h2).log (hsum t).ne').fun_neg.div_const l
    refine h3.congr_deriv ?_
    have hp := (Real.sqrt_pos.2 (hdpos t)).ne'
    have hp2 := (hsum t).ne'
    simp only [Nat.cast_ofNat, Nat.add_one_sub_one, pow_one]
    clear h2 h3
    generalize Real.sqrt ((s - t * l) ^ 2 + ρ) = D at hp hp2 ⊢
    generalize s - t * l = w at hp2 ⊢
    have : -l + 2 * w * -l / (2 * D) = -l * (w + D) / D := by
      field_simp
      ring
    rw [this]
    field_simp
  have hI : ∫ t in (0:ℝ)..1, 1 / (q - (p0 + t • (p1 - p0))).len =
      -Real.log ((s - l) + Real.sqrt ((s - l) ^ 2 + ρ)) / l - -Real.log (s + Real.sqrt (s ^ 2 + ρ)) / l := by
    simp only [hdl]
    rw [intervalIntegral.integral_eq_sub_of_hasDerivAt (fun t _ => hder t)]
    · simp
    · refine Continuous.intervalIntegrable (continuous_const.div (by fun_prop) fun t => ?_) _ _
      exact (Real.sqrt_pos.2 (hdpos t)).ne'
  have e0 : (q - p0).len = Real.sqrt (s ^ 2 + ρ) := by
    have := hdl 0; simpa using this
  have e1 : (q - p1).len = Real.sqrt ((s - l) ^ 2 + ρ) := by
    have := hdl 1
    rw [one_mul, one_smul] at this
    rw [← this]; congr 1; abel
  have es1 : T.dot (q - p1) = s - l := tan_dot_p1 h q
  unfold segmentPotential potFree
  rw [hI, e0, e1, es1, eL, smul_smul, ← neg_smul]
  congr 1
  field_simp
  ring

theorem wirePotential_closed (nodes : List (V3 ℝ)) (hr : Regular nodes) (ho : Off nodes q) :
    wirePotential q nodes = -segSum (fun a b => potFree a b q) nodes := by
  induction nodes with
  | nil => simp [wirePotential, segSum]
  | cons p0 t ih =>
    cases t with
    | nil => simp [wirePotential, segSum]
    | cons p1 r =>
      rw [Regular, List.isChain_cons_cons] at hr
      rw [Off, List.isChain_cons_cons] at ho
      rw [wirePotential, segSum, ih hr.2 ho.2, segmentPotential_closed hr.1.1 ho.1]
      abel

/-- A piece of wire: a curve with its tangent. -/
structure Curve where
  lo : ℝ
  hi : ℝ
  P : ℝ → V3 ℝ
  T : ℝ → V3 ℝ

/-- The requirements on a piece of wire. -/
structure Curve.Good (c : Curve) : Prop where
  le : c.lo ≤ c.hi
  px : Continuous fun t => (c.P t).x
  py : Continuous fun t => (c.P t).y
  pz : Continuous fun t => (c.P t).z
  tx : Continuous fun t => (c.T t).x
  ty : Continuous fun t => (c.T t).y
  tz : Continuous fun t => (c.T t).z

/-- The integral of a vector function over the range of a curve. -/
noncomputable def Curve.int (c : Curve) (f : ℝ → V3 ℝ) : V3 ℝ :=
  ⟨∫ t in c.lo..c.hi, (f t).x, ∫ t in c.lo..c.hi, (f t).y, ∫ t in c.lo..c.hi, (f t).z⟩

/-- The potential of a piece of wire. -/
noncomputable def Curve.pot (c : Curve) (q : V3 ℝ) : V3 ℝ := c.int fun t => (c.T t).map (· / (q - c.P t).len)

/-- The Biot–Savart integral over a piece of wire. -/
noncomputable def Curve.flux (c : Curve) (q : V3 ℝ) : V3 ℝ := c.int fun t => ((c.T t).cross (q - c.P t)).map (· / (q - c.P t).len ^ 3)

/-- `∫ F · dl` -/
noncomputable def Curve.along (c : Curve) (F : V3 ℝ → V3 ℝ) : ℝ := ∫ t in c.lo..c.hi, (c.T t).dot (F (c.P t))

theorem Curve.dot_int (c : Curve) (hc : c.lo ≤ c.hi) {f : ℝ → V3 ℝ} (hx : ContinuousOn (fun t => (f t).x) (Set.Icc c.lo c.hi))
    (hy : ContinuousOn (fun t => (f t).y) (Set.Icc c.lo c.hi)) (hz : ContinuousOn (fun t => (f t).z) (Set.Icc c.lo c.hi)) (d : V3 ℝ) :
    d.dot (c.int f) = ∫ t in c.lo..c.hi, d.dot (f t) := by
  have k : ∀ {g : ℝ → ℝ}, ContinuousOn g (Set.Icc c.lo c.hi) → IntervalIntegrable g MeasureTheory.volume c.lo c.hi := fun h =>
    (h.mono (by rw [Set.uIcc_of_le hc])).intervalIntegrable
  have ix : IntervalIntegrable (fun t => d.x * (f t).x) MeasureTheory.volume c.lo c.hi := (k hx).const_mul _
  have iy : IntervalIntegrable (fun t => d.y * (f t).y) MeasureTheory.volume c.lo c.hi := (k hy).const_mul _
  have iz : IntervalIntegrable (fun t => d.z * (f t).z) MeasureTheory.volume c.lo c.hi := (k hz).const_mul _
  have ixy : IntervalIntegrable (fun t => d.x * (f t).x + d.y * (f t).y) MeasureTheory.volume c.lo c.hi := ix.add iy
  simp only [Curve.int, V3.dot]
  rw [intervalIntegral.integral_add ixy iz, intervalIntegral.integral_add ix iy, intervalIntegral.integral_const_mul,
    intervalIntegral.integral_const_mul, intervalIntegral.integral_const_mul]

theorem Curve.Good.len (c : Curve) (h : c.Good) (q : V3 ℝ) : Continuous fun t => (q - c.P t).len := by
  have := h.px; have := h.py; have := h.pz
  unfold V3.len
  simp only [V3.sub_x, V3.sub_y, V3.sub_z]
  fun_prop

variable {c c₁ c₂ : Curve}

theorem Curve.Good.dot_pot (h : c.Good) (ho : ∀ t, c.lo ≤ t → t ≤ c.hi → q ≠ c.P t) (d : V3 ℝ) :
    d.dot (c.pot q) = ∫ t in c.lo..c.hi, d.dot (c.T t) / (q - c.P t).len := by
  have hl := h.len c q
  have h0 : ∀ t ∈ Set.Icc c.lo c.hi, (q - c.P t).len ≠ 0 := fun t ht => len_sub_ne_zero (ho t ht.1 ht.2)
  rw [Curve.pot, c.dot_int h.le (h.tx.continuousOn.div hl.continuousOn h0) (h.ty.continuousOn.div hl.continuousOn h0)
    (h.tz.continuousOn.div hl.continuousOn h0)]
  congr 1
  funext t
  simp only [V3.dot, V3.map_x, V3.map_y, V3.map_z]
  ring

theorem Curve.Good.dot_flux (h : c.Good) (ho : ∀ t, c.lo ≤ t → t ≤ c.hi → q ≠ c.P t) (d : V3 ℝ) :
    d.dot (c.flux q) = ∫ t in c.lo..c.hi, d.dot ((c.T t).cross (q - c.P t)) / (q - c.P t).len ^ 3 := by
  have hl := (h.len c q).pow 3
  have h0 : ∀ t ∈ Set.Icc c.lo c.hi, (q - c.P t).len ^ 3 ≠ 0 := fun t ht => pow_ne_zero 3 (len_sub_ne_zero (ho t ht.1 ht.2))
  have hx := h.px; have hy := h.py; have hz := h.pz; have tx := h.tx; have ty := h.ty; have tz := h.tz
  rw [Curve.flux, c.dot_int h.le (ContinuousOn.div (Continuous.continuousOn (by simp only [V3.cross_x, V3.sub_y, V3.sub_z]; fun_prop)) hl.continuousOn h0)
    (ContinuousOn.div (Continuous.continuousOn (by simp only [V3.cross_y, V3.sub_x, V3.sub_z]; fun_prop)) hl.continuousOn h0)
    (ContinuousOn.div (Continuous.continuousOn (by simp only [V3.cross_z, V3.sub_x, V3.sub_y]; fun_prop)) hl.continuousOn h0)]
  congr 1
  funext t
  simp only [V3.dot, V3.map_x, V3.map_y, V3.map_z]
  ring

theorem Curve.Good.integrable (h₁ : c₁.Good) (h₂ : c₂.Good)
    (ho : ∀ s t, c₁.lo ≤ s → s ≤ c₁.hi → c₂.lo ≤ t → t ≤ c₂.hi → c₁.P s ≠ c₂.P t) :
    MeasureTheory.Integrable (Function.uncurry fun s t : ℝ => (c₁.T s).dot (c₂.T t) / (c₁.P s - c₂.P t).len)
      ((MeasureTheory.volume.restrict (Set.Ioc c₁.lo c₁.hi)).prod (MeasureTheory.volume.restrict (Set.Ioc c₂.lo c₂.hi))) := by
  have hc : ContinuousOn (fun x : ℝ × ℝ => (c₁.T x.1).dot (c₂.T x.2) / (c₁.P x.1 - c₂.P x.2).len) (Set.Icc c₁.lo c₁.hi ×ˢ Set.Icc c₂.lo c₂.hi) := by
    have : Continuous fun x : ℝ × ℝ => (c₁.P x.1).x := h₁.px.comp continuous_fst
    have : Continuous fun x : ℝ × ℝ => (c₁.P x.1).y := h₁.py.comp continuous_fst
    have : Continuous fun x : ℝ × ℝ => (c₁.P x.1).z := h₁.pz.comp continuous_fst
    have : Continuous fun x : ℝ × ℝ => (c₁.T x.1).x := h₁.tx.comp continuous_fst
    have : Continuous fun x : ℝ × ℝ => (c₁.T x.1).y := h₁.ty.comp continuous_fst
    have : Continuous fun x : ℝ × ℝ => (c₁.T x.1).z := h₁.tz.comp continuous_fst
    have : Continuous fun x : ℝ × ℝ => (c₂.P x.2).x := h₂.px.comp continuous_snd
    have : Continuous fun x : ℝ × ℝ => (c₂.P x.2).y := h₂.py.comp continuous_snd
    have : Continuous fun x : ℝ × ℝ => (c₂.P x.2).z := h₂.pz.comp continuous_snd
    have : Continuous fun x : ℝ × ℝ => (c₂.T x.2).x := h₂.tx.comp continuous_snd
    have : Continuous fun x : ℝ × ℝ => (c₂.T x.2).y := h₂.ty.comp continuous_snd
    have : Continuous fun x : ℝ × ℝ => (c₂.T x.2).z := h₂.tz.comp continuous_snd
    refine ContinuousOn.div ?_ ?_ ?_
    · refine Continuous.continuousOn ?_
      simp only [V3.dot]
      fun_prop
    · refine Continuous.continuousOn ?_
      unfold V3.len
      simp only [V3.sub_x, V3.sub_y, V3.sub_z]
      fun_prop
    · rintro ⟨s, t⟩ ⟨hs, ht⟩
      exact len_sub_ne_zero (ho s t hs.1 hs.2 ht.1 ht.2)
  rw [MeasureTheory.Measure.prod_restrict]
  have : MeasureTheory.IntegrableOn _ (Set.Icc c₁.lo c₁.hi ×ˢ Set.Icc c₂.lo c₂.hi) MeasureTheory.volume :=
    hc.integrableOn_compact (isCompact_Icc.prod isCompact_Icc)
  exact this.mono_set (Set.prod_mono Set.Ioc_subset_Icc_self Set.Ioc_subset_Icc_self)

theorem Curve.Good.along_integrable (h₁ : c₁.Good) (h₂ : c₂.Good)
    (ho : ∀ s t, c₁.lo ≤ s → s ≤ c₁.hi → c₂.lo ≤ t → t ≤ c₂.hi → c₁.P s ≠ c₂.P t) :
    IntervalIntegrable (fun s => (c₁.T s).dot (c₂.pot (c₁.P s))) MeasureTheory.volume c₁.lo c₁.hi := by
  have := (h₁.integrable h₂ ho).integral_prod_left
  rw [intervalIntegrable_iff_integrableOn_Ioc_of_le h₁.le]
  refine MeasureTheory.IntegrableOn.congr_fun this (fun s hs => ?_) measurableSet_Ioc
  rw [h₂.dot_pot (fun t h0 h1 => ho s t hs.1.le hs.2 h0 h1), intervalIntegral.integral_of_le h₂.le]
  rfl

/-- Neumann's formula is symmetric. -/
theorem Curve.Good.neumann (h₁ : c₁.Good) (h₂ : c₂.Good)
    (ho : ∀ s t, c₁.lo ≤ s → s ≤ c₁.hi → c₂.lo ≤ t → t ≤ c₂.hi → c₁.P s ≠ c₂.P t) : c₁.along c₂.pot = c₂.along c₁.pot := by
  have key := MeasureTheory.integral_integral_swap (h₁.integrable h₂ ho)
  have e1 : c₁.along c₂.pot = ∫ s in c₁.lo..c₁.hi, ∫ t in c₂.lo..c₂.hi, (c₁.T s).dot (c₂.T t) / (c₁.P s - c₂.P t).len := by
    refine intervalIntegral.integral_congr fun s hs => ?_
    rw [Set.uIcc_of_le h₁.le] at hs
    exact h₂.dot_pot (fun t h0 h1 => ho s t hs.1 hs.2 h0 h1) _
  have e2 : c₂.along c₁.pot = ∫ t in c₂.lo..c₂.hi, ∫ s in c₁.lo..c₁.hi, (c₁.T s).dot (c₂.T t) / (c₁.P s - c₂.P t).len := by
    refine intervalIntegral.integral_congr fun t ht => ?_
    rw [Set.uIcc_of_le h₂.le] at ht
    refine (h₁.dot_pot (fun s h0 h1 => (ho s t h0 h1 ht.1 ht.2).symm) _).trans ?_
    simp only [V3.dot_comm (c₂.T t), V3.len_sub_comm (c₂.P t)]
  rw [e1, e2]
  simp only [intervalIntegral.integral_of_le h₁.le, intervalIntegral.integral_of_le h₂.le]
  exact key

/-- The potential of several pieces, along a curve. -/
theorem Curve.Good.along_sum (h : c.Good) (l : List Curve) (hl : ∀ a ∈ l, a.Good)
    (ho : ∀ a ∈ l, ∀ s t, c.lo ≤ s → s ≤ c.hi → a.lo ≤ t → t ≤ a.hi → c.P s ≠ a.P t) (F : V3 ℝ → V3 ℝ)
    (hF : ∀ q d, V3.dot d (F q) = (l.map fun a => d.dot (a.pot q)).sum) : c.along F = (l.map fun a => c.along a.pot).sum := by
  have key : (∫ s in c.lo..c.hi, (l.map fun a => (c.T s).dot (a.pot (c.P s))).sum) = (l.map fun a => c.along a.pot).sum ∧
      IntervalIntegrable (fun s => (l.map fun a => (c.T s).dot (a.pot (c.P s))).sum) MeasureTheory.volume c.lo c.hi := by
    clear hF F
    induction l with
    | nil => simp
    | cons a l ih =>
      obtain ⟨i1, i2⟩ := ih (fun b hb => hl b (by simp [hb])) fun b hb => ho b (by simp [hb])
      have i3 := h.along_integrable (hl a (by simp)) (ho a (by simp))
      simp only [List.map_cons, List.sum_cons]
      exact ⟨by rw [intervalIntegral.integral_add i3 i2, i1]; rfl, i3.add i2⟩
  rw [← key.1]
  unfold Curve.along
  simp only [hF]

/-- A straight piece. -/
noncomputable def straight (a : V3 ℝ × V3 ℝ) : Curve := ⟨0, 1, fun t => a.1 + t • (a.2 - a.1), fun _ => a.2 - a.1⟩

/-- A circle. -/
noncomputable def round (c e1 e2 : V3 ℝ) (a : ℝ) : Curve := ⟨0, 2 * Real.pi, CircularWire.point c e1 e2 a, CircularWire.tangent e1 e2 a⟩

theorem straight_good (a : V3 ℝ × V3 ℝ) : (straight a).Good where
  le := zero_le_one
  px := by simp only [straight, V3.add_x, V3.smul_x, smul_eq_mul]; fun_prop
  py := by simp only [straight, V3.add_y, V3.smul_y, smul_eq_mul]; fun_prop
  pz := by simp only [straight, V3.add_z, V3.smul_z, smul_eq_mul]; fun_prop
  tx := continuous_const
  ty := continuous_const
  tz := continuous_const

theorem round_good (c e1 e2 : V3 ℝ) (a : ℝ) : (round c e1 e2 a).Good where
  le := by show (0 : ℝ) ≤ 2 * Real.pi; positivity
  px := by simp only [round, CircularWire.point, V3.add_x, V3.smul_x, smul_eq_mul]; fun_prop
  py := by simp only [round, CircularWire.point, V3.add_y, V3.smul_y, smul_eq_mul]; fun_prop
  pz := by simp only [round, CircularWire.point, V3.add_z, V3.smul_z, smul_eq_mul]; fun_prop
  tx := by simp only [round, CircularWire.tangent, V3.add_x, V3.smul_x, smul_eq_mul]; fun_prop
  ty := by simp only [round, CircularWire.tangent, V3.add_y, V3.smul_y, smul_eq_mul]; fun_prop
  tz := by simp only [round, CircularWire.tangent, V3.add_z, V3.smul_z, smul_eq_mul]; fun_prop

theorem straight_pot (a : V3 ℝ × V3 ℝ) (q : V3 ℝ) : (straight a).pot q = segmentPotential a.1 a.2 q := by
  have k : ∀ x : ℝ, ∫ t in (0 : ℝ)..1, x / (q - (a.1 + t • (a.2 - a.1))).len = (∫ t in (0 : ℝ)..1, 1 / (q - (a.1 + t • (a.2 - a.1))).len) * x := by
    intro x
    rw [← intervalIntegral.integral_mul_const]
    congr 1
    funext t
    ring
  ext <;> simp only [Curve.pot, Curve.int, straight, segmentPotential, V3.map_x, V3.map_y, V3.map_z, V3.smul_x, V3.smul_y, V3.smul_z, smul_eq_mul] <;>
    exact k _

theorem straight_flux (a : V3 ℝ × V3 ℝ) (q : V3 ℝ) : (straight a).flux q = BiotSavart.segment a.1 a.2 q := rfl

theorem straight_along (a : V3 ℝ × V3 ℝ) (F : V3 ℝ → V3 ℝ) : (straight a).along F = alongSegment F a.1 a.2 := rfl

theorem round_pot (c e1 e2 : V3 ℝ) (a : ℝ) (q : V3 ℝ) : (round c e1 e2 a).pot q = CircularWire.potential c e1 e2 a q := rfl

theorem round_flux (c e1 e2 : V3 ℝ) (a : ℝ) (q : V3 ℝ) : (round c e1 e2 a).flux q = CircularWire.flux c e1 e2 a q := rfl

theorem round_along (c e1 e2 : V3 ℝ) (a : ℝ) (F : V3 ℝ → V3 ℝ) : (round c e1 e2 a).along F = alongCircle F c e1 e2 a := rfl

/-- The segments of a wire. -/
def segs : List (V3 ℝ) → List (V3 ℝ × V3 ℝ)
  | p0 :: p1 :: rest => (p0, p1) :: segs (p1 :: rest)
  | _ => []

theorem sum_swap {α β : Type*} (f : α → β → ℝ) (l : List α) (m : List β) :
    (l.map fun x => (m.map fun y => f x y).sum).sum = (m.map fun y => (l.map fun x => f x y).sum).sum := by
  induction l with
  | nil => simp
  | cons a l ih => simp [ih, List.sum_map_add]

theorem alongWire_eq (F : V3 ℝ → V3 ℝ) (nodes : List (V3 ℝ)) :
    alongWire F nodes = ((segs nodes).map fun b => alongSegment F b.1 b.2).sum := by
  induction nodes with
  | nil => rfl
  | cons p0 t ih =>
    cases t with
    | nil => rfl
    | cons p1 r => simp [alongWire, segs, ih]

theorem wirePotential_eq (q : V3 ℝ) (nodes : List (V3 ℝ)) :
    ∀ d : V3 ℝ, d.dot (wirePotential q nodes) = ((segs nodes).map fun a => d.dot (segmentPotential a.1 a.2 q)).sum := by
  intro d
  induction nodes with
  | nil => simp [wirePotential, segs, V3.dot]
  | cons p0 t ih =>
    cases t with
    | nil => simp [wirePotential, segs, V3.dot]
    | cons p1 r =>
      simp only [wirePotential, segs, List.map_cons, List.sum_cons, ← ih]
      simp only [V3.dot, V3.add_x, V3.add_y, V3.add_z]
      ring

theorem mem_segs_chain {R : V3 ℝ → V3 ℝ → Prop} {nodes : List (V3 ℝ)} (h : nodes.IsChain R) : ∀ a ∈ segs nodes, R a.1 a.2 := by
  induction nodes with
  | nil => simp [segs]
  | cons p0 t ih =>
    cases t with
    | nil => simp [segs]
    | cons p1 r =>
      rw [List.isChain_cons_cons] at h
      intro a ha
      simp only [segs, List.mem_cons] at ha
      rcases ha with rfl | ha
      · exact h.1
      · exact ih h.2 a ha

theorem onWire_segs {nodes : List (V3 ℝ)} {a : V3 ℝ × V3 ℝ} (h : a ∈ segs nodes) {t : ℝ} (h0 : 0 ≤ t) (h1 : t ≤ 1) :
    OnWire nodes (a.1 + t • (a.2 - a.1)) := by
  induction nodes with
  | nil => simp [segs] at h
  | cons p0 l ih =>
    cases l with
    | nil => simp [segs] at h
    | cons p1 r =>
      simp only [segs, List.mem_cons] at h
      rcases h with rfl | h
      · exact .inl ⟨t, h0, h1, rfl⟩
      · exact .inr (ih h)

end Verif.WireIntegral
