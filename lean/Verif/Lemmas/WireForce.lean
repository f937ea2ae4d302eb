import Verif.Lemmas.Neumann
import Mathlib.Analysis.SpecialFunctions.Trigonometric.Deriv

/-! # Forces between wires (helper lemmas) -/

namespace Verif.WireIntegral

open V3 MeasureTheory

variable {c c₁ c₂ : Curve}

/-- The tangent is the derivative of the position. -/
structure Curve.Smooth (c : Curve) : Prop where
  dx : ∀ t, HasDerivAt (fun t => (c.P t).x) (c.T t).x t
  dy : ∀ t, HasDerivAt (fun t => (c.P t).y) (c.T t).y t
  dz : ∀ t, HasDerivAt (fun t => (c.P t).z) (c.T t).z t

/-- The curves do not meet. -/
def Curve.Clear (c₁ c₂ : Curve) : Prop := ∀ s t, c₁.lo ≤ s → s ≤ c₁.hi → c₂.lo ≤ t → t ≤ c₂.hi → c₁.P s ≠ c₂.P t

theorem Curve.Clear.symm (h : c₁.Clear c₂) : c₂.Clear c₁ := fun s t h1 h2 h3 h4 => (h t s h3 h4 h1 h2).symm

/-- A function continuous on the rectangle can be integrated in both orders. -/
theorem rect_integrable (c₁ c₂ : Curve) {f : ℝ → ℝ → ℝ} (hf : ContinuousOn (fun x : ℝ × ℝ => f x.1 x.2) (Set.Icc c₁.lo c₁.hi ×ˢ Set.Icc c₂.lo c₂.hi)) :
    Integrable (Function.uncurry f) ((volume.restrict (Set.Ioc c₁.lo c₁.hi)).prod (volume.restrict (Set.Ioc c₂.lo c₂.hi))) := by
  rw [Measure.prod_restrict]
  have : IntegrableOn _ (Set.Icc c₁.lo c₁.hi ×ˢ Set.Icc c₂.lo c₂.hi) volume := hf.integrableOn_compact (isCompact_Icc.prod isCompact_Icc)
  exact this.mono_set (Set.prod_mono Set.Ioc_subset_Icc_self Set.Ioc_subset_Icc_self)

theorem rect_swap (h₁ : c₁.lo ≤ c₁.hi) (h₂ : c₂.lo ≤ c₂.hi) {f : ℝ → ℝ → ℝ}
    (hf : ContinuousOn (fun x : ℝ × ℝ => f x.1 x.2) (Set.Icc c₁.lo c₁.hi ×ˢ Set.Icc c₂.lo c₂.hi)) :
    ∫ s in c₁.lo..c₁.hi, ∫ t in c₂.lo..c₂.hi, f s t = ∫ t in c₂.lo..c₂.hi, ∫ s in c₁.lo..c₁.hi, f s t := by
  simp only [intervalIntegral.integral_of_le h₁, intervalIntegral.integral_of_le h₂]
  exact integral_integral_swap (rect_integrable c₁ c₂ hf)

theorem rect_add (h₁ : c₁.lo ≤ c₁.hi) (h₂ : c₂.lo ≤ c₂.hi) {f g : ℝ → ℝ → ℝ}
    (hf : ContinuousOn (fun x : ℝ × ℝ => f x.1 x.2) (Set.Icc c₁.lo c₁.hi ×ˢ Set.Icc c₂.lo c₂.hi))
    (hg : ContinuousOn (fun x : ℝ × ℝ => g x.1 x.2) (Set.Icc c₁.lo c₁.hi ×ˢ Set.Icc c₂.lo c₂.hi)) :
    ∫ s in c₁.lo..c₁.hi, ∫ t in c₂.lo..c₂.hi, (f s t + g s t) =
      (∫ s in c₁.lo..c₁.hi, ∫ t in c₂.lo..c₂.hi, f s t) + ∫ s in c₁.lo..c₁.hi, ∫ t in c₂.lo..c₂.hi, g s t := by
  simp only [intervalIntegral.integral_of_le h₁, intervalIntegral.integral_of_le h₂]
  exact integral_integral_add (rect_integrable c₁ c₂ hf) (rect_integrable c₁ c₂ hg)

/-- A quotient by a power of the distance is continuous on the rectangle. -/
theorem rect_continuous (h₁ : c₁.Good) (h₂ : c₂.Good) (ho : c₁.Clear c₂) (n : ℕ) {f : ℝ → ℝ → ℝ} (hf : Continuous fun x : ℝ × ℝ => f x.1 x.2) :
    ContinuousOn (fun x : ℝ × ℝ => f x.1 x.2 / (c₁.P x.1 - c₂.P x.2).len ^ n) (Set.Icc c₁.lo c₁.hi ×ˢ Set.Icc c₂.lo c₂.hi) := by
  have : Continuous fun x : ℝ × ℝ => (c₁.P x.1).x := h₁.px.comp continuous_fst
  have : Continuous fun x : ℝ × ℝ => (c₁.P x.1).y := h₁.py.comp continuous_fst
  have : Continuous fun x : ℝ × ℝ => (c₁.P x.1).z := h₁.pz.comp continuous_fst
  have : Continuous fun x : ℝ × ℝ => (c₂.P x.2).x := h₂.px.comp continuous_snd
  have : Continuous fun x : ℝ × ℝ => (c₂.P x.2).y := h₂.py.comp continuous_snd
  have : Continuous fun x : ℝ × ℝ => (c₂.P x.2).z := h₂.pz.comp continuous_snd
  refine ContinuousOn.div hf.continuousOn (Continuous.continuousOn ?_) ?_
  · unfold V3.len
    simp only [V3.sub_x, V3.sub_y, V3.sub_z]
    fun_prop
  · rintro ⟨s, t⟩ ⟨hs, ht⟩
    exact pow_ne_zero n (len_sub_ne_zero (ho s t hs.1 hs.2 ht.1 ht.2))

variable (v r : V3 ℝ)

/-- The velocity of a rigid motion. -/
def rigid (q : V3 ℝ) : V3 ℝ := v + r.cross q

/-- The part of the work that is a derivative along the first curve. -/
noncomputable def slide (c₁ c₂ : Curve) (s t : ℝ) : ℝ :=
  ((r.cross (c₁.T s)).dot (c₂.T t)) / (c₁.P s - c₂.P t).len ^ 1 -
    ((rigid v r (c₁.P s)).dot (c₂.T t) * (c₁.T s).dot (c₁.P s - c₂.P t)) / (c₁.P s - c₂.P t).len ^ 3

theorem slide_deriv (h : c₁.Smooth) {s t : ℝ} (hn : c₁.P s ≠ c₂.P t) :
    HasDerivAt (fun s => (rigid v r (c₁.P s)).dot (c₂.T t) / (c₁.P s - c₂.P t).len) (slide v r c₁ c₂ s t) s := by
  have hx := h.dx s; have hy := h.dy s; have hz := h.dz s
  have hr := len_sub_ne_zero hn
  have hsq : (c₁.P s - c₂.P t).len ^ 2 = _ := V3.len_sq _
  have hpos : 0 < (c₁.P s - c₂.P t).len := lt_of_le_of_ne (V3.len_nonneg _) hr.symm
  have hl : HasDerivAt (fun s => (c₁.P s - c₂.P t).len) ((c₁.T s).dot (c₁.P s - c₂.P t) / (c₁.P s - c₂.P t).len) s := by
    have h0 : ((c₁.P s).x - (c₂.P t).x) ^ 2 + ((c₁.P s).y - (c₂.P t).y) ^ 2 + ((c₁.P s).z - (c₂.P t).z) ^ 2 ≠ 0 := by
      have := V3.len_sq (c₁.P s - c₂.P t)
      simp only [V3.sub_x, V3.sub_y, V3.sub_z] at this
      rw [← this]
      positivity
    have := ((((hx.sub_const (c₂.P t).x).fun_pow 2).fun_add ((hy.sub_const (c₂.P t).y).fun_pow 2)).fun_add ((hz.sub_const (c₂.P t).z).fun_pow 2)).sqrt h0
    refine this.congr_deriv ?_
    simp only [V3.len, V3.sub_x, V3.sub_y, V3.sub_z, V3.dot]
    field_simp
    ring
  have hd : HasDerivAt (fun s => (rigid v r (c₁.P s)).dot (c₂.T t)) ((r.cross (c₁.T s)).dot (c₂.T t)) s := by
    simp only [rigid, V3.dot, V3.add_x, V3.add_y, V3.add_z, V3.cross_x, V3.cross_y, V3.cross_z]
    have k1 := ((((hz.const_mul r.y).fun_sub (hy.const_mul r.z)).const_add v.x).mul_const (c₂.T t).x)
    have k2 := ((((hx.const_mul r.z).fun_sub (hz.const_mul r.x)).const_add v.y).mul_const (c₂.T t).y)
    have k3 := ((((hy.const_mul r.x).fun_sub (hx.const_mul r.y)).const_add v.z).mul_const (c₂.T t).z)
    exact (k1.fun_add k2).fun_add k3
  refine (hd.fun_div hl hr).congr_deriv ?_
  simp only [slide]
  field_simp

theorem slide_continuous (h₁ : c₁.Good) (h₂ : c₂.Good) (ho : c₁.Clear c₂) :
    ContinuousOn (fun x : ℝ × ℝ => slide v r c₁ c₂ x.1 x.2) (Set.Icc c₁.lo c₁.hi ×ˢ Set.Icc c₂.lo c₂.hi) := by
  have : Continuous fun x : ℝ × ℝ => (c₁.P x.1).x := h₁.px.comp continuous_fst
  have : Continuous fun x : ℝ × ℝ => (c₁.P x.1).y := h₁.py.comp continuous_fst
  have : Continuous fun x : ℝ × ℝ => (c₁.P x.1).z := h₁.pz.comp continuous_fst
  have : Continuous fun x : ℝ × ℝ => (c₁.T x.1).x := h₁.tx.comp continuous_fst
  have : Continuous fun x : ℝ × ℝ => (c₁.T x.1).y := h₁.ty.comp continuous_fst
  have : Continuous fun x : ℝ × ℝ => (c₁.T x.1).z := h₁.tz.comp continuous_fst
  have : Continuous fun x : ℝ × ℝ => (c₂.P x.2).x := h₂.px.comp continuous_snd
  have : Continuous fun x : ℝ × ℝ => (c₂.P x.2).y := h₂.py.comp continuous_snd
  have : Continuous fun x : ℝ × ℝ => (c₂.P x.2).z := h₂.pz.comp continuous_snd
  have : Continuous fun x : ℝ × ℝ => (c₂.T x.2).x := h₂.tx.comp continuous_snd
  have : Continuous fun x : ℝ × ℝ => (c₂.T x.2).y := h₂.ty.comp continuous_snd
  have : Continuous fun x : ℝ × ℝ => (c₂.T x.2).z := h₂.tz.comp continuous_snd
  refine ContinuousOn.sub (rect_continuous h₁ h₂ ho 1 (f := fun s t => (r.cross (c₁.T s)).dot (c₂.T t)) ?_)
    (rect_continuous h₁ h₂ ho 3 (f := fun s t => (rigid v r (c₁.P s)).dot (c₂.T t) * (c₁.T s).dot (c₁.P s - c₂.P t)) ?_)
  · simp only [V3.dot, V3.cross_x, V3.cross_y, V3.cross_z]
    fun_prop
  · simp only [rigid, V3.dot, V3.add_x, V3.add_y, V3.add_z, V3.cross_x, V3.cross_y, V3.cross_z, V3.sub_x, V3.sub_y, V3.sub_z]
    fun_prop

/-- The work of the force of the second piece on the first. -/
noncomputable def workKernel (c₁ c₂ : Curve) (s t : ℝ) : ℝ :=
  ((rigid v r (c₁.P s)).cross (c₁.T s)).dot ((c₂.T t).cross (c₁.P s - c₂.P t)) / (c₁.P s - c₂.P t).len ^ 3

theorem work_continuous (h₁ : c₁.Good) (h₂ : c₂.Good) (ho : c₁.Clear c₂) :
    ContinuousOn (fun x : ℝ × ℝ => workKernel v r c₁ c₂ x.1 x.2) (Set.Icc c₁.lo c₁.hi ×ˢ Set.Icc c₂.lo c₂.hi) := by
  have : Continuous fun x : ℝ × ℝ => (c₁.P x.1).x := h₁.px.comp continuous_fst
  have : Continuous fun x : ℝ × ℝ => (c₁.P x.1).y := h₁.py.comp continuous_fst
  have : Continuous fun x : ℝ × ℝ => (c₁.P x.1).z := h₁.pz.comp continuous_fst
  have : Continuous fun x : ℝ × ℝ => (c₁.T x.1).x := h₁.tx.comp continuous_fst
  have : Continuous fun x : ℝ × ℝ => (c₁.T x.1).y := h₁.ty.comp continuous_fst
  have : Continuous fun x : ℝ × ℝ => (c₁.T x.1).z := h₁.tz.comp continuous_fst
  have : Continuous fun x : ℝ × ℝ => (c₂.P x.2).x := h₂.px.comp continuous_snd
  have : Continuous fun x : ℝ × ℝ => (c₂.P x.2).y := h₂.py.comp continuous_snd
  have : Continuous fun x : ℝ × ℝ => (c₂.P x.2).z := h₂.pz.comp continuous_snd
  have : Continuous fun x : ℝ × ℝ => (c₂.T x.2).x := h₂.tx.comp continuous_snd
  have : Continuous fun x : ℝ × ℝ => (c₂.T x.2).y := h₂.ty.comp continuous_snd
  have : Continuous fun x : ℝ × ℝ => (c₂.T x.2).z := h₂.tz.comp continuous_snd
  refine rect_continuous h₁ h₂ ho 3 (f := fun s t => ((rigid v r (c₁.P s)).cross (c₁.T s)).dot ((c₂.T t).cross (c₁.P s - c₂.P t))) ?_
  simp only [rigid, V3.dot, V3.add_x, V3.add_y, V3.add_z, V3.cross_x, V3.cross_y, V3.cross_z, V3.sub_x, V3.sub_y, V3.sub_z]
  fun_prop

/-- Action and reaction differ by what slides along the wires. -/
theorem work_balance (s t : ℝ) : workKernel v r c₁ c₂ s t + workKernel v r c₂ c₁ t s = -(slide v r c₁ c₂ s t + slide v r c₂ c₁ t s) := by
  simp only [workKernel, slide, V3.len_sub_comm (c₂.P t) (c₁.P s)]
  generalize (c₁.P s - c₂.P t).len = l
  simp only [rigid, V3.dot, V3.add_x, V3.add_y, V3.add_z, V3.cross_x, V3.cross_y, V3.cross_z, V3.sub_x, V3.sub_y, V3.sub_z]
  ring

theorem along_work (h₁ : c₁.Good) (h₂ : c₂.Good) (ho : c₁.Clear c₂) :
    c₁.along (fun q => (c₂.flux q).cross (rigid v r q)) = ∫ s in c₁.lo..c₁.hi, ∫ t in c₂.lo..c₂.hi, workKernel v r c₁ c₂ s t := by
  refine intervalIntegral.integral_congr fun s hs => ?_
  rw [Set.uIcc_of_le h₁.le] at hs
  have := h₂.dot_flux (q := c₁.P s) (fun t h0 h1 => ho s t hs.1 hs.2 h0 h1) ((rigid v r (c₁.P s)).cross (c₁.T s))
  simp only [workKernel]
  rw [← this]
  simp only [V3.dot, V3.cross_x, V3.cross_y, V3.cross_z]
  ring

/-- What slides along the first piece is the difference of the potential of the second at its ends. -/
theorem slide_total (h₁ : c₁.Good) (h₂ : c₂.Good) (hs : c₁.Smooth) (ho : c₁.Clear c₂) :
    ∫ s in c₁.lo..c₁.hi, ∫ t in c₂.lo..c₂.hi, slide v r c₁ c₂ s t =
      (rigid v r (c₁.P c₁.hi)).dot (c₂.pot (c₁.P c₁.hi)) - (rigid v r (c₁.P c₁.lo)).dot (c₂.pot (c₁.P c₁.lo)) := by
  have hc := slide_continuous v r h₁ h₂ ho
  rw [rect_swap h₁.le h₂.le hc]
  have e : ∀ t ∈ Set.uIcc c₂.lo c₂.hi, ∫ s in c₁.lo..c₁.hi, slide v r c₁ c₂ s t =
      (rigid v r (c₁.P c₁.hi)).dot (c₂.T t) / (c₁.P c₁.hi - c₂.P t).len - (rigid v r (c₁.P c₁.lo)).dot (c₂.T t) / (c₁.P c₁.lo - c₂.P t).len := by
    intro t ht
    rw [Set.uIcc_of_le h₂.le] at ht
    refine intervalIntegral.integral_eq_sub_of_hasDerivAt (f := fun s => (rigid v r (c₁.P s)).dot (c₂.T t) / (c₁.P s - c₂.P t).len) (fun s h => ?_) ?_
    · rw [Set.uIcc_of_le h₁.le] at h
      exact slide_deriv v r hs (ho s t h.1 h.2 ht.1 ht.2)
    · refine ContinuousOn.intervalIntegrable ?_
      rw [Set.uIcc_of_le h₁.le]
      exact hc.comp (f := fun s => (s, t)) (by fun_prop) fun s h => ⟨h, ht⟩
  rw [intervalIntegral.integral_congr e, h₂.dot_pot (fun t h0 h1 => ho _ t h₁.le le_rfl h0 h1), h₂.dot_pot (fun t h0 h1 => ho _ t le_rfl h₁.le h0 h1)]
  have ii : ∀ p d : V3 ℝ, (∀ t, c₂.lo ≤ t → t ≤ c₂.hi → p ≠ c₂.P t) → IntervalIntegrable (fun t => d.dot (c₂.T t) / (p - c₂.P t).len) volume c₂.lo c₂.hi := by
    intro p d hp
    refine ContinuousOn.intervalIntegrable ?_
    rw [Set.uIcc_of_le h₂.le]
    have := h₂.tx; have := h₂.ty; have := h₂.tz
    refine ContinuousOn.div (Continuous.continuousOn (by simp only [V3.dot]; fun_prop)) (h₂.len c₂ p).continuousOn fun t ht => len_sub_ne_zero (hp t ht.1 ht.2)
  exact intervalIntegral.integral_sub (ii _ _ fun t h0 h1 => ho _ t h₁.le le_rfl h0 h1) (ii _ _ fun t h0 h1 => ho _ t le_rfl h₁.le h0 h1)

theorem rect_flip {f : ℝ → ℝ → ℝ} (hf : ContinuousOn (fun x : ℝ × ℝ => f x.1 x.2) (Set.Icc c₂.lo c₂.hi ×ˢ Set.Icc c₁.lo c₁.hi)) :
    ContinuousOn (fun x : ℝ × ℝ => f x.2 x.1) (Set.Icc c₁.lo c₁.hi ×ˢ Set.Icc c₂.lo c₂.hi) := by
  have := hf.comp (f := fun x : ℝ × ℝ => (x.2, x.1)) (s := Set.Icc c₁.lo c₁.hi ×ˢ Set.Icc c₂.lo c₂.hi) (by fun_prop) fun x h => ⟨h.2, h.1⟩
  exact this

/-- Two functions whose sum with the roles exchanged is that of two others. -/
theorem rect_balance (h₁ : c₁.lo ≤ c₁.hi) (h₂ : c₂.lo ≤ c₂.hi) {f g d e : ℝ → ℝ → ℝ}
    (hf : ContinuousOn (fun x : ℝ × ℝ => f x.1 x.2) (Set.Icc c₁.lo c₁.hi ×ˢ Set.Icc c₂.lo c₂.hi))
    (hg : ContinuousOn (fun x : ℝ × ℝ => g x.1 x.2) (Set.Icc c₂.lo c₂.hi ×ˢ Set.Icc c₁.lo c₁.hi))
    (hd : ContinuousOn (fun x : ℝ × ℝ => d x.1 x.2) (Set.Icc c₁.lo c₁.hi ×ˢ Set.Icc c₂.lo c₂.hi))
    (he : ContinuousOn (fun x : ℝ × ℝ => e x.1 x.2) (Set.Icc c₂.lo c₂.hi ×ˢ Set.Icc c₁.lo c₁.hi))
    (h : ∀ s t, f s t + g t s = -(d s t + e t s)) :
    (∫ s in c₁.lo..c₁.hi, ∫ t in c₂.lo..c₂.hi, f s t) + (∫ t in c₂.lo..c₂.hi, ∫ s in c₁.lo..c₁.hi, g t s) =
      -((∫ s in c₁.lo..c₁.hi, ∫ t in c₂.lo..c₂.hi, d s t) + ∫ t in c₂.lo..c₂.hi, ∫ s in c₁.lo..c₁.hi, e t s) := by
  have e1 := rect_swap (f := fun s t => g t s) h₁ h₂ (rect_flip hg)
  have e2 := rect_swap (f := fun s t => e t s) h₁ h₂ (rect_flip he)
  have e3 := rect_add (g := fun s t => g t s) h₁ h₂ hf (rect_flip hg)
  have e4 := rect_add (g := fun s t => e t s) h₁ h₂ hd (rect_flip he)
  rw [← e1, ← e2, ← e3, ← e4]
  simp only [h, intervalIntegral.integral_neg]

/-- The work on two pieces: what is missing to balance is at their ends. -/
theorem pair_balance (h₁ : c₁.Good) (h₂ : c₂.Good) (s₁ : c₁.Smooth) (s₂ : c₂.Smooth) (ho : c₁.Clear c₂) :
    c₁.along (fun q => (c₂.flux q).cross (rigid v r q)) + c₂.along (fun q => (c₁.flux q).cross (rigid v r q)) =
      -((rigid v r (c₁.P c₁.hi)).dot (c₂.pot (c₁.P c₁.hi)) - (rigid v r (c₁.P c₁.lo)).dot (c₂.pot (c₁.P c₁.lo)) +
        ((rigid v r (c₂.P c₂.hi)).dot (c₁.pot (c₂.P c₂.hi)) - (rigid v r (c₂.P c₂.lo)).dot (c₁.pot (c₂.P c₂.lo)))) := by
  have e1 := slide_total v r h₁ h₂ s₁ ho
  have e2 := slide_total v r h₂ h₁ s₂ ho.symm
  have e3 := along_work v r h₁ h₂ ho
  have e4 := along_work v r h₂ h₁ ho.symm
  have e5 := rect_balance h₁.le h₂.le (work_continuous v r h₁ h₂ ho) (work_continuous v r h₂ h₁ ho.symm) (slide_continuous v r h₁ h₂ ho)
    (slide_continuous v r h₂ h₁ ho.symm) (work_balance v r)
  rw [e3, e4, ← e1, ← e2]
  exact e5

theorem straight_smooth (a : V3 ℝ × V3 ℝ) : (straight a).Smooth where
  dx t := by
    simp only [straight, V3.add_x, V3.smul_x, smul_eq_mul, V3.sub_x]
    simpa using ((hasDerivAt_id t).mul_const (a.2.x - a.1.x)).const_add a.1.x
  dy t := by
    simp only [straight, V3.add_y, V3.smul_y, smul_eq_mul, V3.sub_y]
    simpa using ((hasDerivAt_id t).mul_const (a.2.y - a.1.y)).const_add a.1.y
  dz t := by
    simp only [straight, V3.add_z, V3.smul_z, smul_eq_mul, V3.sub_z]
    simpa using ((hasDerivAt_id t).mul_const (a.2.z - a.1.z)).const_add a.1.z

/-- The work integrals exist. -/
theorem work_integrable (h₁ : c₁.Good) (h₂ : c₂.Good) (ho : c₁.Clear c₂) :
    IntervalIntegrable (fun s => (c₁.T s).dot ((c₂.flux (c₁.P s)).cross (rigid v r (c₁.P s)))) volume c₁.lo c₁.hi := by
  have := (rect_integrable c₁ c₂ (work_continuous v r h₁ h₂ ho)).integral_prod_left
  rw [intervalIntegrable_iff_integrableOn_Ioc_of_le h₁.le]
  refine IntegrableOn.congr_fun this (fun s hs => ?_) measurableSet_Ioc
  have k := h₂.dot_flux (q := c₁.P s) (fun t h0 h1 => ho s t hs.1.le hs.2 h0 h1) ((rigid v r (c₁.P s)).cross (c₁.T s))
  have k2 : (c₁.T s).dot ((c₂.flux (c₁.P s)).cross (rigid v r (c₁.P s))) = ((rigid v r (c₁.P s)).cross (c₁.T s)).dot (c₂.flux (c₁.P s)) := by
    simp only [V3.dot, V3.cross_x, V3.cross_y, V3.cross_z]
    ring
  simp only [k2]
  rw [k, intervalIntegral.integral_of_le h₂.le]
  rfl

/-- The work of several pieces on one. -/
theorem work_sum (h : c.Good) (l : List Curve) (hl : ∀ a ∈ l, a.Good) (ho : ∀ a ∈ l, c.Clear a) :
    c.along (fun q => ((l.map fun a : Curve => a.flux q).sum).cross (rigid v r q)) = (l.map fun a : Curve => c.along fun q => (a.flux q).cross (rigid v r q)).sum := by
  have key : c.along (fun q => ((l.map fun a : Curve => a.flux q).sum).cross (rigid v r q)) =
      (l.map fun a : Curve => c.along fun q => (a.flux q).cross (rigid v r q)).sum ∧
      IntervalIntegrable (fun s => (c.T s).dot (((l.map fun a : Curve => a.flux (c.P s)).sum).cross (rigid v r (c.P s)))) volume c.lo c.hi := by
    induction l with
    | nil =>
      have z : ∀ s, (c.T s).dot ((0 : V3 ℝ).cross (rigid v r (c.P s))) = 0 := fun s => by simp [V3.dot, V3.cross]
      simp [Curve.along, z]
    | cons a l ih =>
      obtain ⟨i1, i2⟩ := ih (fun b hb => hl b (by simp [hb])) fun b hb => ho b (by simp [hb])
      have i3 := work_integrable v r h (hl a (by simp)) (ho a (by simp))
      have e : ∀ s, (c.T s).dot ((((a :: l).map fun a : Curve => a.flux (c.P s)).sum).cross (rigid v r (c.P s))) =
          (c.T s).dot ((a.flux (c.P s)).cross (rigid v r (c.P s))) + (c.T s).dot (((l.map fun a : Curve => a.flux (c.P s)).sum).cross (rigid v r (c.P s))) := by
        intro s
        simp only [List.map_cons, List.sum_cons, V3.dot, V3.cross_x, V3.cross_y, V3.cross_z, V3.add_x, V3.add_y, V3.add_z]
        ring
      refine ⟨?_, ?_⟩
      · rw [List.map_cons, List.sum_cons, ← i1]
        unfold Curve.along
        simp only [e]
        exact intervalIntegral.integral_add i3 i2
      · simp only [e]
        exact i3.add i2
  exact key.1

/-- Differences along a wire telescope. -/
theorem segs_telescope (f : V3 ℝ → ℝ) (p : V3 ℝ) (l : List (V3 ℝ)) :
    ((segs (p :: l)).map fun a => f a.2 - f a.1).sum = f ((p :: l).getLast (by simp)) - f p := by
  induction l generalizing p with
  | nil => simp [segs]
  | cons q l ih =>
    simp only [segs, List.map_cons, List.sum_cons, ih q]
    rw [List.getLast_cons (by simp : q :: l ≠ [])]
    ring

/-- The pieces form closed curves: differences along them add up to nothing. -/
def Closed (l : List Curve) : Prop := ∀ f : V3 ℝ → ℝ, (l.map fun c => f (c.P c.hi) - f (c.P c.lo)).sum = 0

theorem sum_neg_add {α : Type*} (f g : α → ℝ) (l : List α) :
    (l.map fun a => -(f a + g a)).sum = (l.map fun a => -f a).sum - (l.map g).sum := by
  induction l with
  | nil => simp
  | cons a l ih =>
    simp only [List.map_cons, List.sum_cons, ih]
    ring

theorem lists_balance (l m : List Curve) (gl : ∀ c ∈ l, c.Good) (gm : ∀ c ∈ m, c.Good) (sl : ∀ c ∈ l, c.Smooth) (sm : ∀ c ∈ m, c.Smooth)
    (ho : ∀ c ∈ l, ∀ a ∈ m, c.Clear a) (cl : Closed l) (cm : Closed m) :
    (l.map fun c : Curve => c.along fun q => ((m.map fun a : Curve => a.flux q).sum).cross (rigid v r q)).sum +
      (m.map fun c : Curve => c.along fun q => ((l.map fun a : Curve => a.flux q).sum).cross (rigid v r q)).sum = 0 := by
  rw [List.map_congr_left fun c hc => work_sum v r (gl c hc) m gm (ho c hc),
    List.map_congr_left fun c hc => work_sum v r (gm c hc) l gl fun a ha => (ho a ha c hc).symm,
    sum_swap (fun c a : Curve => c.along fun q => (a.flux q).cross (rigid v r q)) m l, ← List.sum_map_add]
  have e : ∀ c ∈ l, (m.map fun a : Curve => c.along fun q => (a.flux q).cross (rigid v r q)).sum +
      (m.map fun a : Curve => a.along fun q => (c.flux q).cross (rigid v r q)).sum =
      (m.map fun a : Curve => -((rigid v r (c.P c.hi)).dot (a.pot (c.P c.hi)) - (rigid v r (c.P c.lo)).dot (a.pot (c.P c.lo)))).sum := by
    intro c hc
    have z := cm fun q => (rigid v r q).dot (c.pot q)
    rw [← List.sum_map_add, List.map_congr_left fun a ha => pair_balance v r (gl c hc) (gm a ha) (sl c hc) (sm a ha) (ho c hc a ha)]
    rw [sum_neg_add, z, sub_zero]
  rw [List.map_congr_left e, sum_swap]
  have e2 : ∀ a ∈ m, (l.map fun c : Curve => -((rigid v r (c.P c.hi)).dot (a.pot (c.P c.hi)) - (rigid v r (c.P c.lo)).dot (a.pot (c.P c.lo)))).sum = 0 := by
    intro a _
    have z := cl fun q => (rigid v r q).dot (a.pot q)
    have k := sum_neg_add (fun _ : Curve => (0 : ℝ)) (fun c : Curve => (rigid v r (c.P c.hi)).dot (a.pot (c.P c.hi)) - (rigid v r (c.P c.lo)).dot (a.pot (c.P c.lo))) l
    simp only [zero_add] at k
    rw [k, z]
    simp
  rw [List.map_congr_left e2]
  simp

theorem round_smooth (c e1 e2 : V3 ℝ) (a : ℝ) : (round c e1 e2 a).Smooth where
  dx t := by
    simp only [round, CircularWire.point, CircularWire.tangent, V3.add_x, V3.smul_x, smul_eq_mul]
    have := ((((Real.hasDerivAt_cos t).const_mul a).mul_const e1.x).const_add c.x).fun_add (((Real.hasDerivAt_sin t).const_mul a).mul_const e2.x)
    exact this.congr_deriv (by ring)
  dy t := by
    simp only [round, CircularWire.point, CircularWire.tangent, V3.add_y, V3.smul_y, smul_eq_mul]
    have := ((((Real.hasDerivAt_cos t).const_mul a).mul_const e1.y).const_add c.y).fun_add (((Real.hasDerivAt_sin t).const_mul a).mul_const e2.y)
    exact this.congr_deriv (by ring)
  dz t := by
    simp only [round, CircularWire.point, CircularWire.tangent, V3.add_z, V3.smul_z, smul_eq_mul]
    have := ((((Real.hasDerivAt_cos t).const_mul a).mul_const e1.z).const_add c.z).fun_add (((Real.hasDerivAt_sin t).const_mul a).mul_const e2.z)
    exact this.congr_deriv (by ring)

theorem closed_round (c e1 e2 : V3 ℝ) (a : ℝ) : Closed [round c e1 e2 a] := by
  intro f
  have : (round c e1 e2 a).P (round c e1 e2 a).hi = (round c e1 e2 a).P (round c e1 e2 a).lo := by
    simp [round, CircularWire.point]
  simp [this]

end Verif.WireIntegral
