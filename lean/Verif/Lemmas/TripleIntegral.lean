import Mathlib.MeasureTheory.Integral.Prod
import Mathlib.MeasureTheory.Integral.DivergenceTheorem
import Mathlib.MeasureTheory.Measure.Lebesgue.Basic
import Mathlib.MeasureTheory.Constructions.HaarToSphere
import Mathlib.Analysis.SpecialFunctions.Integrals.Basic
import Mathlib.MeasureTheory.Measure.Haar.OfBasis

/-! # A triple integral over a box by three antiderivatives (helper lemmas) -/

namespace Verif.Prism

open MeasureTheory Set

/-- If `f1`, `f2`, `f3` are successive antiderivatives of `f` in `z`, `y`, `x` (the second and third ones up to what
cancels between opposite faces), then the integral of `f` over a box is the alternating sum of `f3` over its corners.
The antiderivatives may fail on a countable set of abscissae. -/
theorem triple_integral {a1 b1 a2 b2 a3 b3 : ℝ} (h1 : a1 ≤ b1) (h2 : a2 ≤ b2) (h3 : a3 ≤ b3)
    {f f1 f2 f3 : ℝ → ℝ → ℝ → ℝ} {S : Set ℝ} (hS : S.Countable)
    (hI : IntegrableOn (fun q : ℝ × ℝ × ℝ => f q.1 q.2.1 q.2.2) (Ioc a1 b1 ×ˢ Ioc a2 b2 ×ˢ Ioc a3 b3))
    (hc0 : ∀ x ∈ Icc a1 b1, x ∉ S → ContinuousOn (fun q : ℝ × ℝ => f x q.1 q.2) (Icc a2 b2 ×ˢ Icc a3 b3))
    (hd1 : ∀ x ∈ Icc a1 b1, x ∉ S → ∀ y ∈ Icc a2 b2, ∀ z ∈ Icc a3 b3, HasDerivAt (fun z => f1 x y z) (f x y z) z)
    (hc1 : ∀ x ∈ Icc a1 b1, x ∉ S → ContinuousOn (fun y => f1 x y b3 - f1 x y a3) (Icc a2 b2))
    (hd2 : ∀ x ∈ Icc a1 b1, x ∉ S → ∀ y ∈ Icc a2 b2,
      HasDerivAt (fun y => f2 x y b3 - f2 x y a3) (f1 x y b3 - f1 x y a3) y)
    (hc3 : ContinuousOn (fun x => f3 x b2 b3 - f3 x b2 a3 - f3 x a2 b3 + f3 x a2 a3) (Icc a1 b1))
    (hd3 : ∀ x ∈ Icc a1 b1, x ∉ S → HasDerivAt (fun x => f3 x b2 b3 - f3 x b2 a3 - f3 x a2 b3 + f3 x a2 a3)
      (f2 x b2 b3 - f2 x b2 a3 - f2 x a2 b3 + f2 x a2 a3) x) :
    ∫ q in Ioc a1 b1 ×ˢ Ioc a2 b2 ×ˢ Ioc a3 b3, f q.1 q.2.1 q.2.2 =
      f3 b1 b2 b3 - f3 b1 b2 a3 - f3 b1 a2 b3 + f3 b1 a2 a3 - f3 a1 b2 b3 + f3 a1 b2 a3 + f3 a1 a2 b3 - f3 a1 a2 a3 := by
  have inner : ∀ x ∈ Icc a1 b1, x ∉ S → ∫ q in Ioc a2 b2 ×ˢ Ioc a3 b3, f x q.1 q.2 =
      f2 x b2 b3 - f2 x b2 a3 - f2 x a2 b3 + f2 x a2 a3 := by
    intro x hx hxS
    have hi : IntegrableOn (fun q : ℝ × ℝ => f x q.1 q.2) (Ioc a2 b2 ×ˢ Ioc a3 b3) :=
      ((hc0 x hx hxS).integrableOn_compact (isCompact_Icc.prod isCompact_Icc)).mono_set
        (prod_mono Ioc_subset_Icc_self Ioc_subset_Icc_self)
    rw [Measure.volume_eq_prod, setIntegral_prod _ (by rwa [← Measure.volume_eq_prod])]
    have e1 : ∀ y ∈ Icc a2 b2, ∫ z in Ioc a3 b3, f x y z = f1 x y b3 - f1 x y a3 := by
      intro y hy
      rw [← intervalIntegral.integral_of_le h3]
      refine intervalIntegral.integral_eq_sub_of_hasDerivAt (fun z hz => ?_) ?_
      · rw [uIcc_of_le h3] at hz
        exact hd1 x hx hxS y hy z hz
      · rw [intervalIntegrable_iff_integrableOn_Icc_of_le h3]
        refine ContinuousOn.integrableOn_Icc ?_
        exact (hc0 x hx hxS).comp (f := fun z => (y, z)) (by fun_prop) (fun z hz => ⟨hy, hz⟩)
    rw [setIntegral_congr_fun measurableSet_Ioc (fun y hy => e1 y (Ioc_subset_Icc_self hy)),
      ← intervalIntegral.integral_of_le h2]
    rw [intervalIntegral.integral_eq_sub_of_hasDerivAt (f := fun y => f2 x y b3 - f2 x y a3)
      (fun y hy => hd2 x hx hxS y (by rwa [uIcc_of_le h2] at hy))]
    · ring
    · rw [intervalIntegrable_iff_integrableOn_Icc_of_le h2]
      exact (hc1 x hx hxS).integrableOn_Icc
  have hI' := hI
  rw [Measure.volume_eq_prod] at hI'
  rw [Measure.volume_eq_prod, setIntegral_prod _ hI', ← intervalIntegral.integral_of_le h1]
  rw [IntegrableOn, ← Measure.prod_restrict] at hI'
  have hint := hI'.integral_prod_left
  have hae : ∀ᵐ x ∂(volume.restrict (Ioc a1 b1)), ∫ q in Ioc a2 b2 ×ˢ Ioc a3 b3, f x q.1 q.2 =
      f2 x b2 b3 - f2 x b2 a3 - f2 x a2 b3 + f2 x a2 a3 := by
    rw [ae_restrict_iff' measurableSet_Ioc]
    filter_upwards [hS.ae_notMem volume] with x hxS hx
    exact inner x (Ioc_subset_Icc_self hx) hxS
  rw [intervalIntegral.integral_of_le h1, integral_congr_ae hae, ← intervalIntegral.integral_of_le h1]
  rw [integral_eq_of_hasDerivAt_off_countable_of_le _ _ h1 hS hc3
    (fun x hx => hd3 x (Ioo_subset_Icc_self hx.1) hx.2)]
  · ring
  · rw [intervalIntegrable_iff_integrableOn_Ioc_of_le h1]
    exact hint.congr hae

/-- A function bounded by `C / ‖q‖²` is integrable on bounded sets of space. -/
theorem integrableOn_of_le_inv_sq {f : ℝ × ℝ × ℝ → ℝ} {s : Set (ℝ × ℝ × ℝ)} (hs : Bornology.IsBounded s)
    (hm : Measurable f) {C : ℝ} (hf : ∀ q, |f q| ≤ C * (‖q‖ ^ 2)⁻¹) : IntegrableOn f s := by
  obtain ⟨R, hR⟩ := hs.subset_ball (0 : ℝ × ℝ × ℝ)
  refine IntegrableOn.mono_set ?_ hR
  have hb : IntegrableOn (fun q : ℝ × ℝ × ℝ => (fun r : ℝ => C * (r ^ 2)⁻¹) ‖q‖) (Metric.ball 0 R) := by
    have i2 : (volume : Measure (ℝ × ℝ)).IsAddHaarMeasure := by
      rw [Measure.volume_eq_prod]; exact Measure.prod.instIsAddHaarMeasure _ _
    have i3 : (volume : Measure (ℝ × ℝ × ℝ)).IsAddHaarMeasure := by
      rw [Measure.volume_eq_prod]; exact Measure.prod.instIsAddHaarMeasure _ _
    refine (integrableOn_fun_norm_addHaar volume (f := fun r : ℝ => C * (r ^ 2)⁻¹)).2 ?_
    have hd : Module.finrank ℝ (ℝ × ℝ × ℝ) = 3 := by simp
    rw [hd]
    refine IntegrableOn.congr_fun (f := fun _ => C) ?_ (fun r hr => ?_) measurableSet_Ioo
    · exact integrableOn_const (by simp)
    · have : r ≠ 0 := (mem_Ioo.1 hr).1.ne'
      simp only [smul_eq_mul]
      field_simp
  refine Integrable.mono hb hm.aestronglyMeasurable (Filter.Eventually.of_forall fun q => ?_)
  rw [Real.norm_eq_abs, Real.norm_eq_abs]
  exact (hf q).trans (le_abs_self _)

end Verif.Prism
