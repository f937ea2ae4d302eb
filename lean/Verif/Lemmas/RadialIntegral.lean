import Verif.Props.Voxels
import Mathlib.MeasureTheory.Constructions.HaarToSphere
import Mathlib.MeasureTheory.Measure.Haar.InnerProductSpace
import Mathlib.MeasureTheory.Group.Integral
import Mathlib.MeasureTheory.Measure.Haar.Unique
import Mathlib.MeasureTheory.Integral.IntegralEqImproper

/-!
# Integrals over space of functions of the distance from a point
-/

namespace Verif.RadialIntegral

open Real MeasureTheory Set Prism

/-- Triples with the Euclidean norm. -/
abbrev E3 := WithLp 2 (ℝ × WithLp 2 (ℝ × ℝ))

/-- The map that forgets the norm. -/
def toE3 (q : ℝ × ℝ × ℝ) : E3 := WithLp.toLp 2 (q.1, WithLp.toLp 2 q.2)

theorem toE3_preserving : MeasurePreserving toE3 :=
  (WithLp.volume_preserving_toLp (U := ℝ) (V := WithLp 2 (ℝ × ℝ))).comp
    ((MeasurePreserving.id volume).prod (WithLp.volume_preserving_toLp (U := ℝ) (V := ℝ)))

theorem norm_toE3 (q : ℝ × ℝ × ℝ) : ‖toE3 q‖ = (vec q).len := by
  rw [toE3, WithLp.prod_norm_eq_of_L2, V3.len]
  congr 1
  simp only [WithLp.prod_norm_sq_eq_of_L2, Real.norm_eq_abs, sq_abs]
  simp [vec]
  ring

theorem toE3_embedding : MeasurableEmbedding toE3 := by
  refine Continuous.measurableEmbedding ?_ fun p q h => ?_
  · exact (WithLp.prod_continuous_toLp 2 _ _).comp (continuous_fst.prodMk ((WithLp.prod_continuous_toLp 2 _ _).comp continuous_snd))
  · have h1 := congrArg (fun x : E3 => x.fst) h
    have h2 := congrArg (fun x : E3 => x.snd.fst) h
    have h3 := congrArg (fun x : E3 => x.snd.snd) h
    exact Prod.ext h1 (Prod.ext h2 h3)

theorem finrank_E3 : Module.finrank ℝ E3 = 3 := by
  rw [(WithLp.linearEquiv 2 ℝ (ℝ × WithLp 2 (ℝ × ℝ))).finrank_eq, Module.finrank_prod, (WithLp.linearEquiv 2 ℝ (ℝ × ℝ)).finrank_eq, Module.finrank_prod]
  simp

instance : Nontrivial E3 := Module.nontrivial_of_finrank_pos (R := ℝ) (by rw [finrank_E3]; norm_num)

theorem integral_radial_aux (c : V3 ℝ) (f : ℝ → ℝ) :
    ∫ q : ℝ × ℝ × ℝ, f (vec q - c).len = 3 * volume.real (Metric.ball (0 : E3) 1) * ∫ r in Ioi (0 : ℝ), r ^ 2 * f r := by
  have e : ∀ q : ℝ × ℝ × ℝ, f (vec q - c).len = (fun p => f ‖toE3 p‖) (q - (c.x, c.y, c.z)) := fun q => by
    simp only [norm_toE3]; rfl
  simp_rw [e]
  have i2 : (volume : Measure (ℝ × ℝ)).IsAddHaarMeasure := by rw [Measure.volume_eq_prod]; exact Measure.prod.instIsAddHaarMeasure _ _
  have i3 : (volume : Measure (ℝ × ℝ × ℝ)).IsAddHaarMeasure := by rw [Measure.volume_eq_prod]; exact Measure.prod.instIsAddHaarMeasure _ _
  rw [integral_sub_right_eq_self (fun p => f ‖toE3 p‖), toE3_preserving.integral_comp toE3_embedding (fun x => f ‖x‖),
    integral_fun_norm_addHaar, finrank_E3]
  simp only [nsmul_eq_mul, smul_eq_mul]
  push_cast
  ring

theorem integral_sq (R : ℝ) (hR : 0 ≤ R) (n : ℕ) : ∫ r in Ioc 0 R, r ^ n = R ^ (n + 1) / (n + 1) := by
  rw [← intervalIntegral.integral_of_le hR, integral_pow]
  simp

theorem unit_ball : volume.real (Metric.ball (0 : E3) 1) = 4 / 3 * π := by
  have h := integral_radial_aux 0 ((Icc (0 : ℝ) 1).indicator fun _ => 1)
  have e : (fun q : ℝ × ℝ × ℝ => (Icc (0 : ℝ) 1).indicator (fun _ => (1 : ℝ)) (vec q - 0).len) = (Ball.points 0 1).indicator fun _ => 1 := by
    funext q
    simp only [indicator, Ball.points, mem_Icc, mem_ofPred_eq, V3.len_nonneg, true_and]
    rfl
  have e' : (fun r : ℝ => r ^ 2 * (Icc (0 : ℝ) 1).indicator (fun _ => (1 : ℝ)) r) = (Icc (0 : ℝ) 1).indicator fun r => r ^ 2 := by
    funext r
    simp only [indicator]
    split_ifs <;> simp
  rw [e, e', integral_indicator (Ball.measurableSet_points _ _), setIntegral_indicator measurableSet_Icc, Ball.integral_one _ one_pos] at h
  have k : Ioi (0 : ℝ) ∩ Icc 0 1 = Ioc 0 1 := by
    ext r; simp only [mem_inter_iff, mem_Ioi, mem_Icc, mem_Ioc]; constructor
    · rintro ⟨a, _, b⟩; exact ⟨a, b⟩
    · rintro ⟨a, b⟩; exact ⟨a, a.le, b⟩
  rw [k, integral_sq 1 zero_le_one 2] at h
  norm_num at h
  linarith

/-- The integral over space of a function of the distance from `c`. -/
theorem integral_radial (c : V3 ℝ) (f : ℝ → ℝ) : ∫ q : ℝ × ℝ × ℝ, f (vec q - c).len = 4 * π * ∫ r in Ioi (0 : ℝ), r ^ 2 * f r := by
  rw [integral_radial_aux, unit_ball]
  ring

/-- Over a ball with the centre `c`. -/
theorem integral_radial_ball (c : V3 ℝ) (f : ℝ → ℝ) (R : ℝ) :
    ∫ q in Ball.points c R, f (vec q - c).len = 4 * π * ∫ r in Ioc 0 R, r ^ 2 * f r := by
  have h := integral_radial c ((Iic R).indicator f)
  have e : (fun q : ℝ × ℝ × ℝ => (Iic R).indicator f (vec q - c).len) = (Ball.points c R).indicator fun q => f (vec q - c).len := by
    funext q
    simp only [indicator, Ball.points, mem_Iic, mem_ofPred_eq]
    rfl
  have e' : (fun r : ℝ => r ^ 2 * (Iic R).indicator f r) = (Iic R).indicator fun r => r ^ 2 * f r := by
    funext r
    simp only [indicator]
    split_ifs <;> simp
  rw [e, e', integral_indicator (Ball.measurableSet_points _ _), setIntegral_indicator measurableSet_Iic] at h
  exact h

/-- The integral of `1 / r²` from `R` to infinity. -/
theorem integral_inv_sq {R : ℝ} (hR : 0 < R) : IntegrableOn (fun r : ℝ => 1 / r ^ 2) (Ioi R) ∧ ∫ r in Ioi R, 1 / r ^ 2 = 1 / R := by
  have d : ∀ x ∈ Ici R, HasDerivAt (fun r : ℝ => -r⁻¹) (1 / x ^ 2) x := fun x hx => by
    have := (hasDerivAt_inv (ne_of_gt (lt_of_lt_of_le hR hx))).neg
    rw [neg_neg, ← one_div] at this
    exact this
  have t : Filter.Tendsto (fun r : ℝ => -r⁻¹) Filter.atTop (nhds 0) := by simpa using (tendsto_inv_atTop_zero (𝕜 := ℝ)).neg
  have i := integrableOn_Ioi_deriv_of_nonneg' d (fun x _ => by positivity) t
  refine ⟨i, ?_⟩
  rw [integral_Ioi_of_hasDerivAt_of_tendsto' d i t]
  simp

end Verif.RadialIntegral
