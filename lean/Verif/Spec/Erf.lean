import Mathlib.MeasureTheory.Integral.IntervalIntegral.FundThmCalculus
import Mathlib.Analysis.SpecialFunctions.ExpDeriv
import Mathlib.Analysis.SpecialFunctions.Trigonometric.Basic
import Mathlib.Analysis.SpecialFunctions.Sqrt

/-! # The error function (specification of `scipy.special.erf` on real arguments) -/

namespace Verif

/-- `erf x = 2/√π ∫₀ˣ exp(-t²) dt`. -/
noncomputable def erf (x : ℝ) : ℝ := 2 / Real.sqrt Real.pi * ∫ t in (0:ℝ)..x, Real.exp (-t ^ 2)

theorem hasDerivAt_erf (x : ℝ) : HasDerivAt erf (2 / Real.sqrt Real.pi * Real.exp (-x ^ 2)) x := by
  have hc : Continuous (fun t : ℝ => Real.exp (-t ^ 2)) := by fun_prop
  exact (intervalIntegral.integral_hasDerivAt_right (hc.intervalIntegrable _ _)
    (hc.stronglyMeasurableAtFilter _ _) hc.continuousAt).const_mul _

@[simp] theorem erf_zero : erf 0 = 0 := by simp [erf]

/-- `erf` is odd. -/
theorem erf_neg (x : ℝ) : erf (-x) = -erf x := by
  have h : ∫ t in (0:ℝ)..(-x), Real.exp (-t ^ 2) = -∫ t in (0:ℝ)..x, Real.exp (-t ^ 2) := by
    have := intervalIntegral.integral_comp_neg (a := 0) (b := x) (fun t : ℝ => Real.exp (-t ^ 2))
    simp only [neg_sq, neg_zero] at this
    rw [this, intervalIntegral.integral_symm]
  rw [erf, h, erf]; ring

end Verif
