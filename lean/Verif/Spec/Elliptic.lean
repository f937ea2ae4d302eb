import Mathlib.MeasureTheory.Integral.IntervalIntegral.Basic
import Mathlib.Analysis.SpecialFunctions.Trigonometric.Basic
import Mathlib.Analysis.SpecialFunctions.Sqrt

/-! # Complete elliptic integrals (specification of `scipy.special.ellipk` and `ellipe` for a parameter `m < 1`) -/

namespace Verif

open Real

/-- `K(m) = ∫₀^{π/2} (1 - m sin²θ)^(-1/2) dθ` -/
noncomputable def ellipK (m : ℝ) : ℝ := ∫ t in (0 : ℝ)..(π / 2), 1 / √(1 - m * sin t ^ 2)

/-- `E(m) = ∫₀^{π/2} (1 - m sin²θ)^(1/2) dθ` -/
noncomputable def ellipE (m : ℝ) : ℝ := ∫ t in (0 : ℝ)..(π / 2), √(1 - m * sin t ^ 2)

end Verif
