import Mathlib.MeasureTheory.Integral.IntervalIntegral.Basic
import Mathlib.Analysis.SpecialFunctions.Trigonometric.Basic

/-! # The Bessel functions of the Hankel transforms (specification) -/

namespace Verif

open Real

/-- `J_0(x) = 1/π ∫₀^π cos(x cos t) dt` -/
noncomputable def besselJ0 (x : ℝ) : ℝ := 1 / π * ∫ t in (0 : ℝ)..π, cos (x * cos t)

/-- `J_1(x) = 1/π ∫₀^π cos t sin(x cos t) dt` -/
noncomputable def besselJ1 (x : ℝ) : ℝ := 1 / π * ∫ t in (0 : ℝ)..π, cos t * sin (x * cos t)

end Verif
