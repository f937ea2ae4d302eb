import Mathlib.MeasureTheory.Integral.IntervalIntegral.Basic
import Mathlib.Analysis.SpecialFunctions.ExpDeriv
import Mathlib.Analysis.SpecialFunctions.Trigonometric.Basic

/-! # Modified Bessel functions (specification of `scipy.special.ive` for integer order and real argument) -/

namespace Verif

open Real

/-- `I_n(x) = 1/π ∫₀^π exp(x cos t) cos(n t) dt` -/
noncomputable def besselI (n : ℕ) (x : ℝ) : ℝ := 1 / π * ∫ t in (0 : ℝ)..π, exp (x * cos t) * cos (n * t)

/-- `scipy.special.ive(n, x) = exp(-|x|) I_n(x)` -/
noncomputable def besselIe (n : ℕ) (x : ℝ) : ℝ := exp (-|x|) * besselI n x

end Verif
