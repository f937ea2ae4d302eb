import Mathlib.MeasureTheory.Integral.IntervalIntegral.Basic
import Mathlib.Analysis.SpecialFunctions.ExpDeriv
import Mathlib.Analysis.SpecialFunctions.Trigonometric.Basic

/-! # Modified Bessel functions of a complex argument
(specification of `scipy.special.iv` and `scipy.special.kv` for integer order, `Re z > 0`) -/

namespace Verif

open Real MeasureTheory Set

/-- `I_n(z) = 1/π ∫₀^π exp(z cos t) cos(n t) dt` -/
noncomputable def cbesselI (n : ℕ) (z : ℂ) : ℂ :=
  1 / (π : ℂ) * ∫ t in (0 : ℝ)..π, Complex.exp (z * (cos t : ℝ)) * (cos (n * t) : ℝ)

/-- `K_n(z) = ∫₀^∞ exp(-z cosh t) cosh(n t) dt`, for `Re z > 0` -/
noncomputable def cbesselK (n : ℕ) (z : ℂ) : ℂ :=
  ∫ t in Ioi (0 : ℝ), Complex.exp (-z * (cosh t : ℝ)) * (cosh (n * t) : ℝ)

end Verif
