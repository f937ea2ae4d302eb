import Verif.Spec.Vec
import Mathlib.Analysis.Calculus.Deriv.Basic
import Mathlib.MeasureTheory.Integral.Bochner.Set
import Mathlib.MeasureTheory.Measure.Haar.OfBasis
import Mathlib.Analysis.SpecialFunctions.Exp
import Mathlib.MeasureTheory.Integral.IntervalIntegral.Basic

/-!
# Specification: transient after switch-off and harmonic response of the same linear system

A source whose current is one before `t = 0` and zero after it produces a transient `f`.  The response to an impulse is `-f'`, so the
response to the harmonic current `exp(iωt)` is the Fourier transform of `-f'`.
-/

namespace Verif

open Filter MeasureTheory Set
open scoped Topology

/-- `f` is differentiable at every positive time, dies out, and the Fourier integral of `-f'` over the positive times converges
absolutely to `F` at the angular frequency `ω`. -/
def IsStepOff (f : ℝ → ℝ) (ω : ℝ) (F : ℂ) : Prop :=
  ∃ d : ℝ → ℝ, (∀ t, 0 < t → HasDerivAt f (d t) t) ∧ Tendsto f atTop (𝓝 0) ∧ IntegrableOn d (Ioi 0) ∧
    ∫ t in Ioi (0:ℝ), ((-d t : ℝ) : ℂ) * Complex.exp (-(Complex.I * ω) * t) = F

/-- The same for each component of a vector field at a point. -/
def IsStepOffV (f : ℝ → V3 ℝ) (ω : ℝ) (F : V3 ℂ) : Prop :=
  IsStepOff (fun t => (f t).x) ω F.x ∧ IsStepOff (fun t => (f t).y) ω F.y ∧ IsStepOff (fun t => (f t).z) ω F.z

/-- `f`, the transient after an impulse, is locally integrable and its Fourier integral over the positive times converges to `F`
(possibly not absolutely). -/
def IsImpulse (f : ℝ → ℝ) (ω : ℝ) (F : ℂ) : Prop :=
  (∀ T : ℝ, 0 < T → IntervalIntegrable f volume 0 T) ∧
    Tendsto (fun T : ℝ => ∫ t in (0:ℝ)..T, (f t : ℂ) * Complex.exp (-(Complex.I * ω) * t)) atTop (𝓝 F)

/-- The same for each component of a vector field at a point. -/
def IsImpulseV (f : ℝ → V3 ℝ) (ω : ℝ) (F : V3 ℂ) : Prop :=
  IsImpulse (fun t => (f t).x) ω F.x ∧ IsImpulse (fun t => (f t).y) ω F.y ∧ IsImpulse (fun t => (f t).z) ω F.z

end Verif
