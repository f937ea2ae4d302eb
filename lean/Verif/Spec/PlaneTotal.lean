import Verif.Spec.Vec
import Mathlib.MeasureTheory.Integral.Prod
import Mathlib.MeasureTheory.Measure.Lebesgue.Basic

/-! # What the values over a whole horizontal plane add up to (specification) -/

namespace Verif

open MeasureTheory

/-- The values of `f` over the horizontal plane at height `z` can be integrated, and their integral is `T`. -/
def PlaneTotal (f : V3 ℝ → ℝ) (z T : ℝ) : Prop :=
  Integrable (fun w : ℝ × ℝ => f ⟨w.1, w.2, z⟩) ∧ ∫ w : ℝ × ℝ, f ⟨w.1, w.2, z⟩ = T

/-- The components of `f` add up to nothing over the horizontal plane at height `z`. -/
def PlaneNull (f : V3 ℝ → V3 ℝ) (z : ℝ) : Prop :=
  PlaneTotal (fun p => (f p).x) z 0 ∧ PlaneTotal (fun p => (f p).y) z 0 ∧ PlaneTotal (fun p => (f p).z) z 0

end Verif
