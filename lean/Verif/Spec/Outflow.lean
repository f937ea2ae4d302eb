import Verif.Spec.Vec
import Mathlib.MeasureTheory.Integral.Bochner.Set
import Mathlib.MeasureTheory.Measure.Lebesgue.Basic
import Mathlib.MeasureTheory.Measure.Prod

/-! # Specification: what flows out of a box -/

namespace Verif

open MeasureTheory Set

/-- The flow of `F` through the six faces of the box between the corners `lo` and `hi`, counted outwards, can be integrated and adds up to `T`. -/
def Outflow (F : V3 ℝ → V3 ℝ) (lo hi : V3 ℝ) (T : ℝ) : Prop :=
  let X := Icc lo.y hi.y ×ˢ Icc lo.z hi.z
  let Y := Icc lo.x hi.x ×ˢ Icc lo.z hi.z
  let Z := Icc lo.x hi.x ×ˢ Icc lo.y hi.y
  (∀ x, x = lo.x ∨ x = hi.x → IntegrableOn (fun w : ℝ × ℝ => (F ⟨x, w.1, w.2⟩).x) X) ∧
  (∀ y, y = lo.y ∨ y = hi.y → IntegrableOn (fun w : ℝ × ℝ => (F ⟨w.1, y, w.2⟩).y) Y) ∧
  (∀ z, z = lo.z ∨ z = hi.z → IntegrableOn (fun w : ℝ × ℝ => (F ⟨w.1, w.2, z⟩).z) Z) ∧
  (∫ w in X, (F ⟨hi.x, w.1, w.2⟩).x) - (∫ w in X, (F ⟨lo.x, w.1, w.2⟩).x) +
  ((∫ w in Y, (F ⟨w.1, hi.y, w.2⟩).y) - ∫ w in Y, (F ⟨w.1, lo.y, w.2⟩).y) +
  ((∫ w in Z, (F ⟨w.1, w.2, hi.z⟩).z) - ∫ w in Z, (F ⟨w.1, w.2, lo.z⟩).z) = T

end Verif
