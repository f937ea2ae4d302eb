import Verif.Spec.Rounding
import Verif.Model.Spatial

/-!
# Angles with rounding

Sine, cosine and the angle of a point as a numerical library computes them: each result differs from the exact one, for the number that it is given, by
at most the fraction `u` of it.
-/

namespace Verif

/-- A way of computing sines, cosines and angles. -/
structure TrigOps where
  sin : ℝ → ℝ
  cos : ℝ → ℝ
  arctan2 : ℝ → ℝ → ℝ

/-- Each result has a relative error of at most `u`. -/
structure TrigOps.Within (u : ℝ) (K : TrigOps) : Prop where
  sin_err : ∀ a, |K.sin a - Real.sin a| ≤ u * |Real.sin a|
  cos_err : ∀ a, |K.cos a - Real.cos a| ≤ u * |Real.cos a|
  arctan2_err : ∀ y x, |K.arctan2 y x - Spatial.arctan2 y x| ≤ u * |Spatial.arctan2 y x|

/-- Exact results. -/
noncomputable def TrigOps.exact : TrigOps := ⟨Real.sin, Real.cos, Spatial.arctan2⟩

end Verif
