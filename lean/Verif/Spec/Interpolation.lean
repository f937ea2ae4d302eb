import Mathlib.Analysis.SpecialFunctions.Trigonometric.Basic
import Verif.Spec.Vec

/-! # What is expected of interpolation between stations and of the shading of a surface -/

namespace Verif

/-- Station `k` is one of those closest to `p`. -/
def IsNearest (pts : List (ℝ × ℝ)) (p : ℝ × ℝ) (k : ℕ) : Prop :=
  ∃ q, pts[k]? = some q ∧ ∀ q' ∈ pts, (q.1 - p.1) ^ 2 + (q.2 - p.2) ^ 2 ≤ (q'.1 - p.1) ^ 2 + (q'.2 - p.2) ^ 2

/-- `p` is the mean of stations with the weights `w` (for linear interpolation: the corners of a triangle around `p`). -/
structure IsMean (pts : List (ℝ × ℝ)) (p : ℝ × ℝ) (w : List (ℕ × ℝ)) : Prop where
  station : ∀ c ∈ w, c.1 < pts.length
  nonneg : ∀ c ∈ w, 0 ≤ c.2
  total : (w.map (·.2)).sum = 1
  x : (w.map fun c => c.2 * (pts.getD c.1 0).1).sum = p.1
  y : (w.map fun c => c.2 * (pts.getD c.1 0).2).sum = p.2

/-- The unit vector to a light at an azimuth (degrees, clockwise from north, the direction of `y`) and at an altitude (degrees above the horizon). -/
noncomputable def lightDirection (azimuth altitude : ℝ) : V3 ℝ :=
  ⟨Real.sin (azimuth * Real.pi / 180) * Real.cos (altitude * Real.pi / 180),
   Real.cos (azimuth * Real.pi / 180) * Real.cos (altitude * Real.pi / 180), Real.sin (altitude * Real.pi / 180)⟩

/-- The unit normal, upwards, of the surface `z = f x y` with slopes `p` along `x` and `q` along `y`. -/
noncomputable def surfaceNormal (p q : ℝ) : V3 ℝ := (1 / Real.sqrt (1 + p ^ 2 + q ^ 2)) • ⟨-p, -q, 1⟩

/-- Brightness between 0 (facing away from the light) and 255 (facing it). -/
noncomputable def brightness (p q : ℝ) (light : V3 ℝ) : ℝ := 255 * ((surfaceNormal p q).dot light + 1) / 2

end Verif
