import Verif.Spec.Calculus
import Mathlib.MeasureTheory.Integral.IntervalIntegral.Basic
import Mathlib.MeasureTheory.Integral.Bochner.Set
import Mathlib.MeasureTheory.Measure.Lebesgue.Basic
import Mathlib.MeasureTheory.Measure.Prod

/-! # Specification: coils, the voltage around them and the flux through them -/

namespace Verif

open MeasureTheory Set

variable {E : Type*} [NormedAddCommGroup E] [NormedSpace ℝ E]

/-- The integral of `F` along the straight way from `a` to `a + u`. -/
noncomputable def along (F : V3 ℝ → V3 E) (a u : V3 ℝ) : E := ∫ t in (0 : ℝ)..1, (F (a + t • u)).app u

/-- The integral of `F` once around the parallelogram with the corner `o` and the sides `u` and `v`, along `u` first. -/
noncomputable def circulation (F : V3 ℝ → V3 E) (o u v : V3 ℝ) : E :=
  along F o u + along F (o + u) v + along F (o + u + v) (-u) + along F (o + v) (-v)

/-- The flux of `F` through that parallelogram. -/
noncomputable def flux (F : V3 ℝ → V3 E) (o u v : V3 ℝ) : E :=
  ∫ w in Icc (0 : ℝ) 1 ×ˢ Icc (0 : ℝ) 1, (F (o + w.1 • u + w.2 • v)).app (u.cross v)

/-- The points of the parallelogram. -/
def coil (o u v : V3 ℝ) : Set (V3 ℝ) := {p | ∃ s ∈ Icc (0 : ℝ) 1, ∃ t ∈ Icc (0 : ℝ) 1, p = o + s • u + t • v}

/-- The flux of `F` through the six faces of the parallelepiped with the corner `o` and the edges `u`, `v`, `w`: outwards if the edges are
right-handed, inwards otherwise. -/
noncomputable def crateFlux (F : V3 ℝ → V3 E) (o u v w : V3 ℝ) : E :=
  flux F (o + w) u v - flux F o u v + (flux F (o + u) v w - flux F o v w) + (flux F (o + v) w u - flux F o w u)

/-- The points on the six faces. -/
def crate (o u v w : V3 ℝ) : Set (V3 ℝ) :=
  coil o u v ∪ coil (o + w) u v ∪ (coil o v w ∪ coil (o + u) v w) ∪ (coil o w u ∪ coil (o + v) w u)

end Verif
