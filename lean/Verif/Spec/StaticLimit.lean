import Verif.Spec.Vec
import Mathlib.Analysis.Complex.Basic
import Mathlib.Analysis.SpecialFunctions.Trigonometric.Basic

/-! # What the limits of the fields of point sources are compared with; independent of the model -/

namespace Verif

open Filter Topology

/-- Convergence of the three components. -/
def V3.Tends {ι α : Type*} [TopologicalSpace α] (F : ι → V3 α) (l : Filter ι) (v : V3 α) : Prop :=
  Tendsto (fun i => (F i).x) l (𝓝 v.x) ∧ Tendsto (fun i => (F i).y) l (𝓝 v.y) ∧ Tendsto (fun i => (F i).z) l (𝓝 v.z)

namespace CurrentElement

/-- The electric field, in a medium of conductivity `sigma`, of a steady current element of moment `m` (current times length), at the
displacement `d` from it. -/
noncomputable def electric (sigma : ℝ) (m d : V3 ℝ) : V3 ℝ :=
  (1 / (4 * Real.pi * sigma)) • ((3 * m.dot d / d.len ^ 5) • d - (1 / d.len ^ 3) • m)

/-- Its magnetic field, by the law of Biot and Savart. -/
noncomputable def magnetic (m d : V3 ℝ) : V3 ℝ := (1 / (4 * Real.pi * d.len ^ 3)) • m.cross d

end CurrentElement

end Verif
