import Verif.Spec.Calculus
import Mathlib.Analysis.Real.Pi.Bounds
import Mathlib.MeasureTheory.Integral.IntervalIntegral.Basic

/-!
# Specification: isotropic elasticity in the halfspace `z ≤ 0`

Stress, equilibrium, the displacement of a point force on the surface (Cerruti and Boussinesq) and the surface displacement of a
dislocation (Volterra).  Nothing here depends on the modelled code.
-/

namespace Verif.Elastic

open Real

/-- Hooke's law: the stress of a displacement field with Jacobian `J` in a medium with the Lamé parameters `lam` and `mu`. -/
def stress (lam mu : ℝ) (J : M3 ℝ) : M3 ℝ :=
  let t := lam * (J.x.x + J.y.y + J.z.z)
  ⟨⟨t + 2 * mu * J.x.x, mu * (J.x.y + J.y.x), mu * (J.x.z + J.z.x)⟩,
   ⟨mu * (J.y.x + J.x.y), t + 2 * mu * J.y.y, mu * (J.y.z + J.z.y)⟩,
   ⟨mu * (J.z.x + J.x.z), mu * (J.z.y + J.y.z), t + 2 * mu * J.z.z⟩⟩

/-- The traction across an element with normal `n`. -/
def traction (s : M3 ℝ) (n : V3 ℝ) : V3 ℝ := ⟨s.x.dot n, s.y.dot n, s.z.dot n⟩

/-- The matrix of partial derivatives. -/
noncomputable def jac (F : V3 ℝ → V3 ℝ) (p : V3 ℝ) : M3 ℝ :=
  let row := fun f : V3 ℝ → ℝ => (⟨deriv (fun t => f ⟨t, p.y, p.z⟩) p.x, deriv (fun t => f ⟨p.x, t, p.z⟩) p.y,
    deriv (fun t => f ⟨p.x, p.y, t⟩) p.z⟩ : V3 ℝ)
  ⟨row fun q => (F q).x, row fun q => (F q).y, row fun q => (F q).z⟩

/-- The stress field of `F` is free of divergence at `p`: no body force acts there. -/
def InEquilibrium (lam mu : ℝ) (F : V3 ℝ → V3 ℝ) (p : V3 ℝ) : Prop :=
  HasDiv (fun q => (stress lam mu (jac F q)).x) 0 p ∧ HasDiv (fun q => (stress lam mu (jac F q)).y) 0 p ∧
    HasDiv (fun q => (stress lam mu (jac F q)).z) 0 p

/-- The force that the part of the medium above the plane `z = -h` exerts on the part below it. -/
noncomputable def planeForce (lam mu : ℝ) (F : V3 ℝ → V3 ℝ) (h : ℝ) : V3 ℝ :=
  ⟨∫ x, ∫ y, (traction (stress lam mu (jac F ⟨x, y, -h⟩)) ⟨0, 0, 1⟩).x, ∫ x, ∫ y, (traction (stress lam mu (jac F ⟨x, y, -h⟩)) ⟨0, 0, 1⟩).y,
   ∫ x, ∫ y, (traction (stress lam mu (jac F ⟨x, y, -h⟩)) ⟨0, 0, 1⟩).z⟩

/-- Displacement at `p` for a unit force applied to the surface at the origin: row `x`, `y` or `z` for a force in that direction. -/
noncomputable def surfaceForce (lam mu : ℝ) (p : V3 ℝ) : M3 ℝ :=
  let R := p.len
  let t := R - p.z
  let m := mu / (lam + mu)
  (1 / (4 * π * mu)) •
  (⟨⟨1 / R + p.x ^ 2 / R ^ 3 + m * (1 / t - p.x ^ 2 / (R * t ^ 2)), p.x * p.y * (1 / R ^ 3 - m / (R * t ^ 2)),
      p.x * p.z / R ^ 3 - m * p.x / (R * t)⟩,
    ⟨p.x * p.y * (1 / R ^ 3 - m / (R * t ^ 2)), 1 / R + p.y ^ 2 / R ^ 3 + m * (1 / t - p.y ^ 2 / (R * t ^ 2)),
      p.y * p.z / R ^ 3 - m * p.y / (R * t)⟩,
    ⟨p.x * p.z / R ^ 3 + m * p.x / (R * t), p.y * p.z / R ^ 3 + m * p.y / (R * t), 1 / R + p.z ^ 2 / R ^ 3 + m / R⟩⟩ : M3 ℝ)

/-- Volterra's formula: the displacement of the surface point at the origin for a unit area of dislocation at `p` with slip `b` and
normal `n`.  Its component along an axis is the work that the traction of the field of a unit surface force along that axis does on the
slip. -/
noncomputable def dislocation (lam mu : ℝ) (b n p : V3 ℝ) : V3 ℝ :=
  ⟨b.dot (traction (stress lam mu (jac (fun q => (surfaceForce lam mu q).x) p)) n),
   b.dot (traction (stress lam mu (jac (fun q => (surfaceForce lam mu q).y) p)) n),
   b.dot (traction (stress lam mu (jac (fun q => (surfaceForce lam mu q).z) p)) n)⟩

/-- The displacement of the surface point `o` for a slip `b` on the surface `(a, w) ↦ S a w` with normal `n` and unit area element,
where `a` runs from `a1` to `a2` and `w` from `w1` to `w2`. -/
noncomputable def faultDisplacement (lam mu : ℝ) (b n : V3 ℝ) (S : ℝ → ℝ → V3 ℝ) (a1 a2 w1 w2 : ℝ) (o : V3 ℝ) : V3 ℝ :=
  ⟨∫ w in w1..w2, ∫ a in a1..a2, (dislocation lam mu b n (S a w - o)).x,
   ∫ w in w1..w2, ∫ a in a1..a2, (dislocation lam mu b n (S a w - o)).y,
   ∫ w in w1..w2, ∫ a in a1..a2, (dislocation lam mu b n (S a w - o)).z⟩

end Verif.Elastic
