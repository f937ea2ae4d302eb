import Mathlib.Analysis.Calculus.Deriv.Basic
import Mathlib.Analysis.Complex.Basic

/-!
# Specification: a plane of transverse electric field incident on a layered earth

Written from Maxwell's equations for the `e^{+iωt}` time dependence, for one horizontal wavenumber, with the depth `z`
positive downwards and the surface at `z = 0`: in a medium with properties `σ`, `μ`, the tangential electric field satisfies
`E'' = (λ² + iωμσ) E`, and `E` and `E'/μ` are continuous across interfaces.
-/

namespace Verif.LayeredWave

open Filter Topology Complex

/-- A layered earth: layers `0 … n`, thicknesses `0 … n-1`. -/
structure Earth where
  omega : ℝ
  lamb : ℝ
  mu0 : ℝ
  n : ℕ
  sigma : ℕ → ℂ
  mu : ℕ → ℂ
  h : ℕ → ℝ

/-- Depth of the top of layer `k`. -/
def Earth.top (e : Earth) : ℕ → ℝ
  | 0 => 0
  | k + 1 => e.top k + e.h k

/-- `r` is the amplitude of the upgoing field at the surface when a unit field is sent down through non-conducting air:
the field in the air is `e^{-λz} + r e^{λz}`, and the earth supports a field that matches it and dies out at depth. -/
def IsReflection (e : Earth) (r : ℂ) : Prop :=
  ∃ E D : ℕ → ℝ → ℂ,
    (∀ k ≤ e.n, ∀ z, HasDerivAt (E k) (D k z) z) ∧
    (∀ k ≤ e.n, ∀ z, HasDerivAt (D k) (((e.lamb : ℂ) ^ 2 + I * e.omega * e.mu k * e.sigma k) * E k z) z) ∧
    (∀ k < e.n, E k (e.top (k + 1)) = E (k + 1) (e.top (k + 1))) ∧
    (∀ k < e.n, D k (e.top (k + 1)) / e.mu k = D (k + 1) (e.top (k + 1)) / e.mu (k + 1)) ∧
    Tendsto (E e.n) atTop (𝓝 0) ∧
    E 0 0 = 1 + r ∧
    D 0 0 / e.mu 0 = (-e.lamb + e.lamb * r) / e.mu0

end Verif.LayeredWave
