import Verif.Spec.Vec
import Mathlib.Analysis.Complex.Basic

/-!
# Specification: energy flux

Poynting's vector of a real field and, averaged over a period, of a harmonic one; the size of a complex vector.  Nothing here depends on the modelled code.
-/

namespace Verif.Energy

/-- The energy that flows through a unit area per unit time, for the electric field `E` and the magnetic field `H` at one time. -/
def flow (E H : V3 ℝ) : V3 ℝ := E.cross H

/-- The same, averaged over a period, for fields that are the real parts of `E exp(i ω t)` and `H exp(i ω t)`. -/
noncomputable def meanFlow (E H : V3 ℂ) : V3 ℝ :=
  let S := E.cross (H.map (starRingEnd ℂ))
  ⟨S.x.re / 2, S.y.re / 2, S.z.re / 2⟩

/-- `|E|²` of a complex vector. -/
noncomputable def sqLen (E : V3 ℂ) : ℝ := Complex.normSq E.x + Complex.normSq E.y + Complex.normSq E.z

/-- `meanFlow` is the average of `flow` over the phase: the fields at the phase `φ` are the real parts of `E exp(i φ)` and `H exp(i φ)`, and a quarter of a
period later the flow has the opposite deviation from the average. -/
theorem meanFlow_eq (E H : V3 ℂ) (c : ℂ) (hc : Complex.normSq c = 1) :
    let at_ (c : ℂ) := flow (E.map fun e => (e * c).re) (H.map fun h => (h * c).re)
    meanFlow E H = (1 / 2 : ℝ) • (at_ c + at_ (Complex.I * c)) := by
  intro at_
  rw [Complex.normSq_apply] at hc
  ext <;> simp [meanFlow, at_, flow] <;> grind

end Verif.Energy
