import Verif.Lemmas.PrismAntideriv
import Mathlib.Analysis.Calculus.FDeriv.Partial
import Mathlib.Analysis.Calculus.FDeriv.Extend

/-! # `prism_f` is continuously differentiable on all of space (helper lemmas) -/

namespace Verif.Prism

open Real Set Filter Topology

/-- A function with continuous partial derivatives has all directional derivatives. -/
theorem kgrad_of_partials {f fx fy fz : ℝ → ℝ → ℝ → ℝ}
    (hx : ∀ x y z, HasDerivAt (fun x => f x y z) (fx x y z) x)
    (hy : ∀ x y z, HasDerivAt (fun y => f x y z) (fy x y z) y)
    (hz : ∀ x y z, HasDerivAt (fun z => f x y z) (fz x y z) z)
    (cx : Continuous fun p : ℝ × ℝ × ℝ => fx p.1 p.2.1 p.2.2)
    (cy : Continuous fun p : ℝ × ℝ × ℝ => fy p.1 p.2.1 p.2.2)
    (cz : Continuous fun p : ℝ × ℝ × ℝ => fz p.1 p.2.1 p.2.2) (x y z : ℝ) :
    KGrad f (fx x y z) (fy x y z) (fz x y z) x y z := by
  let L : ℝ → ℝ →L[ℝ] ℝ := fun c => ContinuousLinearMap.toSpanSingleton ℝ c
  have hL : Continuous L := (ContinuousLinearMap.toSpanSingletonLE ℝ ℝ ℝ).toLinearMap.continuous_of_finiteDimensional
  have inner : ∀ x (q : ℝ × ℝ), HasFDerivAt (fun q : ℝ × ℝ => f x q.1 q.2)
      ((L (fy x q.1 q.2)).coprod (L (fz x q.1 q.2))) q := by
    intro x q
    have := hasStrictFDerivAt_uncurry_coprod (u := q) (f := fun y z => f x y z) (f₁ := fun y z => L (fy x y z))
      (f₂ := fun y z => L (fz x y z)) (Eventually.of_forall fun v => (hy x v.1 v.2).hasFDerivAt)
      (Eventually.of_forall fun v => (hz x v.1 v.2).hasFDerivAt)
      ((hL.comp (cy.comp (f := fun q : ℝ × ℝ => (x, q.1, q.2)) (by fun_prop))).continuousAt)
      ((hL.comp (cz.comp (f := fun q : ℝ × ℝ => (x, q.1, q.2)) (by fun_prop))).continuousAt)
    exact this.hasFDerivAt
  have outer := hasStrictFDerivAt_uncurry_coprod (u := (x, (y, z))) (f := fun x (q : ℝ × ℝ) => f x q.1 q.2)
    (f₁ := fun x q => L (fx x q.1 q.2)) (f₂ := fun x q => (L (fy x q.1 q.2)).coprod (L (fz x q.1 q.2)))
    (Eventually.of_forall fun v => (hx v.1 v.2.1 v.2.2).hasFDerivAt) (Eventually.of_forall fun v => inner v.1 v.2)
    (hL.comp cx).continuousAt (by
      have h1 : Continuous fun p : ℝ × ℝ × ℝ => (L (fy p.1 p.2.1 p.2.2)).coprod (L (fz p.1 p.2.1 p.2.2)) := by
        have := ((hL.comp cy).clm_comp (continuous_const (y := ContinuousLinearMap.fst ℝ ℝ ℝ))).add
          ((hL.comp cz).clm_comp (continuous_const (y := ContinuousLinearMap.snd ℝ ℝ ℝ)))
        refine this.congr fun p => ?_
        ext <;> simp
      exact h1.continuousAt)
  intro a b c
  have hl : HasDerivAt (fun t : ℝ => ((x + t * a, (y + t * b, z + t * c)) : ℝ × ℝ × ℝ)) (a, (b, c)) 0 := by
    have k : ∀ u v : ℝ, HasDerivAt (fun t : ℝ => u + t * v) v 0 := fun u v => by
      simpa using ((hasDerivAt_id (0 : ℝ)).mul_const v).const_add u
    exact (k x a).prodMk ((k y b).prodMk (k z c))
  have h0 : ((x + 0 * a, (y + 0 * b, z + 0 * c)) : ℝ × ℝ × ℝ) = (x, (y, z)) := by simp
  have := HasFDerivAt.comp_hasDerivAt_of_eq (0 : ℝ) outer.hasFDerivAt hl h0.symm
  refine this.congr_deriv ?_
  change (L (fx x y z)) a + ((L (fy x y z)) b + (L (fz x y z)) c) = _
  simp [L]
  ring

/-- The bounded quotient `x² y / (x² + y²)` is continuous. -/
theorem continuous_quot : Continuous fun p : ℝ × ℝ => p.1 * p.1 * p.2 / (p.1 * p.1 + p.2 * p.2) := by
  rw [continuous_iff_continuousAt]
  intro p
  by_cases h : p.1 * p.1 + p.2 * p.2 = 0
  · have h2 : p.2 = 0 := by nlinarith [mul_self_nonneg p.1, mul_self_nonneg p.2]
    rw [ContinuousAt, h2, mul_zero, zero_div]
    refine squeeze_zero_norm (a := fun p : ℝ × ℝ => |p.2|) (fun q => ?_) ?_
    · rw [Real.norm_eq_abs, abs_div, abs_mul]
      have h1 := mul_self_nonneg q.1
      have h3 := mul_self_nonneg q.2
      rw [abs_of_nonneg h1, abs_of_nonneg (add_nonneg h1 h3)]
      refine div_le_of_le_mul₀ (add_nonneg h1 h3) (abs_nonneg _) ?_
      nlinarith [abs_nonneg q.2, mul_nonneg (abs_nonneg q.2) h3]
    · have : Continuous fun p : ℝ × ℝ => |p.2| := by fun_prop
      simpa [h2] using this.tendsto p
  · exact ContinuousAt.div (by fun_prop) (by fun_prop) h

/-- The derivative of `prism_f` in its first coordinate. -/
noncomputable def dF (x y z : ℝ) : ℝ :=
  -(Py.prismFz y z x + x * x * y / (x * x + y * y) + x * x * z / (x * x + z * z))

theorem continuous_dF : Continuous fun p : ℝ × ℝ × ℝ => dF p.1 p.2.1 p.2.2 := by
  have h1 := continuous_prismFz.comp (f := fun p : ℝ × ℝ × ℝ => (p.2.1, p.2.2, p.1)) (by fun_prop)
  have h2 := continuous_quot.comp (f := fun p : ℝ × ℝ × ℝ => (p.1, p.2.1)) (by fun_prop)
  have h3 := continuous_quot.comp (f := fun p : ℝ × ℝ × ℝ => (p.1, p.2.2)) (by fun_prop)
  exact ((h1.add h2).add h3).neg

theorem hasDerivAt_prismF_all (x y z : ℝ) : HasDerivAt (fun x => Py.prismF x y z) (dF x y z) x := by
  refine hasDerivAt_of_hasDerivAt_of_ne' (f := fun x => Py.prismF x y z) (g := fun x => dF x y z) (x := 0)
    (fun x hx => ?_) ?_ ?_ x
  · simpa [dF] using (hasDerivAt_prismF (y := y) (z := z) hx).fun_neg
  · exact (continuous_prismF.comp (f := fun x : ℝ => (x, y, z)) (by fun_prop)).continuousAt
  · exact (continuous_dF.comp (f := fun x : ℝ => (x, y, z)) (by fun_prop)).continuousAt

theorem prismF_cycle (x y z : ℝ) : Py.prismF y z x = Py.prismF x y z := by
  rw [prismF_all, prismF_all]
  ring

/-- `prism_f` has all its directional derivatives at every point. -/
theorem kgrad_prismF_all (x y z : ℝ) : KGrad Py.prismF (dF x y z) (dF y z x) (dF z x y) x y z := by
  refine kgrad_of_partials (fx := dF) (fy := fun x y z => dF y z x) (fz := fun x y z => dF z x y)
    hasDerivAt_prismF_all (fun x y z => ?_) (fun x y z => ?_) continuous_dF ?_ ?_ x y z
  · simpa only [prismF_cycle x _ z] using hasDerivAt_prismF_all y z x
  · have := hasDerivAt_prismF_all z x y
    have e : (fun z => Py.prismF z x y) = fun z => Py.prismF x y z := funext fun z => by
      rw [← prismF_cycle z x y]
    rwa [e] at this
  · exact continuous_dF.comp (f := fun p : ℝ × ℝ × ℝ => (p.2.1, p.2.2, p.1)) (by fun_prop)
  · exact continuous_dF.comp (f := fun p : ℝ × ℝ × ℝ => (p.2.2, p.1, p.2.1)) (by fun_prop)

end Verif.Prism
