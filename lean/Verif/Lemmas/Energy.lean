import Verif.Spec.Energy
import Verif.Lemmas.Grad
import Verif.Lemmas.Radial
import Mathlib.Analysis.Complex.RealDeriv

/-! # The divergence of the energy flux (helper lemmas for C126) -/

namespace Verif.Energy

variable {p : V3 ℝ}

theorem hasGrad_re {f : V3 ℝ → ℂ} {g : V3 ℂ} (h : HasGrad f g p) : HasGrad (fun q => (f q).re) (g.map Complex.re) p := by
  intro v
  have := Complex.reCLM.hasFDerivAt.comp_hasDerivAt (0 : ℝ) (h v)
  refine this.congr_deriv ?_
  simp [V3.app]

theorem hasGrad_im {f : V3 ℝ → ℂ} {g : V3 ℂ} (h : HasGrad f g p) : HasGrad (fun q => (f q).im) (g.map Complex.im) p := by
  intro v
  have := Complex.imCLM.hasFDerivAt.comp_hasDerivAt (0 : ℝ) (h v)
  refine this.congr_deriv ?_
  simp [V3.app]

/-- `div (E × H) = H · curl E - E · curl H`. -/
theorem div_flow {E H : V3 ℝ → V3 ℝ} {a b : V3 ℝ} (hE : HasCurl E a p) (hH : HasCurl H b p) :
    HasDiv (fun q => flow (E q) (H q)) ((H p).dot a - (E p).dot b) p := by
  obtain ⟨J, ⟨e1, e2, e3⟩, rfl⟩ := hE
  obtain ⟨K, ⟨h1, h2, h3⟩, rfl⟩ := hH
  refine ⟨⟨_, _, _⟩, ⟨(e2.mul h3).sub (e3.mul h2), (e3.mul h1).sub (e1.mul h3), (e1.mul h2).sub (e2.mul h1)⟩, ?_⟩
  simp only [M3.trace, M3.curl, V3.dot, V3.sub_x, V3.sub_y, V3.sub_z, V3.add_x, V3.add_y, V3.add_z, V3.map]
  ring

/-- The same for the average over a period. -/
theorem div_meanFlow {E H : V3 ℝ → V3 ℂ} {a b : V3 ℂ} (hE : HasCurl E a p) (hH : HasCurl H b p) :
    HasDiv (fun q => meanFlow (E q) (H q)) (((((H p).map (starRingEnd ℂ)).dot a).re - ((E p).dot (b.map (starRingEnd ℂ))).re) / 2) p := by
  obtain ⟨J, ⟨e1, e2, e3⟩, rfl⟩ := hE
  obtain ⟨K, ⟨h1, h2, h3⟩, rfl⟩ := hH
  have key : ∀ {f g f' g' : V3 ℝ → ℂ} {a b a' b' : V3 ℂ}, HasGrad f a p → HasGrad g b p → HasGrad f' a' p → HasGrad g' b' p →
      HasGrad (fun q => (f q * starRingEnd ℂ (g q) - f' q * starRingEnd ℂ (g' q)).re / 2) _ p := fun hf hg hf' hg' =>
    HasGrad.congr_of_lines (((((hasGrad_re hf).mul (hasGrad_re hg)).add ((hasGrad_im hf).mul (hasGrad_im hg))).sub
      (((hasGrad_re hf').mul (hasGrad_re hg')).add ((hasGrad_im hf').mul (hasGrad_im hg')))).const_mul (1 / 2)) fun v => by
        refine Filter.Eventually.of_forall fun t => ?_
        simp
        ring
  refine ⟨⟨_, _, _⟩, ⟨key e2 h3 e3 h2, key e3 h1 e1 h3, key e1 h2 e2 h1⟩, ?_⟩
  simp [M3.trace, M3.curl, V3.dot]
  ring

end Verif.Energy
