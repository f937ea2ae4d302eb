import Verif.Lemmas.LoopMaxwell
import Verif.Props.CircularLoop

/-!
# Property C95: the loop's flux density satisfies Maxwell's equations off the wire

Neither curl nor divergence, at every point off the wire outside the narrow cone around the axis where a series is used.
-/

namespace Verif.Static.Loop

open Spatial Real

variable {s : Loop}

/-- **C95.** -/
theorem flux_curl_div (hb : s.OffBand) (ha : 0 < s.radius) :
    ∃ B : V3 ℝ → V3 ℝ, ∀ p, s.AwayFromAxis s.axis p → s.OffWire s.axis p →
      s.magneticFluxDensity p = .ok (some (B p)) ∧ HasCurl B 0 p ∧ HasDiv B 0 p := by
  have hf := hb.frame
  refine ⟨fun q => (s.mu * s.current / π) • freeB s.axis s.radius (q - s.location), fun p h1 h2 => ⟨hf.flux ha h1 h2, ?_⟩⟩
  have hp := plain hf.1 h1 h2
  obtain ⟨J, hJ, hc, ht⟩ := freeB_jac hf.1 ha s.location p (hp.pos ha (axisDist_nonneg _ _)) ((off_iff hf.1).1 h2)
  set k := s.mu * s.current / π
  have hJ' : HasJac (fun q => k • freeB s.axis s.radius (q - s.location)) ⟨J.x.map (k * ·), J.y.map (k * ·), J.z.map (k * ·)⟩ p :=
    ⟨hJ.1.const_mul k, hJ.2.1.const_mul k, hJ.2.2.const_mul k⟩
  refine ⟨⟨_, hJ', ?_⟩, ⟨_, hJ', ?_⟩⟩
  · have hx := congrArg V3.x hc
    have hy := congrArg V3.y hc
    have hz := congrArg V3.z hc
    simp only [M3.curl, V3.zero_x, V3.zero_y, V3.zero_z] at hx hy hz
    ext <;> simp [M3.curl]
    · linear_combination k * hx
    · linear_combination k * hy
    · linear_combination k * hz
  · simp only [M3.trace, V3.map_x, V3.map_y, V3.map_z] at ht ⊢
    linear_combination k * ht

/-- The field, which is the flux density over the permeability, likewise. -/
theorem field_curl_div (hb : s.OffBand) (ha : 0 < s.radius) (c : String) (hc : c.toLower = "cartesian") :
    ∃ H : V3 ℝ → V3 ℝ, ∀ p, s.AwayFromAxis s.axis p → s.OffWire s.axis p →
      s.magneticFieldIn c p = .ok (some (H p)) ∧ HasCurl H 0 p ∧ HasDiv H 0 p := by
  obtain ⟨B, hB⟩ := flux_curl_div hb ha
  refine ⟨fun q => (B q).map (· / s.mu), fun p h1 h2 => ?_⟩
  obtain ⟨h3, ⟨J, hJ, hcu⟩, ⟨J', hJ', ht⟩⟩ := hB p h1 h2
  have e : ∀ x : ℝ, x / s.mu = x * s.mu⁻¹ := fun x => div_eq_mul_inv _ _
  have hJm : ∀ {J : M3 ℝ}, HasJac B J p → HasJac (fun q => (B q).map (· / s.mu)) ⟨J.x.map (· * s.mu⁻¹), J.y.map (· * s.mu⁻¹), J.z.map (· * s.mu⁻¹)⟩ p := by
    intro J hJ
    simp only [e]
    exact ⟨hJ.1.mul_const _, hJ.2.1.mul_const _, hJ.2.2.mul_const _⟩
  refine ⟨?_, ⟨_, hJm hJ, ?_⟩, ⟨_, hJm hJ', ?_⟩⟩
  · simp [magneticFieldIn, (in_cartesian s c hc p).2, h3, bind, Except.bind, pure, Except.pure]
  · have hx := congrArg V3.x hcu
    have hy := congrArg V3.y hcu
    have hz := congrArg V3.z hcu
    simp only [M3.curl, V3.zero_x, V3.zero_y, V3.zero_z] at hx hy hz
    ext <;> simp [M3.curl]
    · linear_combination s.mu⁻¹ * hx
    · linear_combination s.mu⁻¹ * hy
    · linear_combination s.mu⁻¹ * hz
  · simp only [M3.trace, V3.map_x, V3.map_y, V3.map_z] at ht ⊢
    linear_combination s.mu⁻¹ * ht

/-- The hypotheses hold for instance for the unit loop at twice its radius. -/
example : unitLoop.OffBand ∧ 0 < unitLoop.radius ∧ unitLoop.AwayFromAxis unitLoop.axis ⟨2, 0, 0⟩ ∧
    unitLoop.OffWire unitLoop.axis ⟨2, 0, 0⟩ ∧ "cartesian".toLower = "cartesian" := by
  refine ⟨unitLoop_offBand, by simp [unitLoop], ?_, ?_, by decide +kernel⟩
  · rw [unitLoop_axis]; simp [AwayFromAxis, unitLoop, V3.len, V3.dot]; norm_num
  · rw [unitLoop_axis]; simp [OffWire, unitLoop, V3.len, V3.dot]

end Verif.Static.Loop
