import Verif.Lemmas.LineAmpere
import Verif.Props.LineCurrent

/-!
# Property C94: Ampère's law for wires

The magnetic field of a wire is computed without the currents that flow through the ground from one end to the other.  Nevertheless its
curl is the current density that the code reports for these currents, and the flux density has no sources.
-/

namespace Verif.Static

open V3 Spatial BiotSavart

theorem segSum_telescope (g : V3 ℝ → V3 ℝ) (n0 : V3 ℝ) (rest : List (V3 ℝ)) :
    segSum (fun a b => g a - g b) (n0 :: rest) = g n0 - g ((n0 :: rest).getLast (by simp)) := by
  induction rest generalizing n0 with
  | nil => simp [segSum]
  | cons n1 t ih =>
    rw [segSum, ih n1, List.getLast_cons_cons]
    abel

theorem segSum_flux_jac (nodes : List (V3 ℝ)) (p : V3 ℝ) (h : nodes.IsChain (fun a b => a ≠ b ∧ OffLine a b p)) :
    ∃ J, HasJac (fun q => segSum (fun a b => fluxFree a b q) nodes) J p ∧
      J.curl = segSum (fun a b => (1 / (p - a).len ^ 3) • (p - a) - (1 / (p - b).len ^ 3) • (p - b)) nodes ∧ M3.trace J = 0 := by
  have zero : ∃ J, HasJac (fun _ : V3 ℝ => (0 : V3 ℝ)) J p ∧ J.curl = 0 ∧ M3.trace J = 0 :=
    ⟨⟨0, 0, 0⟩, ⟨hasGrad_const _ _, hasGrad_const _ _, hasGrad_const _ _⟩, by ext <;> simp [M3.curl], by simp [M3.trace]⟩
  induction nodes with
  | nil => exact zero
  | cons p0 t ih =>
    cases t with
    | nil => exact zero
    | cons p1 t =>
      rw [List.isChain_cons_cons] at h
      obtain ⟨J, hJ, hc, ht⟩ := fluxFree_jac h.1.1 h.1.2
      obtain ⟨K, hK, hc', ht'⟩ := ih h.2
      refine ⟨⟨J.x + K.x, J.y + K.y, J.z + K.z⟩, ⟨hJ.1.add hK.1, hJ.2.1.add hK.2.1, hJ.2.2.add hK.2.2⟩, ?_, ?_⟩
      · rw [segSum, ← hc, ← hc']
        ext <;> simp [M3.curl] <;> ring
      · simp only [M3.trace, V3.add_x, V3.add_y, V3.add_z] at ht ht' ⊢
        linarith

/-- **C94.** For every wire with at least one segment, grounded or closed, there is a field that the code returns off the lines through
the segments; there, its curl is the current density that the code returns, and its divergence is zero. -/
theorem line_ampere (s : LineCurrent) (hmu : 0 < s.mu) (hsig : 0 < s.sigma) (hn : 2 ≤ s.nodes.length) (hr : Regular s.nodes) :
    ∃ H : V3 ℝ → V3 ℝ, ∀ p, Off s.nodes p →
      s.magneticField p = .ok (H p) ∧ (∃ j, s.currentDensity p = .ok j ∧ HasCurl H j p) ∧ HasDiv H 0 p := by
  have hr' : s.nodes.IsChain (· ≠ ·) := hr.imp fun a b h => h.1
  set k := -s.current / (4 * Real.pi) with hk
  refine ⟨fun q => k • segSum (fun a b => fluxFree a b q) s.nodes, fun p ho => ?_⟩
  obtain ⟨J, hJ, hc, ht⟩ := segSum_flux_jac s.nodes p (chain_and hr' ho)
  have hJ' : HasJac (fun q => k • segSum (fun a b => fluxFree a b q) s.nodes) ⟨J.x.map (k * ·), J.y.map (k * ·), J.z.map (k * ·)⟩ p :=
    ⟨hJ.1.const_mul k, hJ.2.1.const_mul k, hJ.2.2.const_mul k⟩
  refine ⟨?_, ?_, ⟨_, hJ', ?_⟩⟩
  · simp only [LineCurrent.magneticField, flux_closed_form s p hr ho, bind, Except.bind, pure, Except.pure]
    congr 1
    ext <;> simp [hk] <;> field_simp
  · obtain ⟨mu, sigma, cur, nodes⟩ := s
    match nodes, hn with
    | n0 :: n1 :: rest, _ =>
      have hcurl : M3.curl ⟨J.x.map (k * ·), J.y.map (k * ·), J.z.map (k * ·)⟩ = k • J.curl := by
        ext <;> simp [M3.curl] <;> ring
      simp only at hc hsig hmu
      rw [hc, segSum_telescope (fun a => (1 / (p - a).len ^ 3) • (p - a)), List.getLast_cons_cons] at hcurl
      by_cases hlast : (n1 :: rest).getLast (by simp) = n0
      · refine ⟨0, ?_, ⟨_, hJ', ?_⟩⟩
        · simp only [LineCurrent.currentDensity, LineCurrent.electricField, hlast, if_true, bind, Except.bind, pure, Except.pure]
          congr 1
          ext <;> simp
        · rw [hcurl, hlast, sub_self, smul_zero]
      · refine ⟨_, ?_, ⟨_, hJ', hcurl⟩⟩
        simp only [LineCurrent.currentDensity, LineCurrent.electricField, hlast, if_false, bind, Except.bind, pure, Except.pure]
        congr 1
        ext <;> simp [hk] <;> field_simp <;> ring
  · simp only [M3.trace, V3.map_x, V3.map_y, V3.map_z] at ht ⊢
    linear_combination k * ht

/-- A wire with a single node has no magnetic field, although current flows from it. -/
theorem single_node (s : LineCurrent) (n0 q : V3 ℝ) (hn : s.nodes = [n0]) (hsig : 0 < s.sigma) (hcur : s.current ≠ 0) (hq : q ≠ n0) :
    s.magneticField q = .ok 0 ∧ ∃ j, s.currentDensity q = .ok j ∧ j ≠ 0 := by
  constructor
  · simp only [LineCurrent.magneticField, LineCurrent.magneticFluxDensity, hn, sumSegments, bind, Except.bind, pure, Except.pure]
    congr 1
    ext <;> simp
  · have e : s.currentDensity q = .ok (((q - n0).map (fun c => s.current / (4 * Real.pi * s.sigma) * (c / (q - n0).len ^ 3))).map
        (s.sigma * ·)) := by
      simp only [LineCurrent.currentDensity, LineCurrent.electricField, hn, bind, Except.bind, pure, Except.pure]
    refine ⟨_, e, fun h => ?_⟩
    have hl := len_sub_ne_zero hq
    have hpi := Real.pi_ne_zero
    apply hq
    rw [← sub_eq_zero]
    have hx := congrArg V3.x h
    have hy := congrArg V3.y h
    have hz := congrArg V3.z h
    simp [hsig.ne', hcur, hl, hpi] at hx hy hz
    ext
    · simpa using hx
    · simpa using hy
    · simpa using hz

/-- A wire without nodes has no magnetic field; its potential, electric field and current density raise. -/
theorem no_nodes (s : LineCurrent) (q : V3 ℝ) (hn : s.nodes = []) :
    s.magneticField q = .ok 0 ∧ s.scalarPotential q = .error .indexError ∧ s.electricField q = .error .indexError ∧
      s.currentDensity q = .error .indexError := by
  refine ⟨?_, by simp [LineCurrent.scalarPotential, hn], by simp [LineCurrent.electricField, hn],
    by simp [LineCurrent.currentDensity, LineCurrent.electricField, hn, bind, Except.bind]⟩
  simp only [LineCurrent.magneticField, LineCurrent.magneticFluxDensity, hn, sumSegments, bind, Except.bind, pure, Except.pure]
  congr 1
  ext <;> simp

/-- A grounded wire with two segments and a point off their lines meet the hypotheses. -/
example : 2 ≤ ([⟨0, 0, 0⟩, ⟨1, 0, 0⟩, ⟨1, 1, 0⟩] : List (V3 ℝ)).length ∧ Regular [⟨0, 0, 0⟩, ⟨1, 0, 0⟩, ⟨1, 1, 0⟩] ∧
    Off [⟨0, 0, 0⟩, ⟨1, 0, 0⟩, ⟨1, 1, 0⟩] ⟨0, 0, 1⟩ := by
  refine ⟨by simp, ?_, ?_⟩
  · simp only [Regular, List.isChain_cons_cons, List.isChain_singleton, and_true]
    refine ⟨⟨by simp [V3.ext_iff], .inl ?_⟩, by simp [V3.ext_iff], .inr ?_⟩
    · simp [unit, V3.len]
    · norm_num [unit, V3.len, defaultTol]
  · simp [Off, OffLine, V3.ext_iff]

end Verif.Static
