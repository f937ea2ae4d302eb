import Verif.Model.WireFinite
import Verif.Props.ReciprocityWires

/-!
# C107: the fields of a wire off the wire

The vector potential is the integral along the wire at every point that is not on it.  The flux density is so off the lines through the
segments, and not finite on them.
-/

namespace Verif.Static

open V3 WireIntegral Real Spatial

variable {p0 p1 q : V3 ℝ}

/-! ## Points on the line through a segment -/

theorem onLine_of (h : p0 ≠ p1) (ho : ¬ OffLine p0 p1 q) : ∃ t : ℝ, q = p0 + t • (p1 - p0) := by
  have hc : (p1 - p0).cross (q - p0) = 0 := by simpa [OffLine] using ho
  have hl := len_sub_ne_zero h.symm
  have h2 := V3.len_sq (p1 - p0)
  have hx := congrArg V3.x hc
  have hy := congrArg V3.y hc
  have hz := congrArg V3.z hc
  refine ⟨(p1 - p0).dot (q - p0) / (p1 - p0).len ^ 2, ?_⟩
  rw [← sub_eq_iff_eq_add']
  generalize q - p0 = v at hx hy hz ⊢
  generalize p1 - p0 = u at hx hy hz h2 hl ⊢
  generalize u.len = l at h2 hl ⊢
  simp only [cross_x, cross_y, cross_z, V3.zero_x, V3.zero_y, V3.zero_z] at hx hy hz
  ext <;> simp only [V3.dot, smul_x, smul_y, smul_z, smul_eq_mul] <;> field_simp <;> rw [h2]
  · linear_combination -u.y * hz + u.z * hy
  · linear_combination u.x * hz - u.z * hx
  · linear_combination -u.x * hy + u.y * hx

theorem integral_ahead {t : ℝ} (ht : 1 < t) : ∫ s in (0 : ℝ)..1, 1 / (t - s) = log t - log (t - 1) := by
  have hd : ∀ s ∈ Set.uIcc (0 : ℝ) 1, HasDerivAt (fun s : ℝ => -log (t - s)) (1 / (t - s)) s := by
    intro s hs
    rw [Set.uIcc_of_le zero_le_one] at hs
    have h1 : HasDerivAt (fun s : ℝ => t - s) (-1) s := by simpa using (hasDerivAt_id s).const_sub t
    refine (h1.log (by linarith [hs.2])).fun_neg.congr_deriv ?_
    ring
  rw [intervalIntegral.integral_eq_sub_of_hasDerivAt hd]
  · simp only [sub_zero]
    ring
  · refine ContinuousOn.intervalIntegrable (ContinuousOn.div (by fun_prop) (by fun_prop) fun s hs => ?_)
    rw [Set.uIcc_of_le zero_le_one] at hs
    linarith [hs.2]

theorem integral_behind {t : ℝ} (ht : t < 0) : ∫ s in (0 : ℝ)..1, 1 / (s - t) = log (1 - t) - log (-t) := by
  have hd : ∀ s ∈ Set.uIcc (0 : ℝ) 1, HasDerivAt (fun s : ℝ => log (s - t)) (1 / (s - t)) s := by
    intro s hs
    rw [Set.uIcc_of_le zero_le_one] at hs
    have h1 : HasDerivAt (fun s : ℝ => s - t) 1 s := by simpa using (hasDerivAt_id s).sub_const t
    exact h1.log (by linarith [hs.1])
  rw [intervalIntegral.integral_eq_sub_of_hasDerivAt hd]
  · simp
  · refine ContinuousOn.intervalIntegrable (ContinuousOn.div (by fun_prop) (by fun_prop) fun s hs => ?_)
    rw [Set.uIcc_of_le zero_le_one] at hs
    linarith [hs.1]

theorem fzy_ahead {x : ℝ} (hx : 0 < x) : -Prism.Py.prismFzy x 0 0 = log (2 * x) := by
  have e : √(x * x + 0 * 0 + 0 * 0) = x := by rw [show x * x + 0 * 0 + 0 * 0 = x ^ 2 by ring, sqrt_sq hx.le]
  have h : x + x ≠ 0 := by linarith
  simp only [Prism.Py.prismFzy, e]
  rw [if_pos h, neg_neg, two_mul]

theorem fzy_behind {x : ℝ} (hx : x < 0) : -Prism.Py.prismFzy x 0 0 = -log (-2 * x) := by
  have e : √(x * x + 0 * 0 + 0 * 0) = -x := by
    rw [show x * x + 0 * 0 + 0 * 0 = (-x) ^ 2 by ring, sqrt_sq (by linarith)]
  simp only [Prism.Py.prismFzy, e]
  rw [if_neg (by simp), if_pos ⟨by ring, hx⟩]

/-- On the line, ahead of the segment or behind it. -/
theorem segmentPotential_line (h : p0 ≠ p1) (hb : OffBand p0 p1) {t : ℝ} (ht : t < 0 ∨ 1 < t) (hq : q = p0 + t • (p1 - p0)) :
    segmentPotential p0 p1 q = .ok (-WireIntegral.segmentPotential p0 p1 q) := by
  obtain ⟨rot, h1, hr, hx⟩ := segment_rotation h
  have hx := hx hb
  have hl := len_sub_pos h.symm
  have h1' : rotationMatrixFromNormals (arr3 ((p1 - p0).map (· / (p1 - p0).len))) (arr3 ⟨1, 0, 0⟩)
      defaultTol = .ok rot := h1
  have eT : p1 - p0 = (p1 - p0).len • tan p0 p1 := by ext <;> simp [unit] <;> field_simp
  have e0 : rot.mulVec (q - p0) = ⟨t * (p1 - p0).len, 0, 0⟩ := by
    have e : q - p0 = (t * (p1 - p0).len) • tan p0 p1 := by
      rw [hq, add_sub_cancel_left, mul_smul, ← eT]
    rw [e, M3.mulVec_smul, hx]
    ext <;> simp
  have e1 : rot.mulVec (q - p0) - ⟨(p1 - p0).len, 0, 0⟩ = ⟨(t - 1) * (p1 - p0).len, 0, 0⟩ := by
    rw [e0]
    ext <;> simp
    ring
  simp only [segmentPotential, h1', bind, Except.bind, pure, Except.pure]
  congr 1
  rw [e1, e0]
  dsimp only
  have key : ∀ k : ℝ, (⟨k, 0, 0⟩ : V3 ℝ) = k • rot.mulVec (tan p0 p1) := by
    intro k; rw [hx]; ext <;> simp
  rw [key, M3.mulVec_smul, hr.transpose_mulVec]
  have len : ∀ s : ℝ, (q - (p0 + s • (p1 - p0))).len = |t - s| * (p1 - p0).len := by
    intro s
    rw [hq, ← len_smul]
    congr 1
    module
  unfold WireIntegral.segmentPotential
  simp only [len]
  have out : (∫ s in (0 : ℝ)..1, 1 / (|t - s| * (p1 - p0).len)) = (∫ s in (0 : ℝ)..1, 1 / |t - s|) / (p1 - p0).len := by
    rw [← intervalIntegral.integral_div]
    congr 1
    funext s
    rw [div_div]
  have eT' : ∀ k : ℝ, k • (p1 - p0) = (k * (p1 - p0).len) • tan p0 p1 := fun k => by rw [mul_smul, ← eT]
  rw [out, ← neg_smul, eT']
  congr 1
  rw [neg_mul, div_mul_cancel₀ _ hl.ne']
  rcases ht with ht | ht
  · have a : (∫ s in (0 : ℝ)..1, 1 / |t - s|) = ∫ s in (0 : ℝ)..1, 1 / (s - t) := by
      refine intervalIntegral.integral_congr fun s hs => ?_
      rw [Set.uIcc_of_le zero_le_one] at hs
      rw [abs_of_neg (by linarith [hs.1]), neg_sub]
    have hm : t * (p1 - p0).len < 0 := mul_neg_of_neg_of_pos ht hl
    have hm1 : (t - 1) * (p1 - p0).len < 0 := mul_neg_of_neg_of_pos (by linarith) hl
    rw [a, integral_behind ht, fzy_behind hm, fzy_behind hm1, show -2 * ((t - 1) * (p1 - p0).len) = (1 - t) * (2 * (p1 - p0).len) by ring,
      show -2 * (t * (p1 - p0).len) = -t * (2 * (p1 - p0).len) by ring, log_mul (by linarith) (mul_pos two_pos hl).ne', log_mul (y := 2 * _) (by linarith) (mul_pos two_pos hl).ne']
    ring
  · have a : (∫ s in (0 : ℝ)..1, 1 / |t - s|) = ∫ s in (0 : ℝ)..1, 1 / (t - s) := by
      refine intervalIntegral.integral_congr fun s hs => ?_
      rw [Set.uIcc_of_le zero_le_one] at hs
      rw [abs_of_pos (by linarith [hs.2])]
    have hm : 0 < t * (p1 - p0).len := mul_pos (by linarith) hl
    have hm1 : 0 < (t - 1) * (p1 - p0).len := mul_pos (by linarith) hl
    rw [a, integral_ahead ht, fzy_ahead hm, fzy_ahead hm1, show 2 * ((t - 1) * (p1 - p0).len) = (t - 1) * (2 * (p1 - p0).len) by ring,
      show 2 * (t * (p1 - p0).len) = t * (2 * (p1 - p0).len) by ring, log_mul (by linarith) (mul_pos two_pos hl).ne', log_mul (y := 2 * _) (by linarith) (mul_pos two_pos hl).ne']
    ring

/-! ## The vector potential -/

theorem wirePotential_segSum (nodes : List (V3 ℝ)) :
    wirePotential q nodes = BiotSavart.segSum (fun a b => WireIntegral.segmentPotential a b q) nodes := by
  induction nodes with
  | nil => rfl
  | cons p0 t ih =>
    cases t with
    | nil => rfl
    | cons p1 r => rw [wirePotential, BiotSavart.segSum, ih]

theorem chain_off {nodes : List (V3 ℝ)} (h : ¬ OnWire nodes q) : nodes.IsChain fun a b => ∀ t : ℝ, 0 ≤ t → t ≤ 1 → q ≠ a + t • (b - a) := by
  induction nodes with
  | nil => simp
  | cons p0 t ih =>
    cases t with
    | nil => simp
    | cons p1 r =>
      rw [OnWire, not_or] at h
      exact List.isChain_cons_cons.2 ⟨fun t h0 h1 e => h.1 ⟨t, h0, h1, e⟩, ih h.2⟩

/-- **C107.** At every point that is not on the wire, also on the lines through its segments, `vector_potential` is
`mu I/(4π) ∫ dl/|q - s|` along the wire. -/
theorem line_potential_everywhere (s : LineCurrent) (q : V3 ℝ) (hr : Regular s.nodes) (ho : ¬ OnWire s.nodes q) :
    s.vectorPotential q = .ok ((s.mu * s.current / (4 * π)) • wirePotential q s.nodes) := by
  have h := sumSegments_eq (seg := fun p0 p1 => segmentPotential p0 p1 q) (g := fun a b => -WireIntegral.segmentPotential a b q) s.nodes
    ((chain_and hr (chain_off ho)).imp fun a b h => by
      by_cases hl : OffLine a b q
      · rw [segmentPotential_closed h.1.1 hl, neg_neg]
        exact segmentPotential_eq h.1.1 h.1.2 hl
      · obtain ⟨t, ht⟩ := onLine_of h.1.1 hl
        refine segmentPotential_line h.1.1 h.1.2 ?_ ht
        by_contra hc
        rw [not_or, not_lt, not_lt] at hc
        exact h.2 t hc.1 hc.2 ht) 0
  simp only [LineCurrent.vectorPotential, h, bind, Except.bind, pure, Except.pure, Except.ok.injEq]
  rw [segSum_neg, wirePotential_segSum]
  ext <;> simp <;> ring

/-! ## The flux density -/

theorem segmentFluxFinite_eq (h : p0 ≠ p1) (hb : OffBand p0 p1) (q : V3 ℝ) :
    (OffLine p0 p1 q → segmentFluxFinite p0 p1 q = .ok (some (fluxFree p0 p1 q))) ∧
    (¬ OffLine p0 p1 q → segmentFluxFinite p0 p1 q = .ok none) := by
  obtain ⟨rot, h1, hr, hx⟩ := segment_rotation h
  have hx := hx hb
  have h1' : rotationMatrixFromNormals (arr3 ((p1 - p0).map (· / (p1 - p0).len))) (arr3 ⟨1, 0, 0⟩)
      defaultTol = .ok rot := h1
  have hq := frame_rho hr hx (q - p0)
  have hsq : √((rot.mulVec (q - p0)).y ^ 2 + (rot.mulVec (q - p0)).z ^ 2) = √(rho2 p0 p1 q) := by rw [hq]; rfl
  constructor
  · intro ho
    have hp := rho2_pos h ho
    have e := segmentFlux_eq h hb ho
    simp only [segmentFlux, h1', bind, Except.bind, pure, Except.pure] at e
    simp only [segmentFluxFinite, h1', bind, Except.bind, pure, Except.pure]
    rw [if_neg, Except.ok.inj e]
    rw [frame_shift hx h, hr.len, hr.len, not_or, not_or]
    refine ⟨fun e => ?_, fun e => ?_, ?_⟩
    · rw [rho2, e] at hp
      nlinarith [sq_nonneg ((tan p0 p1).dot (q - p0))]
    · rw [← rho2_p1 h, e] at hp
      nlinarith [sq_nonneg ((tan p0 p1).dot (q - p1))]
    · simp only [cartToCyl2]
      rw [hsq]
      exact (sqrt_pos.2 hp).ne'
  · intro ho
    simp only [segmentFluxFinite, h1', bind, Except.bind, pure, Except.pure]
    rw [if_pos]
    refine .inr (.inr ?_)
    simp only [cartToCyl2]
    rw [hsq, rho2_eq h]
    have hc : (p1 - p0).cross (q - p0) = 0 := by simpa [OffLine] using ho
    have e : (tan p0 p1).cross (q - p0) = (1 / (p1 - p0).len) • (p1 - p0).cross (q - p0) := by
      ext <;> simp [unit] <;> ring
    rw [e, hc]
    simp [V3.dot]

theorem sumFinite_none {seg : V3 ℝ → V3 ℝ → Py (Option (V3 ℝ))} (nodes : List (V3 ℝ)) (h : nodes.IsChain fun a b => ∃ c, seg a b = .ok c) :
    sumFinite seg nodes none = .ok none := by
  induction nodes with
  | nil => rfl
  | cons p0 t ih =>
    cases t with
    | nil => rfl
    | cons p1 r =>
      obtain ⟨⟨c, hc⟩, h2⟩ := List.isChain_cons_cons.1 h
      simp only [sumFinite, hc, bind, Except.bind, Option.bind]
      exact ih h2

theorem sumFinite_some {seg : V3 ℝ → V3 ℝ → Py (Option (V3 ℝ))} {g : V3 ℝ → V3 ℝ → V3 ℝ} (nodes : List (V3 ℝ))
    (h : nodes.IsChain fun a b => seg a b = .ok (some (g a b))) (out : V3 ℝ) :
    sumFinite seg nodes (some out) = .ok (some (out + BiotSavart.segSum g nodes)) := by
  induction nodes generalizing out with
  | nil => simp [sumFinite, BiotSavart.segSum, pure, Except.pure]
  | cons p0 t ih =>
    cases t with
    | nil => simp [sumFinite, BiotSavart.segSum, pure, Except.pure]
    | cons p1 t =>
      rw [List.isChain_cons_cons] at h
      simp only [sumFinite, h.1, bind, Except.bind, Option.bind, pure, ih h.2, BiotSavart.segSum, add_assoc]

theorem sumFinite_bad {seg : V3 ℝ → V3 ℝ → Py (Option (V3 ℝ))} (nodes : List (V3 ℝ)) (h : nodes.IsChain fun a b => ∃ c, seg a b = .ok c)
    (hb : ¬ nodes.IsChain fun a b => seg a b ≠ .ok none) (out : Option (V3 ℝ)) : sumFinite seg nodes out = .ok none := by
  induction nodes generalizing out with
  | nil => simp at hb
  | cons p0 t ih =>
    cases t with
    | nil => simp at hb
    | cons p1 r =>
      obtain ⟨⟨c, hc⟩, h2⟩ := List.isChain_cons_cons.1 h
      rw [List.isChain_cons_cons, not_and_or, not_not] at hb
      simp only [sumFinite, hc, bind, Except.bind]
      rcases hb with hb | hb
      · rw [hc] at hb
        have : c = none := by simpa using hb
        subst this
        have e : (out.bind fun a => (none : Option (V3 ℝ)).bind fun b => pure (a + b)) = none := by cases out <;> rfl
        rw [e]
        exact sumFinite_none _ h2
      · exact ih h2 hb _

/-- **C107.** Exactly where `magnetic_flux_density` is finite: off the lines through the segments, where it is the law of Biot and Savart. -/
theorem flux_finite_partial (s : LineCurrent) (q : V3 ℝ) (hr : Regular s.nodes) :
    (Off s.nodes q → s.fluxFinite q = .ok (some ((s.mu * s.current / (4 * π)) • BiotSavart.polyline s.nodes q))) ∧
    (¬ Off s.nodes q → s.fluxFinite q = .ok none) := by
  constructor
  · intro ho
    have h := sumFinite_some (seg := fun p0 p1 => segmentFluxFinite p0 p1 q) (g := fun a b => fluxFree a b q) s.nodes
      ((chain_and hr ho).imp fun a b h => (segmentFluxFinite_eq h.1.1 h.1.2 q).1 h.2) 0
    have h2 := (flux_closed_form s q hr ho).symm.trans (line_flux_biot_savart s q hr ho)
    rw [← Except.ok.inj h2]
    simp only [LineCurrent.fluxFinite, h, bind, Except.bind, pure, Except.pure, Option.map_some]
    congr 2
    ext <;> simp <;> ring
  · intro ho
    have hk : s.nodes.IsChain fun a b => ∃ c, segmentFluxFinite a b q = .ok c := hr.imp fun a b h => by
      by_cases hl : OffLine a b q
      · exact ⟨_, (segmentFluxFinite_eq h.1 h.2 q).1 hl⟩
      · exact ⟨_, (segmentFluxFinite_eq h.1 h.2 q).2 hl⟩
    have h := sumFinite_bad (seg := fun p0 p1 => segmentFluxFinite p0 p1 q) s.nodes hk (fun hc => ho ?_) (some 0)
    · simp only [LineCurrent.fluxFinite, h, bind, Except.bind, pure, Except.pure, Option.map_none]
    · exact (chain_and hr hc).imp fun a b h => by
        by_contra hl
        exact h.2 ((segmentFluxFinite_eq h.1.1 h.1.2 q).2 hl)

/-- The contribution of a segment to the integral vanishes on its line, off the segment. -/
theorem segment_line_zero (ho : ¬ OffLine p0 p1 q) : BiotSavart.segment p0 p1 q = 0 := by
  have hc : (p1 - p0).cross (q - p0) = 0 := by simpa [OffLine] using ho
  have e : ∀ t : ℝ, (p1 - p0).cross (q - (p0 + t • (p1 - p0))) = 0 := fun t => by
    rw [← hc]
    ext <;> simp <;> ring
  ext <;> simp [BiotSavart.segment, BiotSavart.integrand, e, V3.map]

/-- **C107.** The witness: straight ahead of a wire the field is zero, and what the code returns is not finite. -/
theorem flux_not_finite_ahead : ∃ (s : LineCurrent) (q : V3 ℝ), Regular s.nodes ∧ ¬ OnWire s.nodes q ∧ BiotSavart.polyline s.nodes q = 0 ∧
    s.fluxFinite q = .ok none := by
  have hr : Regular [⟨0, 0, 0⟩, ⟨1, 0, 0⟩] :=
    List.isChain_cons_cons.2 ⟨⟨by simp, Or.inl (by rw [V3.len_eq_zero]; ext <;> simp [tan, Spatial.unit])⟩, by simp⟩
  have hn : ¬ OffLine ⟨0, 0, 0⟩ ⟨1, 0, 0⟩ ⟨2, 0, 0⟩ := by simp [OffLine, V3.ext_iff]
  refine ⟨⟨1, 1, 1, [⟨0, 0, 0⟩, ⟨1, 0, 0⟩]⟩, ⟨2, 0, 0⟩, hr, ?_, ?_, ?_⟩
  · rintro (⟨t, h0, h1, e⟩ | h)
    · have := congrArg V3.x e
      simp at this
      linarith
    · exact h
  · simp [BiotSavart.polyline, BiotSavart.segSum, segment_line_zero hn]
  · refine (flux_finite_partial _ _ hr).2 fun h => hn ?_
    exact (List.isChain_cons_cons.1 h).1

/-- Straight ahead of a wire: the potential is that of the integral. -/
example : (⟨1, 1, 1, [⟨0, 0, 0⟩, ⟨1, 0, 0⟩]⟩ : LineCurrent).vectorPotential ⟨2, 0, 0⟩ =
    .ok ((1 * 1 / (4 * π)) • wirePotential ⟨2, 0, 0⟩ [⟨0, 0, 0⟩, ⟨1, 0, 0⟩]) := by
  refine line_potential_everywhere _ _ ?_ ?_
  · exact List.isChain_cons_cons.2 ⟨⟨by simp, Or.inl (by rw [V3.len_eq_zero]; ext <;> simp [tan, Spatial.unit])⟩, by simp⟩
  · rintro (⟨t, h0, h1, e⟩ | h)
    · have := congrArg V3.x e
      simp at this
      linarith
    · exact h

end Verif.Static
