import Verif.Lemmas.LineSegment
import Verif.Props.StaticDipole
import Mathlib.Data.List.Chain

/-! # C29–C31: polygonal line currents -/

namespace Verif.Static

open V3 Spatial BiotSavart

/-! ## C29: the grounded wire -/

/-- The position of the electrode at which current leaves the wire is the last node, where it enters the first. -/
noncomputable def poleField (k : ℝ) (loc q : V3 ℝ) : V3 ℝ := (q - loc).map (fun c => k / (q - loc).len ^ 3 * c)

theorem pole_grad (k : ℝ) (loc p : V3 ℝ) (hp : p ≠ loc) :
    HasGrad (fun q => k / (q - loc).len) (-poleField k loc p) p := by
  have hr := len_sub_ne_zero hp
  have h := hasGrad_radial loc p hr (hasDerivAt_const_div_pow k 1 hr)
  simp only [pow_one] at h
  refine h.congr ?_
  ext <;> simp [poleField] <;> field_simp

theorem pole_div_curl (k : ℝ) (loc p : V3 ℝ) (hp : p ≠ loc) :
    ∃ J, HasJac (poleField k loc) J p ∧ M3.trace J = 0 ∧ J.curl = 0 := by
  have hr := len_sub_ne_zero hp
  have h2 := len_sq (p - loc)
  refine ⟨_, hasJac_inverse_square k loc p hp, ?_, ?_⟩
  · simp only [M3.trace]
    field_simp
    linear_combination (3 * k) * h2
  · ext <;> simp [M3.curl] <;> ring

/-- **C29.** For every wire with at least one node there is a potential and a field defined by the code
everywhere, and off the two electrodes the field is minus the gradient of the potential and has zero divergence. -/
theorem line_field_is_neg_grad (s : LineCurrent) (hn : s.nodes ≠ []) :
    ∃ (V : V3 ℝ → ℝ) (E : V3 ℝ → V3 ℝ), (∀ q, s.scalarPotential q = .ok (V q)) ∧
      (∀ q, s.electricField q = .ok (E q)) ∧
      ∀ p, p ≠ s.nodes.head hn → p ≠ s.nodes.getLast hn →
        HasGrad V (-(E p)) p ∧ HasDiv E 0 p := by
  obtain ⟨mu, sigma, cur, nodes⟩ := s
  match nodes, hn with
  | [n0], _ =>
    refine ⟨fun q => cur / (4 * Real.pi * sigma * (q - n0).len),
      fun q => (q - n0).map (fun c => cur / (4 * Real.pi * sigma) * (c / (q - n0).len ^ 3)), fun q => rfl, fun q => rfl, fun p h1 _ => ?_⟩
    have hp : p ≠ n0 := h1
    have e1 : (fun q : V3 ℝ => cur / (4 * Real.pi * sigma * (q - n0).len)) =
        fun q => cur / (4 * Real.pi * sigma) / (q - n0).len := by
      funext q; rw [div_div]
    have e2 : (fun q : V3 ℝ => (q - n0).map (fun c => cur / (4 * Real.pi * sigma) * (c / (q - n0).len ^ 3))) =
        poleField (cur / (4 * Real.pi * sigma)) n0 := by
      funext q; ext <;> simp [poleField] <;> ring
    rw [e2, e1]
    obtain ⟨J, hJ, ht, -⟩ := pole_div_curl (cur / (4 * Real.pi * sigma)) n0 p hp
    refine ⟨?_, J, hJ, ht⟩
    exact pole_grad _ _ _ hp
  | n0 :: n1 :: rest, _ =>
    simp only [LineCurrent.scalarPotential, LineCurrent.electricField]
    by_cases hc : (n1 :: rest).getLast (by simp) = n0
    · refine ⟨fun _ => 0, fun _ => 0, fun q => by simp [hc], fun q => by simp [hc], fun p _ _ => ⟨?_, ?_⟩⟩
      · simpa using hasGrad_const (0 : ℝ) p
      · exact ⟨⟨0, 0, 0⟩, ⟨hasGrad_const _ _, hasGrad_const _ _, hasGrad_const _ _⟩, by simp [M3.trace]⟩
    · set last := (n1 :: rest).getLast (by simp) with hlast
      set k := cur / (4 * Real.pi * sigma)
      refine ⟨fun q => k * (1 / (q - last).len - 1 / (q - n0).len),
        fun q => poleField k last q - poleField k n0 q, fun q => by simp [hc], fun q => ?_, fun p h1 h2 => ?_⟩
      · simp only [hc, if_false]
        congr 1
        ext <;> simp [poleField] <;> ring
      · have hp0 : p ≠ n0 := h1
        have hpl : p ≠ last := by rw [hlast]; simpa using h2
        obtain ⟨J, hJ, ht, -⟩ := pole_div_curl k last p hpl
        obtain ⟨J', hJ', ht', -⟩ := pole_div_curl k n0 p hp0
        refine ⟨?_, ⟨J.x - J'.x, J.y - J'.y, J.z - J'.z⟩, ⟨hJ.1.sub hJ'.1, hJ.2.1.sub hJ'.2.1, hJ.2.2.sub hJ'.2.2⟩, ?_⟩
        · have h := (pole_grad k last p hpl).sub (pole_grad k n0 p hp0)
          have e : (fun q : V3 ℝ => k / (q - last).len - k / (q - n0).len) =
            fun q => k * (1 / (q - last).len - 1 / (q - n0).len) := by
            funext q; ring
          rw [e] at h
          refine h.congr ?_
          ext <;> simp <;> ring
        · simp only [M3.trace, V3.sub_x, V3.sub_y, V3.sub_z] at ht ht' ⊢
          linarith

/-- **C29.** The current density is `sigma` times the field, for every wire and every point. -/
theorem line_current_density (s : LineCurrent) (q e : V3 ℝ) (h : s.electricField q = .ok e) :
    s.currentDensity q = .ok (s.sigma • e) := by
  simp only [LineCurrent.currentDensity, h, bind, Except.bind, pure, Except.pure]
  congr 1

/-- **C29.** Potential and field vanish identically on a closed wire (at least one segment, first node equal to
the last one). -/
theorem line_closed (s : LineCurrent) (n0 n1 : V3 ℝ) (rest : List (V3 ℝ)) (hn : s.nodes = n0 :: n1 :: rest)
    (hc : (n0 :: n1 :: rest).getLast (by simp) = n0) (q : V3 ℝ) :
    s.scalarPotential q = .ok 0 ∧ s.electricField q = .ok 0 := by
  rw [List.getLast_cons_cons] at hc
  simp [LineCurrent.scalarPotential, LineCurrent.electricField, hn, hc]

/-- **C29.** A single node is a point source: potential `I / (4 π sigma r)`. -/
theorem line_point (s : LineCurrent) (n0 : V3 ℝ) (hn : s.nodes = [n0]) (q : V3 ℝ) :
    s.scalarPotential q = .ok (s.current / (4 * Real.pi * s.sigma * (q - n0).len)) := by
  simp [LineCurrent.scalarPotential, hn]

/-- **C29.** The signs of the two ends: an open wire is a source of strength `I` at its last node and a sink of the
same strength at its first. -/
theorem line_open (s : LineCurrent) (n0 n1 : V3 ℝ) (rest : List (V3 ℝ)) (hn : s.nodes = n0 :: n1 :: rest)
    (last : V3 ℝ) (hl : (n0 :: n1 :: rest).getLast? = some last) (hne : last ≠ n0) (q : V3 ℝ) :
    s.scalarPotential q = .ok (s.current / (4 * Real.pi * s.sigma) / (q - last).len -
      s.current / (4 * Real.pi * s.sigma) / (q - n0).len) := by
  have h1 : (n1 :: rest).getLast (by simp) = last := by
    rw [List.getLast?_eq_some_getLast (by simp), List.getLast_cons_cons] at hl
    exact Option.some.inj hl
  simp only [LineCurrent.scalarPotential, hn, h1, hne, if_false]
  congr 1
  ring

/-! ## C30: Biot–Savart and the vector potential -/

/-- Every segment of the wire has positive length and is either exactly along the `x` axis or at least the
tolerance of `rotation_matrix_from_normals` (1e-20) away from it. -/
def Regular (nodes : List (V3 ℝ)) : Prop := nodes.IsChain (fun p0 p1 => p0 ≠ p1 ∧ OffBand p0 p1)

/-- The point is on none of the lines through the segments. -/
def Off (nodes : List (V3 ℝ)) (q : V3 ℝ) : Prop := nodes.IsChain (fun p0 p1 => OffLine p0 p1 q)

theorem sumSegments_eq {seg : V3 ℝ → V3 ℝ → Py (V3 ℝ)} {g : V3 ℝ → V3 ℝ → V3 ℝ} (nodes : List (V3 ℝ))
    (h : nodes.IsChain (fun p0 p1 => seg p0 p1 = .ok (g p0 p1))) (out : V3 ℝ) :
    sumSegments seg nodes out = .ok (out + segSum g nodes) := by
  induction nodes generalizing out with
  | nil => simp [sumSegments, segSum, pure, Except.pure]
  | cons p0 t ih =>
    cases t with
    | nil => simp [sumSegments, segSum, pure, Except.pure]
    | cons p1 t =>
      rw [List.isChain_cons_cons] at h
      simp only [sumSegments, h.1, bind, Except.bind, ih h.2, segSum, add_assoc]

theorem segSum_congr {g g' : V3 ℝ → V3 ℝ → V3 ℝ} (nodes : List (V3 ℝ))
    (h : nodes.IsChain (fun p0 p1 => g p0 p1 = g' p0 p1)) : segSum g nodes = segSum g' nodes := by
  induction nodes with
  | nil => rfl
  | cons p0 t ih =>
    cases t with
    | nil => rfl
    | cons p1 t =>
      rw [List.isChain_cons_cons] at h
      simp only [segSum, h.1, ih h.2]

theorem chain_and {R S : V3 ℝ → V3 ℝ → Prop} {l : List (V3 ℝ)} (h1 : l.IsChain R) (h2 : l.IsChain S) :
    l.IsChain (fun a b => R a b ∧ S a b) := by
  induction l with
  | nil => simp
  | cons a t ih =>
    cases t with
    | nil => simp
    | cons b t =>
      rw [List.isChain_cons_cons] at *
      exact ⟨⟨h1.1, h2.1⟩, ih h1.2 h2.2⟩

theorem segSum_neg (g : V3 ℝ → V3 ℝ → V3 ℝ) (nodes : List (V3 ℝ)) :
    segSum (fun a b => -g a b) nodes = -segSum g nodes := by
  induction nodes with
  | nil => simp [segSum]
  | cons p0 t ih =>
    cases t with
    | nil => simp [segSum]
    | cons p1 t => simp only [segSum, ih]; abel

theorem flux_closed_form (s : LineCurrent) (q : V3 ℝ) (hr : Regular s.nodes) (ho : Off s.nodes q) :
    s.magneticFluxDensity q =
      .ok ((-s.mu * s.current / (4 * Real.pi)) • segSum (fun a b => fluxFree a b q) s.nodes) := by
  have h := sumSegments_eq (seg := fun p0 p1 => segmentFlux p0 p1 q) (g := fun a b => fluxFree a b q) s.nodes
    ((chain_and hr ho).imp fun a b h => segmentFlux_eq h.1.1 h.1.2 h.2) 0
  simp only [LineCurrent.magneticFluxDensity, h, bind, Except.bind, pure, Except.pure]
  congr 1
  ext <;> simp <;> ring

/-- **C30.** For every polyline and every point off the lines through its segments, the flux density is
`mu I / (4 π)` times the Biot–Savart integral along the wire. -/
theorem line_flux_biot_savart (s : LineCurrent) (q : V3 ℝ) (hr : Regular s.nodes) (ho : Off s.nodes q) :
    s.magneticFluxDensity q = .ok ((s.mu * s.current / (4 * Real.pi)) • polyline s.nodes q) := by
  rw [flux_closed_form s q hr ho, polyline,
    segSum_congr (g' := fun a b => -fluxFree a b q) s.nodes
      ((chain_and hr ho).imp fun a b h => segment_integral h.1.1 h.2), segSum_neg]
  congr 1
  module

/-- **C30.** The magnetic field is the flux density over `mu`. -/
theorem line_field_eq (s : LineCurrent) (q b : V3 ℝ) (hmu : 0 < s.mu) (h : s.magneticFluxDensity q = .ok b) :
    ∃ f, s.magneticField q = .ok f ∧ s.mu • f = b := by
  refine ⟨b.map (· / s.mu), by simp [LineCurrent.magneticField, h, bind, Except.bind, pure, Except.pure], ?_⟩
  ext <;> simp <;> field_simp

theorem HasCurl.zero (p : V3 ℝ) : HasCurl (fun _ : V3 ℝ => (0 : V3 ℝ)) 0 p :=
  ⟨⟨0, 0, 0⟩, ⟨hasGrad_const _ _, hasGrad_const _ _, hasGrad_const _ _⟩, by ext <;> simp [M3.curl]⟩

theorem HasCurl.add {F G : V3 ℝ → V3 ℝ} {c d p : V3 ℝ} (hF : HasCurl F c p) (hG : HasCurl G d p) :
    HasCurl (fun q => F q + G q) (c + d) p := by
  obtain ⟨J, hJ, rfl⟩ := hF
  obtain ⟨K, hK, rfl⟩ := hG
  refine ⟨⟨J.x + K.x, J.y + K.y, J.z + K.z⟩,
    ⟨hJ.1.add hK.1, hJ.2.1.add hK.2.1, hJ.2.2.add hK.2.2⟩, ?_⟩
  ext <;> simp [M3.curl] <;> ring

theorem HasCurl.const_smul {F : V3 ℝ → V3 ℝ} {c p : V3 ℝ} (k : ℝ) (hF : HasCurl F c p) :
    HasCurl (fun q => k • F q) (k • c) p := by
  obtain ⟨J, hJ, rfl⟩ := hF
  refine ⟨⟨_, _, _⟩, ⟨(hJ.1.const_mul k), (hJ.2.1.const_mul k), (hJ.2.2.const_mul k)⟩, ?_⟩
  ext <;> simp [M3.curl] <;> ring

theorem HasCurl.congr_lines {F G : V3 ℝ → V3 ℝ} {c p : V3 ℝ} (hF : HasCurl F c p)
    (h : ∀ v : V3 ℝ, ∀ᶠ t : ℝ in nhds 0, G (p + t • v) = F (p + t • v)) : HasCurl G c p := by
  obtain ⟨J, hJ, hc⟩ := hF
  refine ⟨J, ⟨fun v => (hJ.1 v).congr_of_eventuallyEq ?_, fun v => (hJ.2.1 v).congr_of_eventuallyEq ?_,
    fun v => (hJ.2.2 v).congr_of_eventuallyEq ?_⟩, hc⟩ <;> filter_upwards [h v] with t ht <;> rw [ht]

theorem segSum_curl (nodes : List (V3 ℝ)) (p : V3 ℝ) (h : nodes.IsChain (fun a b => a ≠ b ∧ OffLine a b p)) :
    HasCurl (fun q => segSum (fun a b => potFree a b q) nodes) (segSum (fun a b => fluxFree a b p) nodes) p := by
  induction nodes with
  | nil => exact HasCurl.zero p
  | cons p0 t ih =>
    cases t with
    | nil => exact HasCurl.zero p
    | cons p1 t =>
      rw [List.isChain_cons_cons] at h
      exact HasCurl.add (potFree_curl h.1.1 h.1.2) (ih h.2)

theorem eventually_off (nodes : List (V3 ℝ)) (p : V3 ℝ) (h : Off nodes p) (v : V3 ℝ) :
    ∀ᶠ t : ℝ in nhds 0, Off nodes (p + t • v) := by
  induction nodes with
  | nil => simp [Off]
  | cons p0 t ih =>
    cases t with
    | nil => simp [Off]
    | cons p1 t =>
      rw [Off, List.isChain_cons_cons] at h
      filter_upwards [eventually_offLine h.1 v, ih h.2] with s h1 h2
      rw [Off, List.isChain_cons_cons]
      exact ⟨h1, h2⟩

theorem vectorPotential_ok (s : LineCurrent) (hr : s.nodes.IsChain (· ≠ ·)) (q : V3 ℝ) :
    ∃ a, s.vectorPotential q = .ok a := by
  classical
  have h := sumSegments_eq (seg := fun p0 p1 => segmentPotential p0 p1 q)
    (g := fun a b => if h : a ≠ b then (segmentPotential_ok h q).choose else 0) s.nodes
    (hr.imp fun a b h => by simp only [h, ne_eq, not_false_eq_true, dite_true]; exact (segmentPotential_ok h q).choose_spec) 0
  simp only [LineCurrent.vectorPotential, h, bind, Except.bind, pure, Except.pure]
  exact ⟨_, rfl⟩

/-- **C30.** For every polyline without repeated consecutive nodes the vector potential is defined at every point,
and at every point off the lines through the segments its curl is the flux density. -/
theorem line_flux_is_curl (s : LineCurrent) (hr : Regular s.nodes) :
    ∃ A : V3 ℝ → V3 ℝ, (∀ q, s.vectorPotential q = .ok (A q)) ∧
      ∀ p, Off s.nodes p → ∃ B, s.magneticFluxDensity p = .ok B ∧ HasCurl A B p := by
  have hr' : s.nodes.IsChain (· ≠ ·) := hr.imp fun a b h => h.1
  choose A hA using vectorPotential_ok s hr'
  refine ⟨A, hA, fun p ho => ⟨_, flux_closed_form s p hr ho, ?_⟩⟩
  refine HasCurl.congr_lines (HasCurl.const_smul _ (segSum_curl s.nodes p (chain_and hr' ho))) fun v => ?_
  filter_upwards [eventually_off s.nodes p ho v] with t ht
  have h := sumSegments_eq (seg := fun p0 p1 => segmentPotential p0 p1 (p + t • v))
    (g := fun a b => potFree a b (p + t • v)) s.nodes
    ((chain_and hr ht).imp fun a b h => segmentPotential_eq h.1.1 h.1.2 h.2) 0
  have h2 := hA (p + t • v)
  simp only [LineCurrent.vectorPotential, h, bind, Except.bind, pure, Except.pure, Except.ok.injEq] at h2
  rw [← h2]
  ext <;> simp <;> ring

/-! ## C31: superposition -/

theorem sumSegments_acc (seg : V3 ℝ → V3 ℝ → Py (V3 ℝ)) (nodes : List (V3 ℝ)) (out : V3 ℝ) :
    sumSegments seg nodes out = (sumSegments seg nodes 0).map (out + ·) := by
  induction nodes generalizing out with
  | nil => simp [sumSegments, pure, Except.pure, Except.map]
  | cons p0 t ih =>
    cases t with
    | nil => simp [sumSegments, pure, Except.pure, Except.map]
    | cons p1 t =>
      simp only [sumSegments, bind, Except.bind]
      cases seg p0 p1 with
      | error e => rfl
      | ok c =>
        simp only []
        rw [ih (out + c), ih (0 + c)]
        cases sumSegments seg (p1 :: t) 0 with
        | error e => rfl
        | ok d => simp [Except.map, add_assoc]

theorem sumSegments_append (seg : V3 ℝ → V3 ℝ → Py (V3 ℝ)) (a : List (V3 ℝ)) (m : V3 ℝ) (b : List (V3 ℝ))
    (c1 c2 : V3 ℝ) (h1 : sumSegments seg (a ++ [m]) 0 = .ok c1) (h2 : sumSegments seg (m :: b) 0 = .ok c2) :
    sumSegments seg (a ++ m :: b) 0 = .ok (c1 + c2) := by
  induction a generalizing c1 with
  | nil =>
    simp only [List.nil_append, sumSegments, pure, Except.pure, Except.ok.injEq] at h1
    subst h1; simpa using h2
  | cons p0 t ih =>
    obtain ⟨p1, t', ht⟩ : ∃ p1 t', t ++ [m] = p1 :: t' := by
      cases t with
      | nil => exact ⟨m, [], rfl⟩
      | cons x y => exact ⟨x, y ++ [m], rfl⟩
    obtain ⟨t'', ht''⟩ : ∃ t'', t ++ m :: b = p1 :: t'' := by
      cases t with
      | nil => simp at ht; exact ⟨b, by simp [ht.1]⟩
      | cons x y => simp at ht; exact ⟨y ++ m :: b, by simp [ht.1]⟩
    rw [List.cons_append, ht] at h1
    rw [List.cons_append, ht'']
    simp only [sumSegments, bind, Except.bind] at h1 ⊢
    cases hs : seg p0 p1 with
    | error e => rw [hs] at h1; simp at h1
    | ok c =>
      simp only [hs] at h1 ⊢
      rw [sumSegments_acc] at h1 ⊢
      rw [ht, ht''] at ih
      cases hrest : sumSegments seg (p1 :: t') 0 with
      | error e => rw [hrest] at h1; simp [Except.map] at h1
      | ok d =>
        rw [hrest] at h1
        rw [ih d hrest]
        simp only [Except.map, Except.ok.injEq] at h1 ⊢
        rw [← h1]; abel

/-- **C31.** The flux density of two wires joined at a node is the sum of the flux densities of the two
wires (whatever the wires and the point). -/
theorem line_flux_concat (s : LineCurrent) (a : List (V3 ℝ)) (m : V3 ℝ) (b : List (V3 ℝ)) (q b1 b2 : V3 ℝ)
    (h1 : { s with nodes := a ++ [m] }.magneticFluxDensity q = .ok b1)
    (h2 : { s with nodes := m :: b }.magneticFluxDensity q = .ok b2) :
    { s with nodes := a ++ m :: b }.magneticFluxDensity q = .ok (b1 + b2) := by
  simp only [LineCurrent.magneticFluxDensity, bind, Except.bind, pure, Except.pure] at h1 h2 ⊢
  cases e1 : sumSegments (fun p0 p1 => segmentFlux p0 p1 q) (a ++ [m]) 0 with
  | error e => rw [e1] at h1; simp at h1
  | ok c1 =>
    cases e2 : sumSegments (fun p0 p1 => segmentFlux p0 p1 q) (m :: b) 0 with
    | error e => rw [e2] at h2; simp at h2
    | ok c2 =>
      rw [sumSegments_append _ a m b c1 c2 e1 e2]
      simp only [e1, e2, Except.ok.injEq] at h1 h2 ⊢
      rw [← h1, ← h2]
      ext <;> simp <;> ring

/-- **C31.** Negating the current negates the field, for every wire and every point at which it is defined. -/
theorem line_flux_neg_current (s : LineCurrent) (q b : V3 ℝ) (h : s.magneticFluxDensity q = .ok b) :
    { s with current := -s.current }.magneticFluxDensity q = .ok (-b) := by
  simp only [LineCurrent.magneticFluxDensity, bind, Except.bind, pure, Except.pure] at h ⊢
  cases e1 : sumSegments (fun p0 p1 => segmentFlux p0 p1 q) s.nodes 0 with
  | error e => rw [e1] at h; simp at h
  | ok c1 =>
    simp only [e1, Except.ok.injEq] at h ⊢
    rw [← h]
    ext <;> simp <;> ring

theorem tan_swap (p0 p1 : V3 ℝ) : tan p1 p0 = -tan p0 p1 := by
  have e : p0 - p1 = -(p1 - p0) := by abel
  have hl : (p0 - p1).len = (p1 - p0).len := by rw [e, V3.len_neg]
  ext <;> simp [unit, hl] <;> ring

theorem offBand_swap {p0 p1 : V3 ℝ} (h : OffBand p0 p1) : OffBand p1 p0 := by
  have e : (tan p1 p0).cross ⟨1, 0, 0⟩ = -(tan p0 p1).cross ⟨1, 0, 0⟩ := by
    rw [tan_swap]; ext <;> simp
  unfold OffBand
  rw [e, V3.len_neg]; exact h

theorem cross_swap (p0 p1 q : V3 ℝ) : (p0 - p1).cross (q - p1) = -(p1 - p0).cross (q - p0) := by
  ext <;> simp <;> ring

theorem offLine_swap {p0 p1 q : V3 ℝ} (h : OffLine p0 p1 q) : OffLine p1 p0 q := by
  unfold OffLine
  rw [cross_swap]; exact neg_ne_zero.2 h

theorem fluxFree_swap {p0 p1 : V3 ℝ} (h : p0 ≠ p1) (q : V3 ℝ) : fluxFree p1 p0 q = -fluxFree p0 p1 q := by
  have hr : rho2 p1 p0 q = rho2 p0 p1 q := by
    rw [← rho2_p1 h q, rho2, tan_swap]
    simp only [V3.dot, V3.neg_x, V3.neg_y, V3.neg_z]; ring
  have hd : ∀ v, (tan p1 p0).dot v = -(tan p0 p1).dot v := fun v => by
    rw [tan_swap]; simp only [V3.dot, V3.neg_x, V3.neg_y, V3.neg_z]; ring
  have hc : (tan p1 p0).cross (q - p1) = -(tan p0 p1).cross (q - p0) := by
    rw [tan_swap]
    have hl := len_sub_ne_zero h.symm
    ext <;> simp [unit] <;> field_simp <;> ring
  simp only [fluxFree, hr, hd, hc]
  module

theorem segSum_append (g : V3 ℝ → V3 ℝ → V3 ℝ) (a : List (V3 ℝ)) (m : V3 ℝ) (b : List (V3 ℝ)) :
    segSum g (a ++ m :: b) = segSum g (a ++ [m]) + segSum g (m :: b) := by
  induction a with
  | nil => simp [segSum]
  | cons p0 t ih =>
    cases t with
    | nil => simp [segSum]
    | cons p1 t => simp only [List.cons_append, segSum] at ih ⊢; rw [ih, add_assoc]

theorem segSum_reverse (g : V3 ℝ → V3 ℝ → V3 ℝ) (nodes : List (V3 ℝ)) :
    segSum g nodes.reverse = segSum (fun a b => g b a) nodes := by
  induction nodes with
  | nil => rfl
  | cons p0 t ih =>
    cases t with
    | nil => simp [segSum]
    | cons p1 t =>
      rw [List.reverse_cons, List.reverse_cons, List.append_assoc, List.singleton_append, segSum_append,
        ← List.reverse_cons, ih]
      simp [segSum, add_comm]

theorem chain_reverse {R : V3 ℝ → V3 ℝ → Prop} {l : List (V3 ℝ)} (h : l.IsChain R)
    (hs : ∀ a b, R a b → R b a) : l.reverse.IsChain R := by
  rw [List.isChain_reverse]
  exact h.imp fun a b hab => hs a b hab

/-- **C31.** Reversing the order of the nodes negates the field. -/
theorem line_flux_reverse (s : LineCurrent) (q : V3 ℝ) (hr : Regular s.nodes) (ho : Off s.nodes q) :
    ∃ b, s.magneticFluxDensity q = .ok b ∧
      { s with nodes := s.nodes.reverse }.magneticFluxDensity q = .ok (-b) := by
  refine ⟨_, flux_closed_form s q hr ho, ?_⟩
  rw [flux_closed_form { s with nodes := s.nodes.reverse } q (chain_reverse hr fun a b h => ⟨h.1.symm, offBand_swap h.2⟩)
    (chain_reverse ho fun a b h => offLine_swap h)]
  simp only [segSum_reverse]
  rw [segSum_congr (g' := fun a b => -fluxFree a b q) s.nodes (hr.imp fun a b h => fluxFree_swap h.1 q), segSum_neg]
  congr 1
  module

section insert

variable {p0 p1 : V3 ℝ} {t : ℝ}

/-- The point at fraction `t` of the segment. -/
def between (p0 p1 : V3 ℝ) (t : ℝ) : V3 ℝ := p0 + t • (p1 - p0)

theorem len_smul_pos (c : ℝ) (hc : 0 < c) (v : V3 ℝ) : unit (c • v) = unit v := by
  have : (c • v).len = c * v.len := by rw [V3.len_smul, abs_of_pos hc]
  ext <;> simp [unit, this] <;> field_simp

theorem tan_between_left (ht : 0 < t) : tan p0 (between p0 p1 t) = tan p0 p1 := by
  have : between p0 p1 t - p0 = t • (p1 - p0) := by simp [between]
  rw [tan, this, len_smul_pos t ht]

theorem tan_between_right (ht : t < 1) : tan (between p0 p1 t) p1 = tan p0 p1 := by
  have : p1 - between p0 p1 t = (1 - t) • (p1 - p0) := by
    simp only [between]; module
  rw [tan, this, len_smul_pos _ (by linarith)]

theorem between_ne_left (h : p0 ≠ p1) (ht : 0 < t) : p0 ≠ between p0 p1 t := by
  intro e
  have : t • (p1 - p0) = 0 := by
    have : between p0 p1 t - p0 = t • (p1 - p0) := by simp [between]
    rw [← this, ← e, sub_self]
  have hl := V3.len_smul t (p1 - p0)
  rw [this, V3.len_eq_zero.2 rfl, abs_of_pos ht] at hl
  have := mul_pos ht (len_sub_pos h.symm)
  linarith

theorem between_ne_right (h : p0 ≠ p1) (ht : t < 1) : between p0 p1 t ≠ p1 := by
  intro e
  have h2 : p1 - between p0 p1 t = (1 - t) • (p1 - p0) := by
    simp only [between]; module
  rw [e, sub_self] at h2
  have hl := V3.len_smul (1 - t) (p1 - p0)
  rw [← h2, V3.len_eq_zero.2 rfl, abs_of_pos (by linarith)] at hl
  have := mul_pos (by linarith : (0:ℝ) < 1 - t) (len_sub_pos h.symm)
  linarith

theorem fluxFree_between (h : p0 ≠ p1) (h0 : 0 < t) (h1 : t < 1) (q : V3 ℝ) :
    fluxFree p0 (between p0 p1 t) q + fluxFree (between p0 p1 t) p1 q = fluxFree p0 p1 q := by
  set m := between p0 p1 t with hm
  have e0 : tan p0 m = tan p0 p1 := tan_between_left h0
  have e1 : tan m p1 = tan p0 p1 := tan_between_right h1
  have hn0 : p0 ≠ m := between_ne_left h h0
  have hn1 : m ≠ p1 := between_ne_right h h1
  have r0 : rho2 p0 m q = rho2 p0 p1 q := by simp only [rho2, e0]
  have r1 : rho2 m p1 q = rho2 p0 p1 q := by
    rw [← rho2_p1 hn1, e1, rho2_p1 h]
  have c1 : (tan p0 p1).cross (q - m) = (tan p0 p1).cross (q - p0) := by
    have hl := len_sub_ne_zero h.symm
    ext <;> simp [unit, hm, between] <;> field_simp <;> ring
  simp only [fluxFree, e0, e1, r0, r1, c1]
  module

end insert

/-- **C31.** Inserting a node strictly inside a segment does not change the field. -/
theorem line_flux_insert (s : LineCurrent) (a b : List (V3 ℝ)) (p0 p1 : V3 ℝ) (t : ℝ) (h0 : 0 < t) (h1 : t < 1)
    (hn : s.nodes = a ++ p0 :: p1 :: b) (q : V3 ℝ) (hr : Regular s.nodes) (ho : Off s.nodes q) :
    { s with nodes := a ++ p0 :: (p0 + t • (p1 - p0)) :: p1 :: b }.magneticFluxDensity q =
      s.magneticFluxDensity q := by
  have hr' := hr
  have ho' := ho
  rw [hn, Regular, List.isChain_split, List.isChain_cons_cons] at hr'
  rw [hn, Off, List.isChain_split, List.isChain_cons_cons] at ho'
  have hne := hr'.2.1.1
  have hm : p0 + t • (p1 - p0) = between p0 p1 t := rfl
  have ol : OffLine p0 p1 q := ho'.2.1
  have e0 : (between p0 p1 t - p0).cross (q - p0) = t • (p1 - p0).cross (q - p0) := by
    ext <;> simp [between] <;> ring
  have e1 : (p1 - between p0 p1 t).cross (q - between p0 p1 t) = (1 - t) • (p1 - p0).cross (q - p0) := by
    ext <;> simp [between] <;> ring
  have nz : ∀ c : ℝ, c ≠ 0 → c • (p1 - p0).cross (q - p0) ≠ 0 := by
    intro c hc e
    apply ol
    have := congrArg (c⁻¹ • ·) e
    simpa [smul_smul, hc] using this
  rw [flux_closed_form s q hr ho, flux_closed_form]
  · congr 2
    rw [hn, segSum_append, segSum_append _ a p0 (p1 :: b)]
    simp only [segSum]
    rw [hm, ← fluxFree_between hne h0 h1 q, add_assoc (fluxFree _ _ _)]
  · change Regular (a ++ p0 :: (p0 + t • (p1 - p0)) :: p1 :: b)
    rw [Regular, List.isChain_split, List.isChain_cons_cons, List.isChain_cons_cons, hm]
    refine ⟨hr'.1, ⟨between_ne_left hne h0, ?_⟩, ⟨between_ne_right hne h1, ?_⟩, hr'.2.2⟩
    · unfold OffBand; rw [tan_between_left h0]; exact hr'.2.1.2
    · unfold OffBand; rw [tan_between_right h1]; exact hr'.2.1.2
  · change Off (a ++ p0 :: (p0 + t • (p1 - p0)) :: p1 :: b) q
    rw [Off, List.isChain_split, List.isChain_cons_cons, List.isChain_cons_cons, hm]
    refine ⟨ho'.1, ?_, ?_, ho'.2.2⟩
    · unfold OffLine; rw [e0]; exact nz t h0.ne'
    · unfold OffLine; rw [e1]; exact nz (1 - t) (by linarith)

/-! ## The hypotheses are met: a bent wire and a point off its lines -/

example : Regular [⟨0, 0, 0⟩, ⟨1, 0, 0⟩, ⟨1, 2, 0⟩] := by
  have l1 : (⟨1, 0, 0⟩ - 0 : V3 ℝ).len = 1 := by simp [V3.len]
  have l2 : (⟨1, 2, 0⟩ - ⟨1, 0, 0⟩ : V3 ℝ).len = 2 := by
    simp [V3.len]
  refine List.isChain_cons_cons.2 ⟨⟨by simp, Or.inl ?_⟩, List.isChain_cons_cons.2 ⟨⟨by simp, Or.inr ?_⟩, by simp⟩⟩
  · rw [V3.len_eq_zero]; ext <;> simp [tan, unit]
  · have : ((tan ⟨1, 0, 0⟩ ⟨1, 2, 0⟩).cross ⟨1, 0, 0⟩ : V3 ℝ) = ⟨0, 0, -1⟩ := by
      ext <;> simp [tan, unit, l2]
    rw [this]
    simp [V3.len, defaultTol]; norm_num

example : Off [⟨0, 0, 0⟩, ⟨1, 0, 0⟩, ⟨1, 2, 0⟩] (⟨0, 0, 1⟩ : V3 ℝ) := by
  refine List.isChain_cons_cons.2 ⟨?_, List.isChain_cons_cons.2 ⟨?_, by simp⟩⟩ <;>
    simp [OffLine, V3.ext_iff]

end Verif.Static
