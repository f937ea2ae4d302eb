import Verif.Lemmas.Neumann
import Verif.Props.CircularLoop

/-!
# C30, C104: wires, loops and dipoles

The vector potential of a wire as an integral, and the symmetry of mutual inductances.
-/

namespace Verif.Static

open V3 WireIntegral Real

/-! ## The vector potential of a wire -/

/-- **C30.** Off the lines through its segments `vector_potential` is `mu I/(4π) ∫ dl/|q - s|` along the wire. -/
theorem line_potential_integral (s : LineCurrent) (q : V3 ℝ) (hr : Regular s.nodes) (ho : Off s.nodes q) :
    s.vectorPotential q = .ok ((s.mu * s.current / (4 * π)) • wirePotential q s.nodes) := by
  have h := sumSegments_eq (seg := fun p0 p1 => segmentPotential p0 p1 q) (g := fun a b => potFree a b q) s.nodes
    ((chain_and hr ho).imp fun a b h => segmentPotential_eq h.1.1 h.1.2 h.2) 0
  simp only [LineCurrent.vectorPotential, h, bind, Except.bind, pure, Except.pure, Except.ok.injEq]
  rw [wirePotential_closed s.nodes hr ho]
  ext <;> simp <;> ring

/-! ## Mutual inductance -/

/-- The points of a wire are off the lines of another one. -/
def Apart (nodes nodes' : List (V3 ℝ)) : Prop := ∀ q, OnWire nodes' q → Off nodes q

theorem alongWire_congr {F G : V3 ℝ → V3 ℝ} (nodes : List (V3 ℝ)) (h : ∀ q, OnWire nodes q → F q = G q) : alongWire F nodes = alongWire G nodes := by
  induction nodes with
  | nil => rfl
  | cons p0 t ih =>
    cases t with
    | nil => rfl
    | cons p1 r =>
      rw [alongWire, alongWire, ih fun q hq => h q (.inr hq)]
      congr 1
      refine intervalIntegral.integral_congr fun t ht => ?_
      rw [Set.uIcc_of_le zero_le_one] at ht
      rw [h _ (.inl ⟨t, ht.1, ht.2, rfl⟩)]

theorem alongWire_smul (k : ℝ) (F : V3 ℝ → V3 ℝ) (nodes : List (V3 ℝ)) : alongWire (fun q => k • F q) nodes = k * alongWire F nodes := by
  induction nodes with
  | nil => simp [alongWire]
  | cons p0 t ih =>
    cases t with
    | nil => simp [alongWire]
    | cons p1 r =>
      rw [alongWire, alongWire, ih, mul_add]
      congr 1
      unfold alongSegment
      rw [← intervalIntegral.integral_const_mul]
      congr 1
      funext t
      simp only [V3.dot, V3.smul_x, V3.smul_y, V3.smul_z, smul_eq_mul]
      ring

theorem off_ne {a b q : V3 ℝ} (h : OffLine a b q) (t : ℝ) : q ≠ a + t • (b - a) := fun e => off_len h t (by rw [← e, sub_self]; simp [V3.len])

/-- The straight pieces of a wire. -/
noncomputable def pieces (nodes : List (V3 ℝ)) : List Curve := (segs nodes).map straight

theorem pieces_pot (nodes : List (V3 ℝ)) (q d : V3 ℝ) : d.dot (wirePotential q nodes) = ((pieces nodes).map fun a => d.dot (a.pot q)).sum := by
  rw [wirePotential_eq, pieces, List.map_map]
  simp only [Function.comp_def, straight_pot]

theorem pieces_along (nodes : List (V3 ℝ)) (F : V3 ℝ → V3 ℝ) : alongWire F nodes = ((pieces nodes).map fun a => a.along F).sum := by
  rw [alongWire_eq, pieces, List.map_map]
  rfl

theorem pieces_good {nodes : List (V3 ℝ)} : ∀ a ∈ pieces nodes, a.Good := by
  intro a ha
  obtain ⟨b, -, rfl⟩ := List.mem_map.1 ha
  exact straight_good b

theorem Apart.ne {nodes : List (V3 ℝ)} {q : V3 ℝ} (h : Off nodes q) : ∀ a ∈ pieces nodes, ∀ t, q ≠ a.P t := by
  intro a ha t
  obtain ⟨b, hb, rfl⟩ := List.mem_map.1 ha
  exact off_ne (mem_segs_chain h b hb) t

theorem pieces_on {nodes : List (V3 ℝ)} {a : Curve} (ha : a ∈ pieces nodes) {t : ℝ} (h0 : a.lo ≤ t) (h1 : t ≤ a.hi) : OnWire nodes (a.P t) := by
  obtain ⟨b, hb, rfl⟩ := List.mem_map.1 ha
  exact onWire_segs hb h0 h1

/-- **C104.** The mutual inductance of two wires is symmetric: the flux that the current in one wire sends through the other, per unit of
current, does not depend on which of them carries the current. -/
theorem wires_reciprocal (a b : LineCurrent) (hmu : a.mu = b.mu) (ha : Regular a.nodes) (hb : Regular b.nodes) (hab : Apart a.nodes b.nodes)
    (hba : Apart b.nodes a.nodes) (A B : V3 ℝ → V3 ℝ) (hA : ∀ q, OnWire b.nodes q → a.vectorPotential q = .ok (A q))
    (hB : ∀ q, OnWire a.nodes q → b.vectorPotential q = .ok (B q)) :
    b.current * alongWire A b.nodes = a.current * alongWire B a.nodes := by
  rw [alongWire_congr (G := fun q => (a.mu * a.current / (4 * π)) • wirePotential q a.nodes) b.nodes fun q hq =>
      Except.ok.inj ((hA q hq).symm.trans (line_potential_integral a q ha (hab q hq))),
    alongWire_congr (G := fun q => (b.mu * b.current / (4 * π)) • wirePotential q b.nodes) a.nodes fun q hq =>
      Except.ok.inj ((hB q hq).symm.trans (line_potential_integral b q hb (hba q hq))), alongWire_smul, alongWire_smul]
  have key : alongWire (fun q => wirePotential q a.nodes) b.nodes = alongWire (fun q => wirePotential q b.nodes) a.nodes := by
    rw [pieces_along, pieces_along]
    have e1 : ∀ c ∈ pieces b.nodes, c.along (fun q => wirePotential q a.nodes) = ((pieces a.nodes).map fun d => c.along d.pot).sum := fun c hc =>
      (pieces_good c hc).along_sum (pieces a.nodes) pieces_good (fun d hd s t h0 h1 _ _ => Apart.ne (hab _ (pieces_on hc h0 h1)) d hd t) _
        fun q d => pieces_pot a.nodes q d
    have e2 : ∀ c ∈ pieces a.nodes, c.along (fun q => wirePotential q b.nodes) = ((pieces b.nodes).map fun d => c.along d.pot).sum := fun c hc =>
      (pieces_good c hc).along_sum (pieces b.nodes) pieces_good (fun d hd s t h0 h1 _ _ => Apart.ne (hba _ (pieces_on hc h0 h1)) d hd t) _
        fun q d => pieces_pot b.nodes q d
    rw [List.map_congr_left e1, List.map_congr_left e2, sum_swap]
    refine congrArg List.sum (List.map_congr_left fun d hd => congrArg List.sum (List.map_congr_left fun c hc => ?_))
    exact (pieces_good c hc).neumann (pieces_good d hd) fun s t h0 h1 _ _ => Apart.ne (hab _ (pieces_on hc h0 h1)) d hd t
  rw [key, hmu]
  ring

/-- Non-vacuity: two parallel wires. -/
example : Regular [⟨0, 0, 0⟩, ⟨1, 0, 0⟩] ∧ Regular [⟨0, 0, 1⟩, ⟨2, 0, 1⟩] ∧ Apart [⟨0, 0, 0⟩, ⟨1, 0, 0⟩] [⟨0, 0, 1⟩, ⟨2, 0, 1⟩] ∧
    Apart [⟨0, 0, 1⟩, ⟨2, 0, 1⟩] [⟨0, 0, 0⟩, ⟨1, 0, 0⟩] := by
  refine ⟨List.isChain_cons_cons.2 ⟨⟨by simp, Or.inl ?_⟩, by simp⟩, List.isChain_cons_cons.2 ⟨⟨by simp, Or.inl ?_⟩, by simp⟩, ?_, ?_⟩
  · rw [V3.len_eq_zero]; ext <;> simp [tan, Spatial.unit]
  · rw [V3.len_eq_zero]; ext <;> simp [tan, Spatial.unit]
  · rintro q (⟨t, -, -, rfl⟩ | h)
    · exact List.isChain_cons_cons.2 ⟨by simp [OffLine, V3.ext_iff], by simp⟩
    · exact h.elim
  · rintro q (⟨t, -, -, rfl⟩ | h)
    · exact List.isChain_cons_cons.2 ⟨by simp [OffLine, V3.ext_iff], by simp⟩
    · exact h.elim

/-! ## Grounded wires -/

open Classical in
/-- **C104.** The mutual resistance of two grounded wires is symmetric: the voltage between the ends of one per unit of current in the
other. -/
theorem grounded_reciprocal (a b : LineCurrent) (hs : a.sigma = b.sigma) {a0 a1 b0 b1 : V3 ℝ} {as bs : List (V3 ℝ)}
    (ha : a.nodes = a0 :: as) (hb : b.nodes = b0 :: bs) (ha1 : as.getLast? = some a1) (hb1 : bs.getLast? = some b1) :
    ∃ va0 va1 vb0 vb1, a.scalarPotential b0 = .ok va0 ∧ a.scalarPotential b1 = .ok va1 ∧ b.scalarPotential a0 = .ok vb0 ∧
      b.scalarPotential a1 = .ok vb1 ∧ b.current * (va1 - va0) = a.current * (vb1 - vb0) := by
  have form : ∀ (s : LineCurrent) {n0 n1 : V3 ℝ} {l : List (V3 ℝ)}, s.nodes = n0 :: l → l.getLast? = some n1 → ∀ q,
      s.scalarPotential q = .ok (if n1 = n0 then 0 else s.current / (4 * π * s.sigma) * (1 / (q - n1).len - 1 / (q - n0).len)) := by
    intro s n0 n1 l hn hl q
    cases l with
    | nil => simp at hl
    | cons m r =>
      have e : (m :: r).getLast (by simp) = n1 := by
        rw [List.getLast?_eq_some_getLast (by simp)] at hl
        exact Option.some.inj hl
      simp only [LineCurrent.scalarPotential, hn, e]
      split_ifs <;> rfl
  refine ⟨_, _, _, _, form a ha ha1 b0, form a ha ha1 b1, form b hb hb1 a0, form b hb hb1 a1, ?_⟩
  rw [len_sub_comm a0 b1, len_sub_comm a0 b0, len_sub_comm a1 b1, len_sub_comm a1 b0, hs]
  by_cases h1 : a1 = a0 <;> by_cases h2 : b1 = b0 <;> simp [h1, h2]
  ring

/-! ## A dipole and a wire -/

theorem Curve.Good.dipole {c : Curve} (h : c.Good) (d : MagDipole) (ho : ∀ t, c.lo ≤ t → t ≤ c.hi → d.location ≠ c.P t) :
    d.moment * (d.mu / (4 * π) * d.orientation.dot (c.flux d.location)) = c.along d.vectorPotential := by
  rw [h.dot_flux ho, Curve.along, ← intervalIntegral.integral_const_mul, ← intervalIntegral.integral_const_mul]
  refine intervalIntegral.integral_congr fun t ht => ?_
  rw [Set.uIcc_of_le h.le] at ht
  have hr := len_sub_ne_zero (ho t ht.1 ht.2)
  rw [len_sub_comm] at hr
  simp only [MagDipole.vectorPotential, len_sub_comm d.location (c.P t), V3.dot, map_x, map_y, map_z, cross_x, cross_y, cross_z, sub_x, sub_y, sub_z]
  generalize (c.P t - d.location).len = r at hr
  field_simp
  ring

/-- **C104.** A magnetic dipole and a wire: the moment times the flux density of the wire is the current times the flux of the dipole
through the wire, that is the integral of its vector potential along it. -/
theorem dipole_wire_reciprocal (d : MagDipole) (s : LineCurrent) (hmu : d.mu = s.mu) (hr : Regular s.nodes) (ho : Off s.nodes d.location) :
    ∃ b, s.magneticFluxDensity d.location = .ok b ∧ d.moment * d.orientation.dot b = s.current * alongWire d.vectorPotential s.nodes := by
  refine ⟨_, line_flux_biot_savart s d.location hr ho, ?_⟩
  rw [pieces_along]
  have e : (pieces s.nodes).map (fun a => a.along d.vectorPotential) =
      (pieces s.nodes).map fun a => d.moment * (d.mu / (4 * π) * d.orientation.dot (a.flux d.location)) :=
    List.map_congr_left fun a ha => (Curve.Good.dipole (pieces_good a ha) d fun t _ _ => Apart.ne ho a ha t).symm
  rw [e, pieces, List.map_map]
  have k : d.orientation.dot (BiotSavart.polyline s.nodes d.location) =
      ((segs s.nodes).map fun a => d.orientation.dot ((straight a).flux d.location)).sum := by
    unfold BiotSavart.polyline
    generalize s.nodes = nodes
    induction nodes with
    | nil => simp [BiotSavart.segSum, segs, V3.dot]
    | cons p0 t ih =>
      cases t with
      | nil => simp [BiotSavart.segSum, segs, V3.dot]
      | cons p1 r =>
        simp only [BiotSavart.segSum, segs, List.map_cons, List.sum_cons, ← ih]
        simp only [V3.dot, V3.add_x, V3.add_y, V3.add_z, straight_flux]
        ring
  have k2 : (((segs s.nodes).map ((fun a : Curve => d.moment * (d.mu / (4 * π) * d.orientation.dot (a.flux d.location))) ∘ straight)).sum) =
      d.moment * (d.mu / (4 * π) * ((segs s.nodes).map fun a => d.orientation.dot ((straight a).flux d.location)).sum) := by
    rw [← List.sum_map_mul_left, ← List.sum_map_mul_left]
    rfl
  rw [k2, ← k, hmu]
  simp only [V3.dot, V3.smul_x, V3.smul_y, V3.smul_z, smul_eq_mul]
  ring

/-! ## Loops -/

namespace Loop

theorem ne_point {s : Loop} {e1 e2 : V3 ℝ} (he : CircularWire.IsFrame e1 e2 s.axis) (ha : 0 < s.radius) {q : V3 ℝ} (h : s.OffWire s.axis q) (t : ℝ) :
    q ≠ CircularWire.point s.location e1 e2 s.radius t := by
  rintro rfl
  apply h
  have hd : CircularWire.point s.location e1 e2 s.radius t - s.location = (s.radius * cos t) • e1 + (s.radius * sin t) • e2 := by
    rw [CircularWire.point]; abel
  obtain ⟨d1, d2, d3⟩ := he.dots
  have z : s.axis.dot ((s.radius * cos t) • e1 + (s.radius * sin t) • e2) = 0 := by
    simp only [V3.dot, V3.add_x, V3.add_y, V3.add_z, V3.smul_x, V3.smul_y, V3.smul_z, smul_eq_mul] at d1 d2 ⊢
    linear_combination s.radius * cos t * d1 + s.radius * sin t * d2
  refine ⟨by rw [hd, z], ?_⟩
  rw [hd, ← axisDist_eq_cross he.len_n, axisDist, z]
  have e : ((s.radius * cos t) • e1 + (s.radius * sin t) • e2).len ^ 2 = s.radius ^ 2 := by
    have := he.len_sq (s.radius * cos t) (s.radius * sin t) 0
    simp only [CircularWire.comb, zero_smul, add_zero] at this
    rw [this]
    linear_combination s.radius ^ 2 * sin_sq_add_cos_sq t
  rw [e]
  simp [ha.le]

/-- **C104.** A magnetic dipole and a loop: the moment times the flux density of the loop is the current times the flux of the dipole
through the loop. -/
theorem dipole_loop_reciprocal (d : MagDipole) (s : Loop) (hmu : d.mu = s.mu) (hb : s.OffBand) (ha : 0 < s.radius) {e1 e2 : V3 ℝ}
    (he : CircularWire.IsFrame e1 e2 s.axis) (h1 : s.AwayFromAxis s.axis d.location) (h2 : s.OffWire s.axis d.location) :
    ∃ b, s.magneticFluxDensity d.location = .ok (some b) ∧
      d.moment * d.orientation.dot b = s.current * alongCircle d.vectorPotential s.location e1 e2 s.radius := by
  refine ⟨_, (biot_savart hb ha he d.location h1 h2).2, ?_⟩
  rw [← round_along, ← Curve.Good.dipole (round_good s.location e1 e2 s.radius) d fun t _ _ => ne_point he ha h2 t, round_flux, hmu]
  simp only [V3.dot, V3.smul_x, V3.smul_y, V3.smul_z, smul_eq_mul]
  ring

/-- **C104.** The mutual inductance of two loops is symmetric. -/
theorem loops_reciprocal (s r : Loop) (hmu : s.mu = r.mu) (hs : s.OffBand) (hr : r.OffBand) (ha : 0 < s.radius) (hb : 0 < r.radius)
    {e1 e2 f1 f2 : V3 ℝ} (he : CircularWire.IsFrame e1 e2 s.axis) (hf : CircularWire.IsFrame f1 f2 r.axis)
    (h1 : ∀ t, s.AwayFromAxis s.axis (CircularWire.point r.location f1 f2 r.radius t))
    (h2 : ∀ t, s.OffWire s.axis (CircularWire.point r.location f1 f2 r.radius t))
    (h3 : ∀ t, r.AwayFromAxis r.axis (CircularWire.point s.location e1 e2 s.radius t))
    (h4 : ∀ t, r.OffWire r.axis (CircularWire.point s.location e1 e2 s.radius t)) (A B : V3 ℝ → V3 ℝ)
    (hA : ∀ t, s.vectorPotential (CircularWire.point r.location f1 f2 r.radius t) = .ok (some (A (CircularWire.point r.location f1 f2 r.radius t))))
    (hB : ∀ t, r.vectorPotential (CircularWire.point s.location e1 e2 s.radius t) = .ok (some (B (CircularWire.point s.location e1 e2 s.radius t)))) :
    r.current * alongCircle A r.location f1 f2 r.radius = s.current * alongCircle B s.location e1 e2 s.radius := by
  have eA : ∀ t, A (CircularWire.point r.location f1 f2 r.radius t) =
      (s.mu * s.current / (4 * π)) • CircularWire.potential s.location e1 e2 s.radius (CircularWire.point r.location f1 f2 r.radius t) := fun t =>
    Option.some.inj (Except.ok.inj ((hA t).symm.trans (biot_savart hs ha he _ (h1 t) (h2 t)).1))
  have eB : ∀ t, B (CircularWire.point s.location e1 e2 s.radius t) =
      (r.mu * r.current / (4 * π)) • CircularWire.potential r.location f1 f2 r.radius (CircularWire.point s.location e1 e2 s.radius t) := fun t =>
    Option.some.inj (Except.ok.inj ((hB t).symm.trans (biot_savart hr hb hf _ (h3 t) (h4 t)).1))
  have key := (round_good s.location e1 e2 s.radius).neumann (round_good r.location f1 f2 r.radius)
    fun t u _ _ _ _ => ne_point hf hb (h4 t) u
  have k : ∀ (k : ℝ) (d v : V3 ℝ), d.dot (k • v) = k * d.dot v := fun k d v => by
    simp only [V3.dot, V3.smul_x, V3.smul_y, V3.smul_z, smul_eq_mul]
    ring
  simp only [alongCircle, eA, eB, k]
  rw [intervalIntegral.integral_const_mul, intervalIntegral.integral_const_mul]
  have key' : (∫ t in (0 : ℝ)..(2 * π), (CircularWire.tangent f1 f2 r.radius t).dot
      (CircularWire.potential s.location e1 e2 s.radius (CircularWire.point r.location f1 f2 r.radius t))) =
      ∫ t in (0 : ℝ)..(2 * π), (CircularWire.tangent e1 e2 s.radius t).dot
      (CircularWire.potential r.location f1 f2 r.radius (CircularWire.point s.location e1 e2 s.radius t)) := key.symm
  rw [key', hmu]
  ring

/-- Non-vacuity: two coaxial loops, one above the other. -/
example : ∃ (s r : Loop) (e1 e2 f1 f2 : V3 ℝ), s.mu = r.mu ∧ s.OffBand ∧ r.OffBand ∧ 0 < s.radius ∧ 0 < r.radius ∧
    CircularWire.IsFrame e1 e2 s.axis ∧ CircularWire.IsFrame f1 f2 r.axis ∧
    (∀ t, s.AwayFromAxis s.axis (CircularWire.point r.location f1 f2 r.radius t)) ∧
    (∀ t, s.OffWire s.axis (CircularWire.point r.location f1 f2 r.radius t)) ∧
    (∀ t, r.AwayFromAxis r.axis (CircularWire.point s.location e1 e2 s.radius t)) ∧
    (∀ t, r.OffWire r.axis (CircularWire.point s.location e1 e2 s.radius t)) := by
  have ax : ∀ s : Loop, s.orientation = ⟨0, 0, 1⟩ → s.axis = ⟨0, 0, 1⟩ := by
    intro s hs
    rw [axis, hs]
    ext <;> simp [Spatial.unit, V3.len]
  have band : ∀ s : Loop, s.orientation = ⟨0, 0, 1⟩ → s.OffBand := by
    intro s hs
    refine ⟨by rw [hs]; simp [V3.ext_iff], .inl ?_⟩
    rw [ax s hs]
    simp [V3.len]
  have sc : ∀ t : ℝ, (⟨-sin t, cos t, 0⟩ : V3 ℝ).len ^ 2 = 1 := fun t => by
    rw [V3.len_sq]
    simp
  refine ⟨⟨1, 1, 1, 0, ⟨0, 0, 1⟩⟩, ⟨1, 2, 1, ⟨0, 0, 1⟩, ⟨0, 0, 1⟩⟩, ⟨1, 0, 0⟩, ⟨0, 1, 0⟩, ⟨1, 0, 0⟩, ⟨0, 1, 0⟩, rfl, band _ rfl, band _ rfl, one_pos,
    one_pos, ?_, ?_, fun t => ?_, fun t => ?_, fun t => ?_, fun t => ?_⟩
  · rw [ax _ rfl]
    simp [CircularWire.IsFrame, V3.dot, V3.cross]
  · rw [ax _ rfl]
    simp [CircularWire.IsFrame, V3.dot, V3.cross]
  · rw [ax _ rfl, AwayFromAxis]
    simp only [CircularWire.point, V3.cross, V3.dot]
    simp [sc t]
    norm_num
  · rw [ax _ rfl, OffWire]
    simp [CircularWire.point, V3.cross, V3.dot]
  · rw [ax _ rfl, AwayFromAxis]
    simp only [CircularWire.point, V3.cross, V3.dot]
    simp [sc t]
    norm_num
  · rw [ax _ rfl, OffWire]
    simp [CircularWire.point, V3.cross, V3.dot]

end Loop

end Verif.Static
