import Verif.Spec.WireForce
import Verif.Lemmas.WireForce
import Verif.Props.ReciprocityWires

/-!
# C158: forces and torques between closed wires and loops balance
-/

namespace Verif.Static

open V3 WireIntegral WireForce Real

theorem wireForce_eq (B : V3 ℝ → V3 ℝ) (d : V3 ℝ) (nodes : List (V3 ℝ)) :
    wireForce B d nodes = alongWire (fun q => (B q).cross (rigid d 0 q)) nodes := by
  induction nodes with
  | nil => rfl
  | cons p0 t ih =>
    cases t with
    | nil => rfl
    | cons p1 r =>
      rw [wireForce, alongWire, ih]
      congr 1
      unfold segmentForce alongSegment
      congr 1
      funext t
      simp only [rigid, V3.dot, V3.cross_x, V3.cross_y, V3.cross_z, V3.add_x, V3.add_y, V3.add_z, V3.zero_x, V3.zero_y, V3.zero_z]
      ring

theorem wireTorque_eq (B : V3 ℝ → V3 ℝ) (c d : V3 ℝ) (nodes : List (V3 ℝ)) :
    wireTorque B c d nodes = alongWire (fun q => (B q).cross (rigid (-(d.cross c)) d q)) nodes := by
  induction nodes with
  | nil => rfl
  | cons p0 t ih =>
    cases t with
    | nil => rfl
    | cons p1 r =>
      rw [wireTorque, alongWire, ih]
      congr 1
      unfold segmentTorque alongSegment
      congr 1
      funext t
      generalize p0 + t • (p1 - p0) = p
      simp only [rigid, V3.dot, V3.cross_x, V3.cross_y, V3.cross_z, V3.add_x, V3.add_y, V3.add_z, V3.neg_x, V3.neg_y, V3.neg_z, V3.sub_x, V3.sub_y, V3.sub_z]
      ring

theorem circleForce_eq (B : V3 ℝ → V3 ℝ) (d o e1 e2 : V3 ℝ) (a : ℝ) :
    circleForce B d o e1 e2 a = alongCircle (fun q => (B q).cross (rigid d 0 q)) o e1 e2 a := by
  unfold circleForce alongCircle
  congr 1
  funext t
  simp only [rigid, V3.dot, V3.cross_x, V3.cross_y, V3.cross_z, V3.add_x, V3.add_y, V3.add_z, V3.zero_x, V3.zero_y, V3.zero_z]
  ring

theorem circleTorque_eq (B : V3 ℝ → V3 ℝ) (c d o e1 e2 : V3 ℝ) (a : ℝ) :
    circleTorque B c d o e1 e2 a = alongCircle (fun q => (B q).cross (rigid (-(d.cross c)) d q)) o e1 e2 a := by
  unfold circleTorque alongCircle
  congr 1
  funext t
  generalize CircularWire.point o e1 e2 a t = p
  simp only [rigid, V3.dot, V3.cross_x, V3.cross_y, V3.cross_z, V3.add_x, V3.add_y, V3.add_z, V3.neg_x, V3.neg_y, V3.neg_z, V3.sub_x, V3.sub_y, V3.sub_z]
  ring

theorem pieces_flux (nodes : List (V3 ℝ)) (q : V3 ℝ) : BiotSavart.polyline nodes q = ((pieces nodes).map fun a : Curve => a.flux q).sum := by
  unfold BiotSavart.polyline pieces
  induction nodes with
  | nil => simp [BiotSavart.segSum, segs]
  | cons p0 t ih =>
    cases t with
    | nil => simp [BiotSavart.segSum, segs]
    | cons p1 r =>
      simp only [BiotSavart.segSum, segs, List.map_cons, List.sum_cons, ← ih]
      rfl

theorem pieces_smooth {nodes : List (V3 ℝ)} : ∀ a ∈ pieces nodes, a.Smooth := by
  intro a ha
  obtain ⟨b, -, rfl⟩ := List.mem_map.1 ha
  exact straight_smooth b

/-- A wire that ends where it began. -/
theorem pieces_closed {p : V3 ℝ} {l : List (V3 ℝ)} (h : (p :: l).getLast (by simp) = p) : Closed (pieces (p :: l)) := by
  intro f
  have := segs_telescope f p l
  rw [h, sub_self] at this
  rw [← this, pieces, List.map_map]
  congr 1
  refine List.map_congr_left fun a _ => ?_
  simp [straight]

/-- What the theorems need of a source: its pieces and its flux density on the other source. -/
theorem along_pieces {l m : List Curve} {F : V3 ℝ → V3 ℝ} {k : ℝ} (v r : V3 ℝ)
    (hF : ∀ c ∈ l, ∀ t, c.lo ≤ t → t ≤ c.hi → F (c.P t) = k • ((m.map fun a : Curve => a.flux (c.P t)).sum)) (gl : ∀ c ∈ l, c.Good) :
    (l.map fun c : Curve => c.along fun q => (F q).cross (rigid v r q)).sum =
      k * (l.map fun c : Curve => c.along fun q => ((m.map fun a : Curve => a.flux q).sum).cross (rigid v r q)).sum := by
  rw [← List.sum_map_mul_left]
  congr 1
  refine List.map_congr_left fun c hc => ?_
  unfold Curve.along
  rw [← intervalIntegral.integral_const_mul]
  refine intervalIntegral.integral_congr fun t ht => ?_
  rw [Set.uIcc_of_le (gl c hc).le] at ht
  simp only [hF c hc t ht.1 ht.2]
  simp only [V3.dot, V3.cross_x, V3.cross_y, V3.cross_z, V3.smul_x, V3.smul_y, V3.smul_z, smul_eq_mul]
  ring

theorem sources_balance {l m : List Curve} {F H : V3 ℝ → V3 ℝ} {mu I J : ℝ} (v r : V3 ℝ)
    (hF : ∀ c ∈ l, ∀ t, c.lo ≤ t → t ≤ c.hi → F (c.P t) = (mu * J / (4 * π)) • ((m.map fun a : Curve => a.flux (c.P t)).sum))
    (hH : ∀ c ∈ m, ∀ t, c.lo ≤ t → t ≤ c.hi → H (c.P t) = (mu * I / (4 * π)) • ((l.map fun a : Curve => a.flux (c.P t)).sum))
    (gl : ∀ c ∈ l, c.Good) (gm : ∀ c ∈ m, c.Good) (sl : ∀ c ∈ l, c.Smooth) (sm : ∀ c ∈ m, c.Smooth)
    (ho : ∀ c ∈ l, ∀ a ∈ m, c.Clear a) (cl : Closed l) (cm : Closed m) :
    I * (l.map fun c : Curve => c.along fun q => (F q).cross (rigid v r q)).sum +
      J * (m.map fun c : Curve => c.along fun q => (H q).cross (rigid v r q)).sum = 0 := by
  rw [along_pieces v r hF gl, along_pieces v r hH gm]
  have := lists_balance v r l m gl gm sl sm ho cl cm
  linear_combination (mu * I * J / (4 * π)) * this

/-- **C158.** Two closed wires that do not meet: the forces on them, and the torques about every point, are opposite. -/
theorem wires_balance (a b : LineCurrent) (hmu : a.mu = b.mu) {p q : V3 ℝ} {as bs : List (V3 ℝ)} (na : a.nodes = p :: as) (nb : b.nodes = q :: bs)
    (ca : (p :: as).getLast (by simp) = p) (cb : (q :: bs).getLast (by simp) = q) (ha : Regular a.nodes) (hb : Regular b.nodes)
    (hab : Apart a.nodes b.nodes) (hba : Apart b.nodes a.nodes) (A B : V3 ℝ → V3 ℝ) (hA : ∀ q, OnWire b.nodes q → a.magneticFluxDensity q = .ok (A q))
    (hB : ∀ q, OnWire a.nodes q → b.magneticFluxDensity q = .ok (B q)) (c d : V3 ℝ) :
    b.current * wireForce A d b.nodes + a.current * wireForce B d a.nodes = 0 ∧
    b.current * wireTorque A c d b.nodes + a.current * wireTorque B c d a.nodes = 0 := by
  have key : ∀ v r : V3 ℝ, b.current * alongWire (fun q => (A q).cross (rigid v r q)) b.nodes +
      a.current * alongWire (fun q => (B q).cross (rigid v r q)) a.nodes = 0 := by
    intro v r
    rw [pieces_along, pieces_along]
    refine sources_balance (mu := a.mu) v r (fun c hc t h0 h1 => ?_) (fun c hc t h0 h1 => ?_) pieces_good pieces_good pieces_smooth pieces_smooth
      (fun c hc e he s t h0 h1 _ _ => Apart.ne (hab _ (pieces_on hc h0 h1)) e he t) (by rw [nb]; exact pieces_closed cb) (by rw [na]; exact pieces_closed ca)
    · rw [← pieces_flux]
      exact Except.ok.inj ((hA _ (pieces_on hc h0 h1)).symm.trans (line_flux_biot_savart a _ ha (hab _ (pieces_on hc h0 h1))))
    · rw [← pieces_flux, hmu]
      exact Except.ok.inj ((hB _ (pieces_on hc h0 h1)).symm.trans (line_flux_biot_savart b _ hb (hba _ (pieces_on hc h0 h1))))
  exact ⟨by rw [wireForce_eq, wireForce_eq]; exact key d 0, by rw [wireTorque_eq, wireTorque_eq]; exact key _ d⟩

/-- Non-vacuity: two unit squares, one above the other. -/
example : Regular [⟨0, 0, 0⟩, ⟨1, 0, 0⟩, ⟨1, 1, 0⟩, ⟨0, 1, 0⟩, ⟨0, 0, 0⟩] ∧ Regular [⟨0, 0, 1⟩, ⟨1, 0, 1⟩, ⟨1, 1, 1⟩, ⟨0, 1, 1⟩, ⟨0, 0, 1⟩] ∧
    Apart [⟨0, 0, 0⟩, ⟨1, 0, 0⟩, ⟨1, 1, 0⟩, ⟨0, 1, 0⟩, ⟨0, 0, 0⟩] [⟨0, 0, 1⟩, ⟨1, 0, 1⟩, ⟨1, 1, 1⟩, ⟨0, 1, 1⟩, ⟨0, 0, 1⟩] ∧
    Apart [⟨0, 0, 1⟩, ⟨1, 0, 1⟩, ⟨1, 1, 1⟩, ⟨0, 1, 1⟩, ⟨0, 0, 1⟩] [⟨0, 0, 0⟩, ⟨1, 0, 0⟩, ⟨1, 1, 0⟩, ⟨0, 1, 0⟩, ⟨0, 0, 0⟩] := by
  refine ⟨?_, ?_, ?_, ?_⟩
  · simp only [Regular, List.isChain_cons_cons]
    refine ⟨⟨by simp, .inl ?_⟩, ⟨by simp, .inr ?_⟩, ⟨by simp, .inl ?_⟩, ⟨by simp, .inr ?_⟩, by simp⟩ <;>
      norm_num [tan, Spatial.unit, V3.len, V3.cross, Spatial.defaultTol]
  · simp only [Regular, List.isChain_cons_cons]
    refine ⟨⟨by simp, .inl ?_⟩, ⟨by simp, .inr ?_⟩, ⟨by simp, .inl ?_⟩, ⟨by simp, .inr ?_⟩, by simp⟩ <;>
      norm_num [tan, Spatial.unit, V3.len, V3.cross, Spatial.defaultTol]
  · intro q hq
    have hz : q.z = 1 := by
      rcases hq with ⟨t, -, -, rfl⟩ | ⟨t, -, -, rfl⟩ | ⟨t, -, -, rfl⟩ | ⟨t, -, -, rfl⟩ | h
      all_goals first | exact h.elim | simp
    simp [Off, OffLine, V3.ext_iff, hz]
  · intro q hq
    have hz : q.z = 0 := by
      rcases hq with ⟨t, -, -, rfl⟩ | ⟨t, -, -, rfl⟩ | ⟨t, -, -, rfl⟩ | ⟨t, -, -, rfl⟩ | h
      all_goals first | exact h.elim | simp
    simp [Off, OffLine, V3.ext_iff, hz]

namespace Loop

/-- **C158.** Two loops. -/
theorem loops_balance (s u : Loop) (hmu : s.mu = u.mu) (hs : s.OffBand) (hu : u.OffBand) (ha : 0 < s.radius) (hb : 0 < u.radius)
    {e1 e2 f1 f2 : V3 ℝ} (he : CircularWire.IsFrame e1 e2 s.axis) (hf : CircularWire.IsFrame f1 f2 u.axis)
    (h1 : ∀ t, s.AwayFromAxis s.axis (CircularWire.point u.location f1 f2 u.radius t))
    (h2 : ∀ t, s.OffWire s.axis (CircularWire.point u.location f1 f2 u.radius t))
    (h3 : ∀ t, u.AwayFromAxis u.axis (CircularWire.point s.location e1 e2 s.radius t))
    (h4 : ∀ t, u.OffWire u.axis (CircularWire.point s.location e1 e2 s.radius t)) (A B : V3 ℝ → V3 ℝ)
    (hA : ∀ t, s.magneticFluxDensity (CircularWire.point u.location f1 f2 u.radius t) = .ok (some (A (CircularWire.point u.location f1 f2 u.radius t))))
    (hB : ∀ t, u.magneticFluxDensity (CircularWire.point s.location e1 e2 s.radius t) = .ok (some (B (CircularWire.point s.location e1 e2 s.radius t))))
    (c d : V3 ℝ) :
    u.current * circleForce A d u.location f1 f2 u.radius + s.current * circleForce B d s.location e1 e2 s.radius = 0 ∧
    u.current * circleTorque A c d u.location f1 f2 u.radius + s.current * circleTorque B c d s.location e1 e2 s.radius = 0 := by
  have key : ∀ v r : V3 ℝ, u.current * alongCircle (fun q => (A q).cross (rigid v r q)) u.location f1 f2 u.radius +
      s.current * alongCircle (fun q => (B q).cross (rigid v r q)) s.location e1 e2 s.radius = 0 := by
    intro v r
    have := sources_balance (l := [round u.location f1 f2 u.radius]) (m := [round s.location e1 e2 s.radius]) (F := A) (H := B) (mu := s.mu)
      (I := u.current) (J := s.current) v r ?_ ?_ (by simp [round_good]) (by simp [round_good]) (by simp [round_smooth]) (by simp [round_smooth]) ?_
      (closed_round _ _ _ _) (closed_round _ _ _ _)
    · simpa [round_along] using this
    · intro c hc t _ _
      obtain rfl := List.mem_singleton.1 hc
      simp only [List.map_cons, List.map_nil, List.sum_cons, List.sum_nil, add_zero, round_flux]
      exact Option.some.inj (Except.ok.inj ((hA t).symm.trans (biot_savart hs ha he _ (h1 t) (h2 t)).2))
    · intro c hc t _ _
      obtain rfl := List.mem_singleton.1 hc
      simp only [List.map_cons, List.map_nil, List.sum_cons, List.sum_nil, add_zero, round_flux, hmu]
      exact Option.some.inj (Except.ok.inj ((hB t).symm.trans (biot_savart hu hb hf _ (h3 t) (h4 t)).2))
    · intro c hc e he' x t _ _ _ _
      obtain rfl := List.mem_singleton.1 hc
      obtain rfl := List.mem_singleton.1 he'
      exact ne_point he ha (h2 x) t
  exact ⟨by rw [circleForce_eq, circleForce_eq]; exact key d 0, by rw [circleTorque_eq, circleTorque_eq]; exact key _ d⟩

/-- **C158.** A loop and a closed wire. -/
theorem loop_wire_balance (s : Loop) (b : LineCurrent) (hmu : s.mu = b.mu) (hs : s.OffBand) (ha : 0 < s.radius) {e1 e2 : V3 ℝ}
    (he : CircularWire.IsFrame e1 e2 s.axis) {q : V3 ℝ} {bs : List (V3 ℝ)} (nb : b.nodes = q :: bs) (cb : (q :: bs).getLast (by simp) = q)
    (hb : Regular b.nodes) (h1 : ∀ q, OnWire b.nodes q → s.AwayFromAxis s.axis q) (h2 : ∀ q, OnWire b.nodes q → s.OffWire s.axis q)
    (h3 : ∀ t, Off b.nodes (CircularWire.point s.location e1 e2 s.radius t)) (A B : V3 ℝ → V3 ℝ)
    (hA : ∀ q, OnWire b.nodes q → s.magneticFluxDensity q = .ok (some (A q)))
    (hB : ∀ t, b.magneticFluxDensity (CircularWire.point s.location e1 e2 s.radius t) = .ok (B (CircularWire.point s.location e1 e2 s.radius t)))
    (c d : V3 ℝ) :
    b.current * wireForce A d b.nodes + s.current * circleForce B d s.location e1 e2 s.radius = 0 ∧
    b.current * wireTorque A c d b.nodes + s.current * circleTorque B c d s.location e1 e2 s.radius = 0 := by
  have key : ∀ v r : V3 ℝ, b.current * alongWire (fun q => (A q).cross (rigid v r q)) b.nodes +
      s.current * alongCircle (fun q => (B q).cross (rigid v r q)) s.location e1 e2 s.radius = 0 := by
    intro v r
    have := sources_balance (l := pieces b.nodes) (m := [round s.location e1 e2 s.radius]) (F := A) (H := B) (mu := s.mu)
      (I := b.current) (J := s.current) v r ?_ ?_ pieces_good (by simp [round_good]) pieces_smooth (by simp [round_smooth]) ?_
      (by rw [nb]; exact pieces_closed cb) (closed_round _ _ _ _)
    · rw [pieces_along]
      simpa [round_along] using this
    · intro c hc t h0 h1'
      simp only [List.map_cons, List.map_nil, List.sum_cons, List.sum_nil, add_zero, round_flux]
      have on := pieces_on hc h0 h1'
      exact Option.some.inj (Except.ok.inj ((hA _ on).symm.trans (biot_savart hs ha he _ (h1 _ on) (h2 _ on)).2))
    · intro c hc t _ _
      obtain rfl := List.mem_singleton.1 hc
      rw [← pieces_flux, hmu]
      exact Except.ok.inj ((hB t).symm.trans (line_flux_biot_savart b _ hb (h3 t)))
    · intro c hc e he' x t h0 h1' _ _
      obtain rfl := List.mem_singleton.1 he'
      exact ne_point he ha (h2 _ (pieces_on hc h0 h1')) t
  exact ⟨by rw [wireForce_eq, circleForce_eq]; exact key d 0, by rw [wireTorque_eq, circleTorque_eq]; exact key _ d⟩

end Loop

end Verif.Static
