import Verif.Lemmas.SmallSource
import Verif.Props.ReciprocityWires
import Verif.Spec.SmallSource
import Verif.Spec.StaticLimit

/-!
# C106: small and distant sources are dipoles

Bounds on the difference between the fields of wires, loops and pairs of poles and those of dipoles.
-/

namespace Verif.Static

open V3 WireIntegral FarField Real

theorem dot_smul_right (k : ℝ) (d v : V3 ℝ) : d.dot (k • v) = k * d.dot v := by
  simp only [V3.dot, V3.smul_x, V3.smul_y, V3.smul_z, smul_eq_mul]
  ring

theorem dot_sub_right (d v w : V3 ℝ) : d.dot (v - w) = d.dot v - d.dot w := by
  simp only [V3.dot, sub_x, sub_y, sub_z]
  ring

/-! ## The fields of a magnetic dipole -/

theorem MagDipole.potential_form (d : MagDipole) (q : V3 ℝ) (h : (q - d.location).len ≠ 0) :
    d.vectorPotential q = (d.mu / (4 * π)) • ((1 / (q - d.location).len ^ 3) • (d.moment • d.orientation).cross (q - d.location)) := by
  simp only [MagDipole.vectorPotential]
  generalize (q - d.location).len = r at h
  ext <;> simp only [map_x, map_y, map_z, smul_x, smul_y, smul_z, cross_x, cross_y, cross_z, smul_eq_mul] <;> field_simp

theorem MagDipole.flux_form (d : MagDipole) (q : V3 ℝ) (h : (q - d.location).len ≠ 0) :
    d.magneticFluxDensity q = (d.mu / (4 * π)) • ((3 * (d.moment • d.orientation).dot (q - d.location) / (q - d.location).len ^ 5) • (q - d.location) -
      (1 / (q - d.location).len ^ 3) • (d.moment • d.orientation)) := by
  simp only [MagDipole.magneticFluxDensity]
  generalize (q - d.location).len = r at h
  ext <;> simp only [V3.dot, map_x, map_y, map_z, smul_x, smul_y, smul_z, sub_x, sub_y, sub_z, smul_eq_mul] <;> field_simp

theorem dipole_triple (w A D : V3 ℝ) (hR : D.len ≠ 0) : w.dot ((3 * A.dot D / D.len ^ 5) • D - (1 / D.len ^ 3) • A) =
    3 * (D.cross w).dot (A.cross D) / D.len ^ 5 - -2 * w.dot A / D.len ^ 3 := by
  have h2 := V3.len_sq D
  generalize D.len = R at h2 hR
  simp only [V3.dot, cross_x, cross_y, cross_z, sub_x, sub_y, sub_z, smul_x, smul_y, smul_z, smul_eq_mul]
  field_simp
  linear_combination -3 * (w.x * A.x + w.y * A.y + w.z * A.z) * h2

/-! ## Totals over a wire -/

theorem sum_map_sub {α : Type*} (l : List α) (f g : α → ℝ) : (l.map fun a => f a - g a).sum = (l.map f).sum - (l.map g).sum := by
  induction l with
  | nil => simp
  | cons a l ih =>
    simp only [List.map_cons, List.sum_cons, ih]
    ring

theorem area_dot (nodes : List (V3 ℝ)) (w : V3 ℝ) :
    w.dot (Wire.vectorArea nodes) = ((segs nodes).map fun a => w.dot ((1 / 2 : ℝ) • a.1.cross a.2)).sum := by
  induction nodes with
  | nil => simp [Wire.vectorArea, segs, V3.dot]
  | cons p0 t ih =>
    cases t with
    | nil => simp [Wire.vectorArea, segs, V3.dot]
    | cons p1 r =>
      simp only [Wire.vectorArea, segs, List.map_cons, List.sum_cons, ← ih]
      simp only [V3.dot, V3.add_x, V3.add_y, V3.add_z]
      ring

theorem length_sum (nodes : List (V3 ℝ)) : Wire.length nodes = ((segs nodes).map fun a => (a.2 - a.1).len).sum := by
  induction nodes with
  | nil => simp [Wire.length, segs]
  | cons p0 t ih =>
    cases t with
    | nil => simp [Wire.length, segs]
    | cons p1 r => simp only [Wire.length, segs, List.map_cons, List.sum_cons, ← ih]

theorem flux_sum (nodes : List (V3 ℝ)) (q w : V3 ℝ) :
    w.dot (BiotSavart.polyline nodes q) = ((segs nodes).map fun a => w.dot ((straight a).flux q)).sum := by
  unfold BiotSavart.polyline
  induction nodes with
  | nil => simp [BiotSavart.segSum, segs, V3.dot]
  | cons p0 t ih =>
    cases t with
    | nil => simp [BiotSavart.segSum, segs, V3.dot]
    | cons p1 r =>
      simp only [BiotSavart.segSum, segs, List.map_cons, List.sum_cons, ← ih]
      simp only [V3.dot, V3.add_x, V3.add_y, V3.add_z, straight_flux]
      ring

theorem pot_sum (nodes : List (V3 ℝ)) (q w : V3 ℝ) :
    w.dot (wirePotential q nodes) = ((segs nodes).map fun a => w.dot ((straight a).pot q)).sum := by
  rw [pieces_pot, pieces, List.map_map]
  rfl

theorem sum_mom0 (p : V3 ℝ) (l : List (V3 ℝ)) (w : V3 ℝ) :
    ((segs (p :: l)).map fun a => (straight a).mom0 w).sum = w.dot ((p :: l).getLast (by simp) - p) := by
  rw [telescope (g := fun x => w.dot x) (fun a b => by rw [straight_mom0, dot_sub_right]), dot_sub_right]

/-- Around a closed wire. -/
theorem sum_mom1 (p : V3 ℝ) (l : List (V3 ℝ)) (hc : (p :: l).getLast (by simp) = p) (o u w : V3 ℝ) :
    ((segs (p :: l)).map fun a => (straight a).mom1 o u w).sum = w.dot ((Wire.vectorArea (p :: l)).cross u) := by
  have e : w.dot ((Wire.vectorArea (p :: l)).cross u) = (u.cross w).dot (Wire.vectorArea (p :: l)) := by
    simp only [V3.dot, cross_x, cross_y, cross_z]
    ring
  rw [e, area_dot, ← sub_eq_zero, ← sum_map_sub,
    telescope (g := fun x => (u.dot (x - o) * w.dot (x - o) + w.dot ((x.cross o).cross u)) / 2), hc, sub_self]
  intro a b
  rw [straight_mom1]
  simp only [V3.dot, cross_x, cross_y, cross_z, sub_x, sub_y, sub_z, smul_x, smul_y, smul_z, smul_eq_mul]
  ring

theorem sum_mom2 (p : V3 ℝ) (l : List (V3 ℝ)) (hc : (p :: l).getLast (by simp) = p) (o w : V3 ℝ) :
    ((segs (p :: l)).map fun a => (straight a).mom2 o w).sum = -2 * w.dot (Wire.vectorArea (p :: l)) := by
  rw [area_dot, ← List.sum_map_mul_left, ← sub_eq_zero, ← sum_map_sub, telescope (g := fun x => -w.dot (x.cross o)), hc, sub_self]
  intro a b
  rw [straight_mom2]
  simp only [V3.dot, cross_x, cross_y, cross_z, sub_x, sub_y, sub_z, smul_x, smul_y, smul_z, smul_eq_mul]
  ring

theorem wire_bound {nodes : List (V3 ℝ)} {f g : V3 ℝ × V3 ℝ → ℝ} {W K : ℝ}
    (h : ∀ a ∈ segs nodes, |f a - g a| ≤ W * (a.2 - a.1).len * K * ((straight a).hi - (straight a).lo)) :
    |((segs nodes).map f).sum - ((segs nodes).map g).sum| ≤ W * (Wire.length nodes * K) := by
  refine (sum_bound (h := fun a => W * K * (a.2 - a.1).len) _ fun a ha => (h a ha).trans (le_of_eq ?_)).trans (le_of_eq ?_)
  · simp only [straight]
    ring
  · rw [List.sum_map_mul_left, length_sum]
    ring

theorem len_smul_sub (k : ℝ) (v w : V3 ℝ) {C : ℝ} (h : ∀ u : V3 ℝ, |u.dot v - u.dot w| ≤ u.len * C) : (k • v - k • w).len ≤ |k| * C := by
  rw [← smul_sub, len_smul]
  refine mul_le_mul_of_nonneg_left (len_le_of_dot fun u => ?_) (abs_nonneg _)
  rw [dot_sub_right]
  exact h u

/-! ## Wires -/

/-- **C106.** A small closed wire is a magnetic dipole whose moment is the current times the vector area: where it is at a distance greater
than its extent, the vector potential and the flux density of the wire differ from those of the dipole by a bound that is of second order
in the extent. -/
theorem closed_wire_is_dipole (s : LineCurrent) (d : MagDipole) (q : V3 ℝ) (δ : ℝ) (hr : Regular s.nodes) (ho : Off s.nodes q) (hmu : d.mu = s.mu)
    (hc : s.nodes.head? = s.nodes.getLast?) (hd : ∀ p ∈ s.nodes, (p - d.location).len ≤ δ) (hδ : 0 ≤ δ) (hq : δ < (q - d.location).len)
    (hm : d.moment • d.orientation = s.current • Wire.vectorArea s.nodes) :
    ∃ A B, s.vectorPotential q = .ok A ∧ s.magneticFluxDensity q = .ok B ∧
      (A - d.vectorPotential q).len ≤ |s.mu * s.current / (4 * π)| * (Wire.length s.nodes * (2 * δ ^ 2 / ((q - d.location).len - δ) ^ 3)) ∧
      (B - d.magneticFluxDensity q).len ≤ |s.mu * s.current / (4 * π)| * (Wire.length s.nodes * (12 * δ ^ 2 / ((q - d.location).len - δ) ^ 4)) := by
  refine ⟨_, _, line_potential_integral s q hr ho, line_flux_biot_savart s q hr ho, ?_, ?_⟩
  all_goals
    have hR : (q - d.location).len ≠ 0 := by linarith
  · have e : d.vectorPotential q = (s.mu * s.current / (4 * π)) •
        ((1 / (q - d.location).len ^ 3) • (Wire.vectorArea s.nodes).cross (q - d.location)) := by
      rw [MagDipole.potential_form d q hR, hm, hmu]
      ext <;> simp only [smul_x, smul_y, smul_z, cross_x, cross_y, cross_z, smul_eq_mul] <;> ring
    rw [e]
    refine len_smul_sub _ _ _ fun w => ?_
    generalize s.nodes = nodes at hc hd
    cases nodes with
    | nil => simp [wirePotential, Wire.vectorArea, Wire.length, V3.dot]
    | cons p l =>
      have hl : (p :: l).getLast (by simp) = p := by
        rw [List.head?_cons, List.getLast?_eq_some_getLast (by simp)] at hc
        exact (Option.some.inj hc).symm
      have t : w.dot ((1 / (q - d.location).len ^ 3) • (Wire.vectorArea (p :: l)).cross (q - d.location)) =
          ((segs (p :: l)).map fun a => (straight a).mom0 w / (q - d.location).len +
            (straight a).mom1 d.location (q - d.location) w / (q - d.location).len ^ 3).sum := by
        simp only [div_eq_mul_inv]
        rw [List.sum_map_add, List.sum_map_mul_right, List.sum_map_mul_right, sum_mom0, sum_mom1 p l hl, hl, dot_smul_right]
        simp [V3.dot]
        ring
      rw [pot_sum, t]
      refine wire_bound fun a ha => ?_
      have := segs_mem ha
      exact (straight_good a).pot_far (straight_small a (hd _ this.1) (hd _ this.2)) hq w
  · have e : d.magneticFluxDensity q = (s.mu * s.current / (4 * π)) •
        ((3 * (Wire.vectorArea s.nodes).dot (q - d.location) / (q - d.location).len ^ 5) • (q - d.location) -
          (1 / (q - d.location).len ^ 3) • Wire.vectorArea s.nodes) := by
      rw [MagDipole.flux_form d q hR, hm, hmu]
      ext <;> simp only [V3.dot, smul_x, smul_y, smul_z, sub_x, sub_y, sub_z, smul_eq_mul] <;> ring
    rw [e]
    refine len_smul_sub _ _ _ fun w => ?_
    generalize s.nodes = nodes at hc hd
    cases nodes with
    | nil => simp [BiotSavart.polyline, BiotSavart.segSum, Wire.vectorArea, Wire.length, V3.dot]
    | cons p l =>
      have hl : (p :: l).getLast (by simp) = p := by
        rw [List.head?_cons, List.getLast?_eq_some_getLast (by simp)] at hc
        exact (Option.some.inj hc).symm
      have t : w.dot ((3 * (Wire.vectorArea (p :: l)).dot (q - d.location) / (q - d.location).len ^ 5) • (q - d.location) -
          (1 / (q - d.location).len ^ 3) • Wire.vectorArea (p :: l)) =
          ((segs (p :: l)).map fun a => (straight a).mom0 ((newton (q - d.location)).cross w) +
            3 * (straight a).mom1 d.location (q - d.location) ((q - d.location).cross w) / (q - d.location).len ^ 5 -
              (straight a).mom2 d.location w / (q - d.location).len ^ 3).sum := by
        simp only [div_eq_mul_inv, mul_assoc]
        rw [sum_map_sub, List.sum_map_add, List.sum_map_mul_left, List.sum_map_mul_right, List.sum_map_mul_right, sum_mom0, sum_mom1 p l hl,
          sum_mom2 p l hl, hl]
        rw [← mul_assoc, ← div_eq_mul_inv, ← div_eq_mul_inv, dipole_triple _ _ _ hR, sub_self]
        have z : ((newton (q - d.location)).cross w).dot 0 = 0 := by simp [V3.dot]
        rw [z]
        ring
      rw [flux_sum, t]
      refine wire_bound fun a ha => ?_
      have := segs_mem ha
      exact (straight_good a).flux_far (straight_small a (hd _ this.1) (hd _ this.2)) hq w

/-- **C106.** A small open wire is, to first order, the current element that joins its ends: this is what its flux density looks like from a
distance greater than its extent, whatever the way in between. -/
theorem open_wire_is_element (s : LineCurrent) (o q n0 n1 : V3 ℝ) (δ : ℝ) (hr : Regular s.nodes) (ho : Off s.nodes q)
    (h0 : s.nodes.head? = some n0) (h1 : s.nodes.getLast? = some n1) (hd : ∀ p ∈ s.nodes, (p - o).len ≤ δ) (hq : δ < (q - o).len) :
    ∃ B, s.magneticFluxDensity q = .ok B ∧ (B - s.mu • CurrentElement.magnetic (s.current • (n1 - n0)) (q - o)).len ≤
      |s.mu * s.current / (4 * π)| * (Wire.length s.nodes * (4 * δ / ((q - o).len - δ) ^ 3)) := by
  refine ⟨_, line_flux_biot_savart s q hr ho, ?_⟩
  have e : s.mu • CurrentElement.magnetic (s.current • (n1 - n0)) (q - o) = (s.mu * s.current / (4 * π)) • (n1 - n0).cross (newton (q - o)) := by
    unfold CurrentElement.magnetic newton
    ext <;> simp only [smul_x, smul_y, smul_z, cross_x, cross_y, cross_z, smul_eq_mul] <;> ring
  rw [e]
  refine len_smul_sub _ _ _ fun w => ?_
  generalize s.nodes = nodes at h0 h1 hd
  cases nodes with
  | nil => simp at h0
  | cons p l =>
    have hp : p = n0 := by simpa using h0
    have hl : (p :: l).getLast (by simp) = n1 := by
      rw [List.getLast?_eq_some_getLast (by simp)] at h1
      exact Option.some.inj h1
    have t : w.dot ((n1 - n0).cross (newton (q - o))) = ((segs (p :: l)).map fun a => (straight a).mom0 ((newton (q - o)).cross w)).sum := by
      rw [sum_mom0, hl, hp]
      simp only [V3.dot, cross_x, cross_y, cross_z]
      ring
    rw [flux_sum, t]
    refine wire_bound fun a ha => ?_
    have := segs_mem ha
    exact (straight_good a).flux_near (straight_small a (hd _ this.1) (hd _ this.2)) hq w

theorem near_of {o q p : V3 ℝ} {δ : ℝ} (hp : (p - o).len ≤ δ) (hq : δ < (q - o).len) : Near (q - p) (q - o) ((q - o).len - δ) δ := by
  have e : q - p - (q - o) = -(p - o) := by abel
  have hn : 0 ≤ δ := (len_nonneg _).trans hp
  refine ⟨by linarith, ?_, by linarith, by rw [e, len_neg]; exact hp⟩
  have h := len_add_le (q - p) (p - o)
  have e2 : q - p + (p - o) = q - o := by abel
  rw [e2] at h
  linarith

theorem poles_bound {o q a b : V3 ℝ} {δ : ℝ} (ha : (a - o).len ≤ δ) (hb : (b - o).len ≤ δ) (hq : δ < (q - o).len) :
    (newton (q - a) - newton (q - b) - ((3 * (a - b).dot (q - o) / (q - o).len ^ 5) • (q - o) - (1 / (q - o).len ^ 3) • (a - b))).len ≤
      24 * δ ^ 2 / ((q - o).len - δ) ^ 4 := by
  have h1 := (near_of ha hq).newton_second
  have h2 := (near_of hb hq).newton_second
  have e : newton (q - a) - newton (q - b) - ((3 * (a - b).dot (q - o) / (q - o).len ^ 5) • (q - o) - (1 / (q - o).len ^ 3) • (a - b)) =
      (newton (q - a) - newton (q - o) - newtonDeriv (q - o) (q - a - (q - o))) +
        -(newton (q - b) - newton (q - o) - newtonDeriv (q - o) (q - b - (q - o))) := by
    generalize newton (q - a) = n1
    generalize newton (q - b) = n2
    generalize newton (q - o) = n3
    unfold newtonDeriv
    ext <;> simp only [V3.dot, smul_x, smul_y, smul_z, add_x, add_y, add_z, neg_x, neg_y, neg_z, sub_x, sub_y, sub_z, smul_eq_mul] <;> ring
  rw [e]
  refine (len_add_le _ _).trans ?_
  rw [len_neg]
  refine (add_le_add h1 h2).trans (le_of_eq ?_)
  ring

/-- **C106.** Seen from a distance a grounded wire is a current element: potential and electric field differ from those of the element that
joins the electrodes by a bound of second order in the extent. -/
theorem grounded_wire_is_element (s : LineCurrent) (o q n0 n1 : V3 ℝ) (δ : ℝ) (h0 : s.nodes.head? = some n0) (h1 : s.nodes.getLast? = some n1)
    (h2 : 2 ≤ s.nodes.length) (hd0 : (n0 - o).len ≤ δ) (hd1 : (n1 - o).len ≤ δ) (hq : δ < (q - o).len) :
    ∃ V E, s.scalarPotential q = .ok V ∧ s.electricField q = .ok E ∧
      |V - CurrentElement.potential s.sigma (s.current • (n1 - n0)) (q - o)| ≤
        |s.current / (4 * π * s.sigma)| * (4 * δ ^ 2 / ((q - o).len - δ) ^ 3) ∧
      (E - CurrentElement.electric s.sigma (s.current • (n1 - n0)) (q - o)).len ≤
        |s.current / (4 * π * s.sigma)| * (24 * δ ^ 2 / ((q - o).len - δ) ^ 4) := by
  obtain ⟨m, l, hn⟩ : ∃ m l, s.nodes = n0 :: m :: l := by
    match hs : s.nodes, h0, h2 with
    | a :: m :: l, h0, _ => exact ⟨m, l, by simpa using h0⟩
  have hl : (m :: l).getLast (by simp) = n1 := by
    rw [hn, List.getLast?_eq_some_getLast (by simp), List.getLast_cons_cons] at h1
    exact Option.some.inj h1
  have hV : s.scalarPotential q = .ok (s.current / (4 * π * s.sigma) * (1 / (q - n1).len - 1 / (q - n0).len)) := by
    simp only [LineCurrent.scalarPotential, hn, hl]
    split_ifs with h
    · simp [hl.symm.trans h]
    · rfl
  have hE : s.electricField q = .ok ((s.current / (4 * π * s.sigma)) • (newton (q - n1) - newton (q - n0))) := by
    simp only [LineCurrent.electricField, hn, hl]
    split_ifs with h
    · rw [hl.symm.trans h, sub_self, smul_zero]
    · congr 1
      unfold newton
      ext <;> simp only [smul_x, smul_y, smul_z, sub_x, sub_y, sub_z, smul_eq_mul] <;> ring
  refine ⟨_, _, hV, hE, ?_, ?_⟩
  · have b1 := (near_of hd1 hq).second_order
    have b0 := (near_of hd0 hq).second_order
    have e : s.current / (4 * π * s.sigma) * (1 / (q - n1).len - 1 / (q - n0).len) -
        CurrentElement.potential s.sigma (s.current • (n1 - n0)) (q - o) = s.current / (4 * π * s.sigma) *
          ((1 / (q - n1).len - 1 / (q - o).len + (q - o).dot (q - n1 - (q - o)) / (q - o).len ^ 3) -
            (1 / (q - n0).len - 1 / (q - o).len + (q - o).dot (q - n0 - (q - o)) / (q - o).len ^ 3)) := by
      unfold CurrentElement.potential
      generalize (q - o).len = R
      generalize (q - n1).len = R1
      generalize (q - n0).len = R0
      simp only [V3.dot, smul_x, smul_y, smul_z, sub_x, sub_y, sub_z, smul_eq_mul]
      rw [← div_div]
      ring
    rw [e, abs_mul]
    refine mul_le_mul_of_nonneg_left ?_ (abs_nonneg _)
    refine (abs_sub _ _).trans ((add_le_add b1 b0).trans (le_of_eq ?_))
    ring
  · have e : CurrentElement.electric s.sigma (s.current • (n1 - n0)) (q - o) = (s.current / (4 * π * s.sigma)) •
        ((3 * (n1 - n0).dot (q - o) / (q - o).len ^ 5) • (q - o) - (1 / (q - o).len ^ 3) • (n1 - n0)) := by
      unfold CurrentElement.electric
      ext <;> simp only [V3.dot, smul_x, smul_y, smul_z, sub_x, sub_y, sub_z, smul_eq_mul] <;> ring
    rw [e, ← smul_sub, len_smul]
    exact mul_le_mul_of_nonneg_left (poles_bound hd1 hd0 hq) (abs_nonneg _)

/-- **C106.** Two opposite magnetic poles close together are a magnetic dipole, whose moment points from the negative to the positive pole. -/
theorem poles_are_dipole (a b d : MagDipole) (q : V3 ℝ) (δ : ℝ) (hmu : a.mu = d.mu) (hmu' : b.mu = d.mu) (hab : b.moment = -a.moment)
    (hm : d.moment • d.orientation = a.moment • (a.location - b.location)) (ha : (a.location - d.location).len ≤ δ)
    (hb : (b.location - d.location).len ≤ δ) (hq : δ < (q - d.location).len) :
    (a.poleFluxDensity q + b.poleFluxDensity q - d.magneticFluxDensity q).len ≤
      |d.mu * a.moment / (4 * π)| * (24 * δ ^ 2 / ((q - d.location).len - δ) ^ 4) := by
  have form : ∀ s : MagDipole, (q - s.location).len ≠ 0 → s.poleFluxDensity q = (s.mu * s.moment / (4 * π)) • newton (q - s.location) := by
    intro s hs
    unfold newton
    simp only [MagDipole.poleFluxDensity]
    generalize (q - s.location).len = r at hs
    ext <;> simp only [map_x, map_y, map_z, smul_x, smul_y, smul_z, smul_eq_mul] <;> field_simp
  have na := near_of ha hq
  have nb := near_of hb hq
  have e : a.poleFluxDensity q + b.poleFluxDensity q - d.magneticFluxDensity q = (d.mu * a.moment / (4 * π)) •
      (newton (q - a.location) - newton (q - b.location) - ((3 * (a.location - b.location).dot (q - d.location) / (q - d.location).len ^ 5) •
        (q - d.location) - (1 / (q - d.location).len ^ 3) • (a.location - b.location))) := by
    rw [form a na.apos.ne', form b nb.apos.ne', d.flux_form q na.bpos.ne', hm, hmu, hmu', hab]
    generalize newton (q - a.location) = n1
    generalize newton (q - b.location) = n2
    ext <;> simp only [V3.dot, smul_x, smul_y, smul_z, add_x, add_y, add_z, sub_x, sub_y, sub_z, smul_eq_mul] <;> ring
  rw [e, len_smul]
  exact mul_le_mul_of_nonneg_left (poles_bound ha hb hq) (abs_nonneg _)

/-! ## Loops -/

theorem frame_of {n v : V3 ℝ} (hn : n.len = 1) (hc : (n.cross v).len ≠ 0) : ∃ e1 e2, CircularWire.IsFrame e1 e2 n := by
  have e0 : ((1 / (n.cross v).len) • n.cross v).dot ((1 / (n.cross v).len) • n.cross v) = 1 := by
    rw [dot_self, len_smul, abs_of_nonneg (by have := len_nonneg (n.cross v); positivity)]
    field_simp
  have e1 : ((1 / (n.cross v).len) • n.cross v).dot n = 0 := by
    generalize 1 / (n.cross v).len = k
    simp only [V3.dot, cross_x, cross_y, cross_z, smul_x, smul_y, smul_z, smul_eq_mul]
    ring
  have e2 : n.dot n = 1 := by rw [dot_self, hn]; norm_num
  generalize (1 / (n.cross v).len) • n.cross v = e at e0 e1
  refine ⟨e, n.cross e, ?_⟩
  simp only [CircularWire.IsFrame, V3.dot, cross_x, cross_y, cross_z] at e0 e1 e2 ⊢
  refine ⟨e0, ?_, ?_, ?_⟩
  · linear_combination (n.x ^ 2 + n.y ^ 2 + n.z ^ 2) * e0 + e2 - (e.x * n.x + e.y * n.y + e.z * n.z) * e1
  · ring
  · ext <;> simp only [cross_x, cross_y, cross_z]
    · linear_combination n.x * e0 - e.x * e1
    · linear_combination n.y * e0 - e.y * e1
    · linear_combination n.z * e0 - e.z * e1

/-- **C106.** A small circular loop is a magnetic dipole along its axis whose moment is the current times the area. -/
theorem Loop.is_dipole (s : Loop) (d : MagDipole) (q : V3 ℝ) (hmu : d.mu = s.mu) (hl : d.location = s.location) (hb : s.OffBand) (ha : 0 < s.radius)
    (hm : d.moment • d.orientation = (s.current * (π * s.radius ^ 2)) • s.axis) (h1 : s.AwayFromAxis s.axis q)
    (hq : s.radius < (q - s.location).len) :
    ∃ A B, s.vectorPotential q = .ok (some A) ∧ s.magneticFluxDensity q = .ok (some B) ∧
      (A - d.vectorPotential q).len ≤
        |s.mu * s.current / (4 * π)| * (2 * π * s.radius * (2 * s.radius ^ 2 / ((q - s.location).len - s.radius) ^ 3)) ∧
      (B - d.magneticFluxDensity q).len ≤
        |s.mu * s.current / (4 * π)| * (2 * π * s.radius * (12 * s.radius ^ 2 / ((q - s.location).len - s.radius) ^ 4)) := by
  have hn : s.axis.len = 1 := hb.frame.1
  obtain ⟨e1, e2, he⟩ : ∃ e1 e2, CircularWire.IsFrame e1 e2 s.axis := by
    have hc : (s.axis.cross (q - s.location)).len ≠ 0 := by
      intro h
      rw [AwayFromAxis, h] at h1
      nlinarith [sq_nonneg (s.axis.dot (q - s.location)), sq_pos_of_pos ha]
    exact frame_of hn hc
  have h2 : s.OffWire s.axis q := by
    rintro ⟨z, h⟩
    have := cross_dot_self s.axis (q - s.location)
    rw [dot_self, dot_self, dot_self, z, h, hn] at this
    nlinarith
  have hR : (q - d.location).len ≠ 0 := by rw [hl]; linarith
  obtain ⟨hA, hB⟩ := biot_savart hb ha he q h1 h2
  have sm := round_small (o := s.location) he ha.le
  refine ⟨_, _, hA, hB, ?_, ?_⟩
  · have e : d.vectorPotential q = (s.mu * s.current / (4 * π)) •
        ((1 / (q - s.location).len ^ 3) • ((π * s.radius ^ 2) • s.axis).cross (q - s.location)) := by
      rw [MagDipole.potential_form d q hR, hm, hmu, hl]
      ext <;> simp only [smul_x, smul_y, smul_z, cross_x, cross_y, cross_z, smul_eq_mul] <;> ring
    rw [e]
    refine len_smul_sub _ _ _ fun w => ?_
    have h := (round_good s.location e1 e2 s.radius).pot_far sm hq w
    rw [round_mom0, round_mom1 he, round_pot] at h
    rw [dot_smul_right]
    refine (le_of_eq ?_).trans (h.trans (le_of_eq ?_))
    · congr 1
      ring
    · simp only [WireIntegral.round]
      ring
  · have e : d.magneticFluxDensity q = (s.mu * s.current / (4 * π)) •
        ((3 * ((π * s.radius ^ 2) • s.axis).dot (q - s.location) / (q - s.location).len ^ 5) • (q - s.location) -
          (1 / (q - s.location).len ^ 3) • ((π * s.radius ^ 2) • s.axis)) := by
      rw [MagDipole.flux_form d q hR, hm, hmu, hl]
      ext <;> simp only [V3.dot, smul_x, smul_y, smul_z, sub_x, sub_y, sub_z, smul_eq_mul] <;> ring
    rw [e]
    refine len_smul_sub _ _ _ fun w => ?_
    have h := (round_good s.location e1 e2 s.radius).flux_far sm hq w
    rw [round_mom0, round_mom1 he, round_mom2 he, round_flux, zero_add] at h
    rw [dipole_triple _ _ _ (by rw [← hl]; exact hR)]
    refine h.trans (le_of_eq ?_)
    simp only [WireIntegral.round]
    ring

/-! ## Non-vacuity -/

/-- A unit square and a point ten units above it. -/
example : Regular [⟨0, 0, 0⟩, ⟨1, 0, 0⟩, ⟨1, 1, 0⟩, ⟨0, 1, 0⟩, ⟨0, 0, 0⟩] ∧
    Off [⟨0, 0, 0⟩, ⟨1, 0, 0⟩, ⟨1, 1, 0⟩, ⟨0, 1, 0⟩, ⟨0, 0, 0⟩] ⟨0, 0, 10⟩ ∧
    (∀ p ∈ ([⟨0, 0, 0⟩, ⟨1, 0, 0⟩, ⟨1, 1, 0⟩, ⟨0, 1, 0⟩, ⟨0, 0, 0⟩] : List (V3 ℝ)), (p - ⟨1 / 2, 1 / 2, 0⟩).len ≤ 1) ∧
    1 < ((⟨0, 0, 10⟩ : V3 ℝ) - ⟨1 / 2, 1 / 2, 0⟩).len := by
  refine ⟨?_, ?_, ?_, ?_⟩
  · simp only [Regular, List.isChain_cons_cons]
    refine ⟨⟨by simp, .inl ?_⟩, ⟨by simp, .inr ?_⟩, ⟨by simp, .inl ?_⟩, ⟨by simp, .inr ?_⟩, by simp⟩
    · norm_num [tan, Spatial.unit, V3.len, V3.cross]
    · norm_num [tan, Spatial.unit, V3.len, V3.cross, Spatial.defaultTol]
    · norm_num [tan, Spatial.unit, V3.len, V3.cross]
    · norm_num [tan, Spatial.unit, V3.len, V3.cross, Spatial.defaultTol]
  · simp [Off, OffLine, V3.ext_iff]
  · simp only [List.forall_mem_cons]
    refine ⟨?_, ?_, ?_, ?_, ?_, by simp⟩ <;> rw [len_le_iff zero_le_one] <;> norm_num [V3.dot]
  · rw [V3.len, Real.lt_sqrt (by norm_num)]
    norm_num

end Verif.Static
