import Verif.Model.Displacement
import Verif.Lemmas.ElasticTurn
import Verif.Props.EarthquakeAttributes
import Verif.Props.Okada
import Verif.Spec.Fault
import Mathlib.Analysis.Real.Pi.Bounds

/-!
# Property C96: the displacement vector of an earthquake
-/

namespace Verif.Okada

open Real Elastic

/-- **C96 fails**: reading `displacement_vector` raises `AttributeError` on every object, after every history. -/
theorem displacement_vector_raises {D β : Type} [FloatGrammar] [Earthquake.Conversions D] (rest : NArr PyFloat → Py β) (ops : List (Earthquake.OAttr × Earthquake.Arg D)) :
    displacementVector rest (runOps Earthquake.OAttr.set (fun _ => none) ops) = .error .attributeError := by
  simp only [displacementVector, Earthquake.simulationGrid_always_raises, bind, Except.bind]

namespace Event

variable {e : Event}

/-- The strike in radians that is used. -/
noncomputable def strikeAngle (e : Event) : ℝ := (e.strike + 90) * pl8 - π / 2

/-- The rake in radians that is used. -/
noncomputable def rakeAngle (e : Event) : ℝ := (e.rake + 90) * pl8 - π / 2

theorem pl8_close : |pl8 - π / 180| ≤ 3 / 10 ^ 16 := by
  have h1 := pi_gt_d20
  have h2 := pi_lt_d20
  rw [pl8, abs_le]
  constructor <;> linarith

/-- Both differ from the values in degrees times `π / 180` by the rounding of the constant only. -/
theorem strikeAngle_close (e : Event) : |e.strikeAngle - e.strike * (π / 180)| ≤ 3 / 10 ^ 16 * |e.strike + 90| := by
  have : e.strikeAngle - e.strike * (π / 180) = (pl8 - π / 180) * (e.strike + 90) := by rw [strikeAngle]; ring
  rw [this, abs_mul]
  exact mul_le_mul_of_nonneg_right pl8_close (abs_nonneg _)

theorem rakeAngle_close (e : Event) : |e.rakeAngle - e.rake * (π / 180)| ≤ 3 / 10 ^ 16 * |e.rake + 90| := by
  have : e.rakeAngle - e.rake * (π / 180) = (pl8 - π / 180) * (e.rake + 90) := by rw [rakeAngle]; ring
  rw [this, abs_mul]
  exact mul_le_mul_of_nonneg_right pl8_close (abs_nonneg _)

theorem cos_turn : cos e.turnAngle = -sin e.strikeAngle := by
  rw [show e.turnAngle = e.strikeAngle + π / 2 by rw [strikeAngle, turnAngle]; ring, cos_add_pi_div_two]

theorem sin_turn : sin e.turnAngle = cos e.strikeAngle := by
  rw [show e.turnAngle = e.strikeAngle + π / 2 by rw [strikeAngle, turnAngle]; ring, sin_add_pi_div_two]

theorem dipConstants_fault (hc : eps ≤ |cos (e.dip * pl8)|) : dipConstants e.fault.dip = (-sin (e.dip * pl8), cos (e.dip * pl8)) := by
  have h1 : sin (-e.dip * pl8) = -sin (e.dip * pl8) := by rw [neg_mul, sin_neg]
  have h2 : cos (-e.dip * pl8) = cos (e.dip * pl8) := by rw [neg_mul, cos_neg]
  simp only [dipConstants, fault, h1, h2]
  rw [if_neg (not_lt.2 hc)]

/-- Undoing the turn of the axes maps the integral in the axes of the fault to the one in geographic axes. -/
theorem combine_volterra (hmu : e.mu ≠ 0) (hc : eps ≤ |cos (e.dip * pl8)|) (hs : sin (e.dip * pl8) ≠ 0) (htop : 0 ≤ e.depthTop)
    (hbot : 0 ≤ e.depthBottom) (p : ℝ × ℝ) (hY : Corner.OffOrClear (-sin (e.dip * pl8)) e.fault.al1 e.fault.al2 e.fault.aw1 e.fault.aw2
      (e.station p).X (e.station p).Y) :
    unturn (cos e.turnAngle) (sin e.turnAngle) (volterra e.fault e.beta e.mu (e.station p)) =
      eventDisplacement e.beta e.mu e.strikeAngle (e.dip * pl8) e.rakeAngle e.slip e.length e.depthTop e.depthBottom
        ⟨e.centerX, e.centerY, 0⟩ ⟨p.1, p.2, 0⟩ := by
  have hcs : cos e.turnAngle ^ 2 + sin e.turnAngle ^ 2 = 1 := cos_sq_add_sin_sq _
  have hsc : (-sin (e.dip * pl8)) ^ 2 + cos (e.dip * pl8) ^ 2 = 1 := by rw [neg_sq]; exact sin_sq_add_cos_sq _
  have hw1 : e.fault.aw1 * -sin (e.dip * pl8) ≤ 0 := by
    have : e.fault.aw1 * -sin (e.dip * pl8) = -e.depthTop := by simp only [fault]; field_simp
    linarith
  have hw2 : e.fault.aw2 * -sin (e.dip * pl8) ≤ 0 := by
    have : e.fault.aw2 * -sin (e.dip * pl8) = -e.depthBottom := by simp only [fault]; field_simp
    linarith
  have hs' : -sin (e.dip * pl8) ≠ 0 := neg_ne_zero.2 hs
  have hrake1 : sin ((e.rake + 90) * pl8) = cos e.rakeAngle := by
    rw [show (e.rake + 90) * pl8 = e.rakeAngle + π / 2 by rw [rakeAngle]; ring, sin_add_pi_div_two]
  have hrake2 : cos ((e.rake + 90) * pl8) = -sin e.rakeAngle := by
    rw [show (e.rake + 90) * pl8 = e.rakeAngle + π / 2 by rw [rakeAngle]; ring, cos_add_pi_div_two]
  have hb : unturn (cos e.turnAngle) (sin e.turnAngle) ⟨e.fault.disl1, e.fault.disl2 * cos (e.dip * pl8), e.fault.disl2 * -sin (e.dip * pl8)⟩ =
      slipVector e.strikeAngle (e.dip * pl8) e.rakeAngle e.slip := by
    ext <;> simp [unturn, fault, slipVector, strikeDir, downDip, hrake1, hrake2, cos_turn, sin_turn] <;> ring
  have hn : unturn (cos e.turnAngle) (sin e.turnAngle) ⟨0, - -sin (e.dip * pl8), cos (e.dip * pl8)⟩ = faultNormal e.strikeAngle (e.dip * pl8) := by
    ext <;> simp [unturn, faultNormal, cos_turn, sin_turn] <;> ring
  have hp : ∀ a w : ℝ, unturn (cos e.turnAngle) (sin e.turnAngle)
      ((⟨a, w * cos (e.dip * pl8), w * -sin (e.dip * pl8)⟩ : V3 ℝ) - ⟨(e.station p).X, (e.station p).Y, 0⟩) =
      (⟨e.centerX, e.centerY, 0⟩ + (-a) • strikeDir e.strikeAngle + w • downDip e.strikeAngle (e.dip * pl8)) - ⟨p.1, p.2, 0⟩ := by
    intro a w
    have h1 := sin_sq_add_cos_sq e.strikeAngle
    ext <;> simp [unturn, station, strikeDir, downDip, cos_turn, sin_turn] <;> grind
  have hpos : ∀ w ∈ Set.uIcc e.fault.aw1 e.fault.aw2, ∀ a : ℝ,
      0 < ((⟨a, w * cos (e.dip * pl8), w * -sin (e.dip * pl8)⟩ : V3 ℝ) - ⟨(e.station p).X, (e.station p).Y, 0⟩).len -
        ((⟨a, w * cos (e.dip * pl8), w * -sin (e.dip * pl8)⟩ : V3 ℝ) - ⟨(e.station p).X, (e.station p).Y, 0⟩).z := by
    intro w hw a
    have hz : w * -sin (e.dip * pl8) ≤ 0 := by
      rw [Set.mem_uIcc] at hw
      rcases lt_or_gt_of_ne hs' with h | h
      · rcases hw with t | t <;> nlinarith [t.1, t.2]
      · rcases hw with t | t <;> nlinarith [t.1, t.2]
    rcases hz.lt_or_eq with h | h
    · have := V3.len_nonneg ((⟨a, w * cos (e.dip * pl8), w * -sin (e.dip * pl8)⟩ : V3 ℝ) - ⟨(e.station p).X, (e.station p).Y, 0⟩)
      simp only [V3.sub_z, sub_zero]
      linarith
    · have hw0 : w = 0 := by
        rcases mul_eq_zero.1 h with h | h
        · exact h
        · exact absurd h hs'
      have hne : (⟨a, w * cos (e.dip * pl8), w * -sin (e.dip * pl8)⟩ : V3 ℝ) - ⟨(e.station p).X, (e.station p).Y, 0⟩ ≠ 0 := by
        intro h0
        have := congrArg V3.y h0
        simp [hw0] at this
        rcases hY with hY | ⟨h1, h2, -⟩
        · exact hY this
        · rw [hw0, Set.mem_uIcc] at hw
          rcases lt_or_gt_of_ne hs' with h | h
          · rcases hw with t | t <;> nlinarith [t.1, t.2]
          · rcases hw with t | t <;> nlinarith [t.1, t.2]
      have hpos := V3.len_pos hne
      have hz0 : ((⟨a, w * cos (e.dip * pl8), w * -sin (e.dip * pl8)⟩ : V3 ℝ) - ⟨(e.station p).X, (e.station p).Y, 0⟩).z = 0 := by
        simp only [V3.sub_z, sub_zero, h]
      rw [hz0, sub_zero]
      exact hpos
  have key : ∀ v : V3 ℝ, v.dot (volterra e.fault e.beta e.mu (e.station p)) =
      ∫ w in e.fault.aw1..e.fault.aw2, ∫ a in e.fault.al1..e.fault.al2, v.dot (dislocation e.beta e.mu
        ⟨e.fault.disl1, e.fault.disl2 * cos (e.dip * pl8), e.fault.disl2 * -sin (e.dip * pl8)⟩ ⟨0, - -sin (e.dip * pl8), cos (e.dip * pl8)⟩
        ((⟨a, w * cos (e.dip * pl8), w * -sin (e.dip * pl8)⟩ : V3 ℝ) - ⟨(e.station p).X, (e.station p).Y, 0⟩)) := by
    intro v
    rw [volterra, dipConstants_fault hc, ← Corner.four_corners_dot v hsc hmu hY hs' hw1 hw2]
    simp only
    rw [← Corner.four_corners hsc hmu hY hs' hw1 hw2]
  have comp : ∀ (v : V3 ℝ) (g : V3 ℝ → ℝ), (∀ d, v.dot d = g (unturn (cos e.turnAngle) (sin e.turnAngle) d)) →
      g (unturn (cos e.turnAngle) (sin e.turnAngle) (volterra e.fault e.beta e.mu (e.station p))) =
      ∫ w in e.depthTop / sin (e.dip * pl8)..e.depthBottom / sin (e.dip * pl8), ∫ a in -(e.length / 2)..e.length / 2,
        g (dislocation e.beta e.mu (slipVector e.strikeAngle (e.dip * pl8) e.rakeAngle e.slip) (faultNormal e.strikeAngle (e.dip * pl8))
          ((⟨e.centerX, e.centerY, 0⟩ + a • strikeDir e.strikeAngle + w • downDip e.strikeAngle (e.dip * pl8)) - ⟨p.1, p.2, 0⟩)) := by
    intro v g hg
    rw [← hg, key]
    refine intervalIntegral.integral_congr fun w hw => ?_
    simp only [hg, ← dislocation_unturn hcs _ _ (hpos w hw _), hb, hn, hp]
    have := intervalIntegral.integral_comp_neg (a := -(e.length / 2)) (b := e.length / 2) fun a =>
      g (dislocation e.beta e.mu (slipVector e.strikeAngle (e.dip * pl8) e.rakeAngle e.slip) (faultNormal e.strikeAngle (e.dip * pl8))
        ((⟨e.centerX, e.centerY, 0⟩ + a • strikeDir e.strikeAngle + w • downDip e.strikeAngle (e.dip * pl8)) - ⟨p.1, p.2, 0⟩))
    rw [neg_neg] at this
    exact this
  ext
  · exact comp ⟨cos e.turnAngle, sin e.turnAngle, 0⟩ V3.x fun d => by simp [V3.dot, unturn]
  · exact comp ⟨-sin e.turnAngle, cos e.turnAngle, 0⟩ V3.y fun d => by simp [V3.dot, unturn]
  · exact comp ⟨0, 0, 1⟩ V3.z fun d => by simp [V3.dot, unturn]

/-- The displacement at a point of the grid by the specification. -/
noncomputable def expected (e : Event) (p : ℝ × ℝ) : V3 ℝ :=
  eventDisplacement e.beta e.mu e.strikeAngle (e.dip * pl8) e.rakeAngle e.slip e.length e.depthTop e.depthBottom
    ⟨e.centerX, e.centerY, 0⟩ ⟨p.1, p.2, 0⟩

/-- A fault below the surface that is neither horizontal nor rounded to a vertical one, with a slip, in an elastic medium, seen from
points that are resolved. -/
structure Regular (e : Event) (grid : List (ℝ × ℝ)) : Prop where
  mu : e.mu ≠ 0
  medium : e.beta + 2 * e.mu ≠ 0
  notVertical : eps ≤ |cos (e.dip * pl8)|
  notHorizontal : sin (e.dip * pl8) ≠ 0
  top : 0 ≤ e.depthTop
  bottom : 0 ≤ e.depthBottom
  slip : e.slip ≠ 0
  resolved : Resolved e.fault (grid.map e.station)

variable {grid : List (ℝ × ℝ)}

theorem Regular.buried (h : Regular e grid) : Buried e.fault := by
  have hs := h.notHorizontal
  rw [Buried, dipConstants_fault h.notVertical]
  have e1 : e.fault.aw1 * -sin (e.dip * pl8) = -e.depthTop := by simp only [fault]; field_simp
  have e2 : e.fault.aw2 * -sin (e.dip * pl8) = -e.depthBottom := by simp only [fault]; field_simp
  exact ⟨by simp only [e1]; linarith [h.top], by simp only [e2]; linarith [h.bottom]⟩

theorem Regular.slips (h : Regular e grid) : e.fault.disl1 ≠ 0 ∨ e.fault.disl2 ≠ 0 := by
  by_contra hh
  push Not at hh
  simp only [fault, neg_mul, neg_eq_zero, mul_eq_zero, h.slip, false_or] at hh
  have := sin_sq_add_cos_sq ((e.rake + 90) * pl8)
  rw [hh.1, hh.2] at this
  norm_num at this

theorem Regular.off_trace (h : Regular e grid) {p : ℝ × ℝ} (hp : p ∈ grid) :
    Corner.OffOrClear (-sin (e.dip * pl8)) e.fault.al1 e.fault.al2 e.fault.aw1 e.fault.aw2 (e.station p).X (e.station p).Y := by
  obtain ⟨M, hM, hall⟩ := h.resolved
  have heps := eps_pos
  rcases (hall _ (List.mem_map_of_mem hp)).1 with g | ⟨-, g⟩
  · left
    intro h0
    rw [h0, zero_mul, abs_zero] at g
    nlinarith
  · rw [dipConstants_fault h.notVertical] at g
    exact .inr g

/-- **C96, what holds of the computation**: for one or three points, the array that `_dc3d3` returns has one column for each of them (the
only point three times), and turning the axes of each column back gives the displacement that the strike, dip, rake, slip, length and
depths stand for. -/
theorem columns_partial (h : Regular e grid) (hl : grid.length = 1 ∨ grid.length = 3) :
    ∃ vs : List (V3 ℝ), dc3d3 e.fault (grid.map e.station) = .ok (asColumns vs) ∧
      vs.map (fun v => e.combine v.x v.y v.z) = (if grid.length = 1 then grid ++ grid ++ grid else grid).map e.expected := by
  have hrun := displacement_is_volterra (f := e.fault) (st := grid.map e.station) h.mu h.medium rfl (by simpa using hl) h.slips h.resolved h.buried
  refine ⟨_, hrun, ?_⟩
  have hc : columnStations (grid.map e.station) = (if grid.length = 1 then grid ++ grid ++ grid else grid).map e.station := by
    simp only [columnStations, List.length_map]
    split_ifs <;> simp
  rw [hc, List.map_map, List.map_map]
  refine List.map_congr_left fun p hp => ?_
  have hp' : p ∈ grid := by
    split_ifs at hp
    · simpa using hp
    · exact hp
  exact combine_volterra h.mu h.notVertical h.notHorizontal h.top h.bottom p (h.off_trace hp')

/-- The last step reads rows for columns: row `i` of the result combines component `i` of the three displacements. -/
theorem three_points {p q r : ℝ × ℝ} (h : Regular e [p, q, r]) :
    let v := fun p => volterra e.fault e.beta e.mu (e.station p)
    e.displacementOn [p, q, r] = .ok (.rows ⟨e.combine (v p).x (v q).x (v r).x, e.combine (v p).y (v q).y (v r).y,
      e.combine (v p).z (v q).z (v r).z⟩) := by
  have hrun := displacement_is_volterra (f := e.fault) (st := [p, q, r].map e.station) h.mu h.medium rfl (by simp) h.slips h.resolved h.buried
  simp only [displacementOn, hrun, bind, Except.bind]
  simp [columnStations, asColumns, stack, combineRow, bind, Except.bind]

theorem combine_injective {a b c a' b' c' : ℝ} (h : e.combine a b c = e.combine a' b' c') : a = a' ∧ b = b' ∧ c = c' := by
  simp only [combine, V3.mk.injEq] at h
  obtain ⟨h1, h2, h3⟩ := h
  have := cos_sq_add_sin_sq e.turnAngle
  generalize cos e.turnAngle = c at *
  generalize sin e.turnAngle = s at *
  refine ⟨?_, ?_, h3⟩
  · linear_combination c * h1 - s * h2 - (a - a') * this
  · linear_combination s * h1 + c * h2 - (b - b') * this

/-- The rows are the displacements of the three points only where the three-by-three array happens to be symmetric. -/
theorem three_points_right_iff {p q r : ℝ × ℝ} (h : Regular e [p, q, r]) :
    let v := fun p => volterra e.fault e.beta e.mu (e.station p)
    e.displacementOn [p, q, r] = .ok (.rows ⟨e.expected p, e.expected q, e.expected r⟩) ↔
      (v q).x = (v p).y ∧ (v r).x = (v p).z ∧ (v r).y = (v q).z := by
  intro v
  rw [three_points h]
  have hv : ∀ t ∈ [p, q, r], e.expected t = e.combine (v t).x (v t).y (v t).z := fun t ht =>
    (combine_volterra h.mu h.notVertical h.notHorizontal h.top h.bottom t (h.off_trace ht)).symm
  rw [hv p (by simp), hv q (by simp), hv r (by simp)]
  simp only [Except.ok.injEq, Stacked.rows.injEq, V3.mk.injEq]
  constructor
  · rintro ⟨h1, h2, h3⟩
    exact ⟨(combine_injective h1).2.1, (combine_injective h1).2.2, (combine_injective h2).2.2⟩
  · rintro ⟨h1, h2, h3⟩
    exact ⟨by rw [h1, h2], by rw [← h1, h3], by rw [← h2, ← h3]⟩

/-- One point gives three rows instead of one. -/
theorem one_point {p : ℝ × ℝ} (h : Regular e [p]) :
    let v := volterra e.fault e.beta e.mu (e.station p)
    e.displacementOn [p] = .ok (.rows ⟨e.combine v.x v.x v.x, e.combine v.y v.y v.y, e.combine v.z v.z v.z⟩) := by
  have hrun := displacement_is_volterra (f := e.fault) (st := [p].map e.station) h.mu h.medium rfl (by simp) h.slips h.resolved h.buried
  simp only [displacementOn, hrun, bind, Except.bind]
  simp [columnStations, asColumns, stack, combineRow, bind, Except.bind]

/-- **C96.** Without slip nothing moves: if a result is returned, it is a single zero vector, whatever the number of points. -/
theorem no_slip_no_displacement (h : e.slip = 0) {u : Stacked} (hu : e.displacementOn grid = .ok u) : u = .vector 0 := by
  simp only [displacementOn] at hu
  cases hd : dc3d3 e.fault (grid.map e.station) with
  | error x => simp [hd, bind, Except.bind] at hu
  | ok v =>
    have := no_slip (by simp [fault, h]) (by simp [fault, h]) hd
    subst this
    simp only [hd, bind, Except.bind, stack, Except.ok.injEq] at hu
    rw [← hu]
    congr 1
    ext <;> simp [combine]

/-- Any other number of points raises. -/
theorem other_numbers_raise (h1 : grid.length ≠ 1) (h3 : grid.length ≠ 3) (hslip : e.slip ≠ 0) : ∃ x, e.displacementOn grid = .error x := by
  have hs : e.fault.disl1 ≠ 0 ∨ e.fault.disl2 ≠ 0 := by
    by_contra hh
    push Not at hh
    simp only [fault, neg_mul, neg_eq_zero, mul_eq_zero, hslip, false_or] at hh
    have := sin_sq_add_cos_sq ((e.rake + 90) * pl8)
    rw [hh.1, hh.2] at this
    norm_num at this
  obtain ⟨x, hx⟩ := raises_unless_one_or_three (f := e.fault) (st := grid.map e.station) (by simpa using h1) (by simpa using h3) hs
  exact ⟨x, by simp only [displacementOn, hx, bind, Except.bind]⟩

/-- A thrust fault striking west that dips by 45 degrees to the north, from the surface to the depth 1, seen from one and from three
points. -/
example : ∃ e : Event, Regular e [(5, 10)] ∧ Regular e [(5, 10), (6, 10), (7, 11)] := by
  let e : Event := ⟨0, 0, -90, 45, 90, 1, 2, 0, 1, 1, 1⟩
  have hx : (45 : ℝ) * pl8 = 785398163397435 / 10 ^ 15 := by rw [pl8]; norm_num
  have hs1 : 1 / 2 ≤ sin ((45 : ℝ) * pl8) := by
    have := sin_gt_sub_cube (x := 45 * pl8) (by rw [hx]; norm_num)
    rw [hx] at this ⊢
    norm_num at this ⊢
    linarith
  have hs2 := sin_le_one ((45 : ℝ) * pl8)
  have hc1 : 1 / 2 ≤ cos ((45 : ℝ) * pl8) := by
    have := one_sub_sq_div_two_le_cos (x := 45 * pl8)
    rw [hx] at this ⊢
    norm_num at this ⊢
    linarith
  have hc2 := cos_le_one ((45 : ℝ) * pl8)
  have hn : eps ≤ |cos (e.dip * pl8)| := by
    rw [show e.dip = 45 from rfl, abs_of_nonneg (by linarith), eps]
    norm_num
    linarith
  have ht : e.turnAngle = 0 := by simp [turnAngle, e]
  have hst : ∀ x y, e.station (x, y) = ⟨x, y⟩ := by
    intro x y
    simp [station, ht, e]
  have ha2 : 1 ≤ 1 / sin ((45 : ℝ) * pl8) ∧ 1 / sin ((45 : ℝ) * pl8) ≤ 2 := by
    constructor
    · rw [le_div_iff₀ (by linarith)]; linarith
    · rw [div_le_iff₀ (by linarith)]; linarith
  have f1 : e.fault.al1 = -1 := by simp [fault, e]
  have f2 : e.fault.al2 = 1 := by simp [fault, e]
  have f3 : e.fault.aw1 = 0 := by simp [fault, e]
  have f4 : e.fault.aw2 = 1 / sin ((45 : ℝ) * pl8) := by simp [fault, e]
  have hres : ∀ x y : ℝ, 5 ≤ x → x ≤ 7 → 10 ≤ y → y ≤ 11 →
      eps * 20 ≤ |y * -sin (45 * pl8)| ∧ |y * -sin (45 * pl8)| ≤ 20 ∧
      ∀ v ∈ [x - -1, x - 1, y * cos (45 * pl8) - 0, y * cos (45 * pl8) - 1 / sin (45 * pl8)], |v| ≤ 20 ∧ (v = 0 ∨ eps * 20 ≤ |v|) := by
    intro x y h1 h2 h3 h4
    obtain ⟨g1, g2⟩ := ha2
    generalize 1 / sin (45 * pl8) = t at *
    generalize sin (45 * pl8) = S at *
    generalize cos (45 * pl8) = C at *
    have b1 : 5 ≤ y * S := by nlinarith
    have b2 : y * S ≤ 11 := by nlinarith
    have b3 : 5 ≤ y * C := by nlinarith
    have b4 : y * C ≤ 11 := by nlinarith
    have he : eps * 20 ≤ 1 := by rw [eps]; norm_num
    refine ⟨?_, ?_, ?_⟩
    · rw [mul_neg, abs_neg, abs_of_nonneg (by linarith)]
      linarith
    · rw [mul_neg, abs_neg, abs_of_nonneg (by linarith)]
      linarith
    · intro v hv
      simp only [List.mem_cons, List.not_mem_nil, or_false] at hv
      have hv' : 1 ≤ v ∧ v ≤ 20 := by
        rcases hv with rfl | rfl | rfl | rfl <;> constructor <;> linarith
      rw [abs_of_nonneg (by linarith)]
      exact ⟨hv'.2, .inr (by linarith)⟩
  have reg : ∀ g : List (ℝ × ℝ), (∀ p ∈ g, 5 ≤ p.1 ∧ p.1 ≤ 7 ∧ 10 ≤ p.2 ∧ p.2 ≤ 11) → Regular e g := by
    intro g hg
    refine ⟨one_ne_zero, by simp only [e]; norm_num, hn, ?_, le_refl _, zero_le_one, one_ne_zero, 20, by norm_num, ?_⟩
    · rw [show e.dip = 45 from rfl]; linarith
    · intro s hs
      obtain ⟨p, hp, rfl⟩ := List.mem_map.1 hs
      obtain ⟨h1, h2, h3, h4⟩ := hg p hp
      rw [dipConstants_fault hn, f1, f2, f3, f4, show e.station p = ⟨p.1, p.2⟩ from hst p.1 p.2]
      exact ⟨.inl (hres p.1 p.2 h1 h2 h3 h4).1, (hres p.1 p.2 h1 h2 h3 h4).2⟩
  refine ⟨e, reg _ ?_, reg _ ?_⟩
  · simp; norm_num
  · simp; norm_num

end Event

end Verif.Okada
