import Verif.Model.RoundedPrism
import Verif.Props.RoundingLimits
import Verif.Props.FarField

/-! # C116: the gravity of a prism far away is lost in rounding errors -/

namespace Verif.Rounded

open Prism Filter Topology

theorem prism_exact_operations (s : Prism.GravPrism) (xyz : V3 ℝ) :
    GravPrism.gravitationalPotential ArithLog.exact s xyz = s.gravitationalPotential xyz ∧
    GravPrism.gravitationalField ArithLog.exact s xyz = s.gravitationalField xyz ∧
    GravPrism.gravitationalGradient ArithLog.exact s xyz = s.gravitationalGradient xyz := ⟨rfl, rfl, rfl⟩

open Classical in
/-- The arctangent of one number comes out a little too large, everything else is exact. -/
noncomputable def highArctan {u : ℝ} (hu : 0 ≤ u) (a : ℝ) : ArithLog u :=
  { exactly hu with
    log := Real.log
    arctan := fun x => if x = a then Real.arctan x * (1 + u) else Real.arctan x
    log_err := fun _ => by rw [sub_self, abs_zero]; positivity
    arctan_err := fun _ => by
      split_ifs
      · exact up_err hu
      · rw [sub_self, abs_zero]; positivity }

/-- A box with a corner at the origin and edges of length one. -/
def unitBox : GravPrism := ⟨⟨⟨0, 0, 0⟩, ⟨1, 1, 1⟩⟩, 1⟩

/-- The argument of the arctangents. -/
noncomputable def slope (x y z : ℝ) : ℝ := x * y / (z * √(x * x + y * y + z * z))

open Classical in
/-- What the arctangent of `q` is off by. -/
noncomputable def bump (u a q : ℝ) : ℝ := if q = a then u * Real.arctan a else 0

section

variable {u : ℝ} (hu : 0 ≤ u) (a : ℝ)

theorem highArctan_arctan (q : ℝ) : (highArctan hu a).arctan q = Real.arctan q + bump u a q := by
  show (if q = a then Real.arctan q * (1 + u) else Real.arctan q) = _
  unfold bump
  split_ifs with h
  · rw [h]; ring
  · ring

theorem prismFzz_bump {x y z : ℝ} (hz : z ≠ 0) : prismFzz (highArctan hu a) x y z = Py.prismFzz x y z + bump u a (slope x y z) := by
  have : prismFzz (highArctan hu a) x y z = if z ≠ 0 then (highArctan hu a).arctan (slope x y z) else 0 := rfl
  rw [this, if_pos hz, highArctan_arctan]
  simp only [Py.prismFzz, if_pos hz]
  rfl

theorem prismFz_bump {x y z : ℝ} (hz : z ≠ 0) : prismFz (highArctan hu a) x y z = Py.prismFz x y z - z * bump u a (slope x y z) := by
  have : prismFz (highArctan hu a) x y z = (let out := 0
    let r := √(x * x + y * y + z * z)
    let temp := y + r
    let out := if x ≠ 0 ∧ temp > 0 then out + x * Real.log temp else out
    let temp := x + r
    let out := if y ≠ 0 ∧ temp > 0 then out + y * Real.log temp else out
    let out := if z ≠ 0 then out - z * (highArctan hu a).arctan (slope x y z) else out
    out) := rfl
  rw [this]
  simp only [Py.prismFz, if_pos hz, highArctan_arctan]
  unfold slope
  ring

theorem prismF_bump {x y z : ℝ} (hx : x ≠ 0) (hy : y ≠ 0) (hz : z ≠ 0) : prismF (highArctan hu a) x y z = Py.prismF x y z +
    (1 / 2 * x * x * bump u a (slope y z x) + 1 / 2 * y * y * bump u a (slope x z y) + 1 / 2 * z * z * bump u a (slope x y z)) := by
  have : prismF (highArctan hu a) x y z = (let r := √(x * x + y * y + z * z)
    let out := 0
    let temp := z + r
    let out := if x ≠ 0 ∧ y ≠ 0 ∧ temp > 0 then out - x * y * Real.log temp else out
    let temp := x + r
    let out := if y ≠ 0 ∧ z ≠ 0 ∧ temp > 0 then out - y * z * Real.log temp else out
    let temp := y + r
    let out := if x ≠ 0 ∧ z ≠ 0 ∧ temp > 0 then out - x * z * Real.log temp else out
    let out := if x ≠ 0 then out + 0.5 * x * x * (highArctan hu a).arctan (y * z / (x * r)) else out
    let out := if y ≠ 0 then out + 0.5 * y * y * (highArctan hu a).arctan (x * z / (y * r)) else out
    let out := if z ≠ 0 then out + 0.5 * z * z * (highArctan hu a).arctan (x * y / (z * r)) else out
    out) := rfl
  rw [this]
  simp only [Py.prismF, if_pos hx, if_pos hy, if_pos hz, highArctan_arctan]
  have e1 : slope y z x = y * z / (x * √(x * x + y * y + z * z)) := by
    unfold slope
    rw [show y * y + z * z + x * x = x * x + y * y + z * z by ring]
  have e2 : slope x z y = x * z / (y * √(x * x + y * y + z * z)) := by
    unfold slope
    rw [show x * x + z * z + y * y = x * x + y * y + z * z by ring]
  rw [e1, e2, show slope x y z = x * y / (z * √(x * x + y * y + z * z)) from rfl, show (0.5 : ℝ) = 1 / 2 by norm_num]
  ring

end

/-! ## Which node has the largest argument -/

theorem no_tie {A B X Y Z : ℝ} (hB : 0 < B) (h : B < A) (hX : X = A ∨ X = B) (hY : Y = A ∨ Y = B) (hZ : Z = A ∨ Z = B)
    (e : X * Y * (B * (2 * A + B)) = A * A * (Z * (X + Y + Z))) : X = A ∧ Y = A ∧ Z = B := by
  obtain ⟨d, hd, rfl⟩ : ∃ d, 0 < d ∧ A = B + d := ⟨A - B, by linarith, by ring⟩
  have key : ∀ {p q : ℝ}, p = q → 0 < q - p → False := fun e h => by rw [e, sub_self] at h; exact lt_irrefl _ h
  rcases hX with rfl | rfl <;> rcases hY with rfl | rfl <;> rcases hZ with rfl | rfl
  · exact (key e (by ring_nf; positivity)).elim
  · exact ⟨rfl, rfl, rfl⟩
  · exact (key e (by ring_nf; positivity)).elim
  · exact (key e (by ring_nf; positivity)).elim
  · exact (key e (by ring_nf; positivity)).elim
  · exact (key e (by ring_nf; positivity)).elim
  · exact (key e (by ring_nf; positivity)).elim
  · exact (key e (by ring_nf; positivity)).elim

/-- A coordinate of a node of the box, seen from `(t, t, t)`. -/
def Node (t x : ℝ) : Prop := x = 0 - t ∨ x = 1 - t

theorem slope_sq (x y z : ℝ) : slope x y z ^ 2 = x ^ 2 * y ^ 2 / (z ^ 2 * (x ^ 2 + y ^ 2 + z ^ 2)) := by
  have h : 0 ≤ x * x + y * y + z * z := by nlinarith [mul_self_nonneg x, mul_self_nonneg y, mul_self_nonneg z]
  rw [slope, div_pow, mul_pow, mul_pow, Real.sq_sqrt h]
  ring_nf

theorem slope_unique {t x y z : ℝ} (ht : 1 < t) (hx : Node t x) (hy : Node t y) (hz : Node t z)
    (e : slope x y z = slope (0 - t) (0 - t) (1 - t)) : x = 0 - t ∧ y = 0 - t ∧ z = 1 - t := by
  have ne : ∀ {x}, Node t x → x ≠ 0 := fun h => by
    rcases h with rfl | rfl
    · linarith
    · linarith
  have sq : ∀ {x}, Node t x → x ^ 2 = t ^ 2 ∨ x ^ 2 = (t - 1) ^ 2 := fun h => by
    rcases h with rfl | rfl
    · left; ring
    · right; ring
  have back : ∀ {x}, Node t x → x ^ 2 = t ^ 2 → x = 0 - t := fun h h2 => by
    rcases h with rfl | rfl
    · rfl
    · nlinarith
  have back' : ∀ {x}, Node t x → x ^ 2 = (t - 1) ^ 2 → x = 1 - t := fun h h2 => by
    rcases h with rfl | rfl
    · nlinarith
    · rfl
  have h2 : slope x y z ^ 2 = slope (0 - t) (0 - t) (1 - t) ^ 2 := by rw [e]
  rw [slope_sq, slope_sq] at h2
  have hz2 : 0 < z ^ 2 := by have := ne hz; positivity
  have hb : 0 < (t - 1) ^ 2 := by have : t - 1 ≠ 0 := by linarith
                                  positivity
  have ht2 : 0 < t ^ 2 := by positivity
  rw [div_eq_div_iff (by positivity) (by rw [show (1 - t) ^ 2 = (t - 1) ^ 2 by ring]; positivity)] at h2
  obtain ⟨h3, h4, h5⟩ := no_tie (A := t ^ 2) (B := (t - 1) ^ 2) hb (by nlinarith) (sq hx) (sq hy) (sq hz) (by linear_combination h2)
  exact ⟨back hx h3, back hy h4, back' hz h5⟩

theorem slope_le {t : ℝ} (ht : 1 < t) : slope (0 - t) (0 - t) (1 - t) ≤ -(1 / 2) := by
  have h2 := slope_sq (0 - t) (0 - t) (1 - t)
  have hneg : slope (0 - t) (0 - t) (1 - t) ≤ 0 := by
    rw [slope]
    exact div_nonpos_of_nonneg_of_nonpos (by nlinarith) (mul_nonpos_of_nonpos_of_nonneg (by linarith) (Real.sqrt_nonneg _))
  have hb : 0 < (1 - t) ^ 2 := by have : 1 - t ≠ 0 := by linarith
                                  positivity
  have hq : (1 : ℝ) / 4 ≤ slope (0 - t) (0 - t) (1 - t) ^ 2 := by
    rw [h2, le_div_iff₀ (by positivity)]
    have h3 : (1 - t) ^ 2 ≤ t ^ 2 := by nlinarith
    nlinarith [mul_le_mul h3 h3 hb.le (sq_nonneg t), mul_le_mul_of_nonneg_left h3 (sq_nonneg t)]
  nlinarith

theorem bump_self (u a : ℝ) : bump u a a = u * Real.arctan a := by rw [bump, if_pos rfl]

theorem bump_ne {u a q : ℝ} (h : q ≠ a) : bump u a q = 0 := by rw [bump, if_neg h]

section

variable {u t : ℝ} (hu : 0 ≤ u) (ht : 1 < t)

/-- The arctangent of the steepest node is off. -/
noncomputable def offSteep (t : ℝ) : ArithLog u := highArctan hu (slope (0 - t) (0 - t) (1 - t))

include ht

theorem node_ne {x : ℝ} (h : Node t x) : x ≠ 0 := by
  rcases h with rfl | rfl
  · linarith
  · linarith

open Classical in
theorem bump_at {x y z : ℝ} (hx : Node t x) (hy : Node t y) (hz : Node t z) :
    bump u (slope (0 - t) (0 - t) (1 - t)) (slope x y z) =
      if x = 0 - t ∧ y = 0 - t ∧ z = 1 - t then u * Real.arctan (slope (0 - t) (0 - t) (1 - t)) else 0 := by
  split_ifs with h
  · obtain ⟨rfl, rfl, rfl⟩ := h
    exact bump_self _ _
  · exact bump_ne fun e => h (slope_unique ht hx hy hz e)

theorem gradient_off : (GravPrism.gravitationalGradient (offSteep hu t) unitBox ⟨t, t, t⟩).z.z =
    (unitBox.gravitationalGradient ⟨t, t, t⟩).z.z - Gravity.G * (u * Real.arctan (slope (0 - t) (0 - t) (1 - t))) := by
  have m : Node t (0 - t) := .inl rfl
  have M : Node t (1 - t) := .inr rfl
  have hne : ¬ (1 - t : ℝ) = 0 - t := by linarith
  have hne' : ¬ (0 - t : ℝ) = 1 - t := by linarith
  have e : (GravPrism.gravitationalGradient (offSteep hu t) unitBox ⟨t, t, t⟩).z.z =
      -Gravity.G * 1 * unitBox.box.evalDefInt (prismFzz (offSteep hu t)) ⟨t, t, t⟩ 0 := rfl
  have e' : (unitBox.gravitationalGradient ⟨t, t, t⟩).z.z = -Gravity.G * 1 * unitBox.box.evalDefInt Py.prismFzz ⟨t, t, t⟩ 0 := rfl
  rw [e, e']
  simp only [Box.evalDefInt, unitBox, cycleN, offSteep, prismFzz_bump hu _ (node_ne ht m), prismFzz_bump hu _ (node_ne ht M),
    bump_at ht m m m, bump_at ht m m M, bump_at ht m M m, bump_at ht m M M, bump_at ht M m m, bump_at ht M m M, bump_at ht M M m, bump_at ht M M M,
    hne, hne', and_true, and_false, if_true, if_false]
  ring

theorem field_off : (GravPrism.gravitationalField (offSteep hu t) unitBox ⟨t, t, t⟩).z =
    (unitBox.gravitationalField ⟨t, t, t⟩).z - Gravity.G * ((t - 1) * (u * Real.arctan (slope (0 - t) (0 - t) (1 - t)))) := by
  have m : Node t (0 - t) := .inl rfl
  have M : Node t (1 - t) := .inr rfl
  have hne : ¬ (1 - t : ℝ) = 0 - t := by linarith
  have hne' : ¬ (0 - t : ℝ) = 1 - t := by linarith
  have e : (GravPrism.gravitationalField (offSteep hu t) unitBox ⟨t, t, t⟩).z =
      -Gravity.G * 1 * unitBox.box.evalDefInt (prismFz (offSteep hu t)) ⟨t, t, t⟩ 0 := rfl
  have e' : (unitBox.gravitationalField ⟨t, t, t⟩).z = -Gravity.G * 1 * unitBox.box.evalDefInt Py.prismFz ⟨t, t, t⟩ 0 := rfl
  rw [e, e']
  simp only [Box.evalDefInt, unitBox, cycleN, offSteep, prismFz_bump hu _ (node_ne ht m), prismFz_bump hu _ (node_ne ht M),
    bump_at ht m m m, bump_at ht m m M, bump_at ht m M m, bump_at ht m M M, bump_at ht M m m, bump_at ht M m M, bump_at ht M M m, bump_at ht M M M,
    hne, hne', and_true, and_false, if_true, if_false]
  ring

theorem potential_off : GravPrism.gravitationalPotential (offSteep hu t) unitBox ⟨t, t, t⟩ =
    unitBox.gravitationalPotential ⟨t, t, t⟩ - Gravity.G * (3 / 2 * (t - 1) ^ 2 * (u * Real.arctan (slope (0 - t) (0 - t) (1 - t)))) := by
  have m : Node t (0 - t) := .inl rfl
  have M : Node t (1 - t) := .inr rfl
  have hne : ¬ (1 - t : ℝ) = 0 - t := by linarith
  have hne' : ¬ (0 - t : ℝ) = 1 - t := by linarith
  have nm := node_ne ht m
  have nM := node_ne ht M
  have e : GravPrism.gravitationalPotential (offSteep hu t) unitBox ⟨t, t, t⟩ =
      -Gravity.G * 1 * unitBox.box.evalDefInt (prismF (offSteep hu t)) ⟨t, t, t⟩ 0 := rfl
  have e' : unitBox.gravitationalPotential ⟨t, t, t⟩ = -Gravity.G * 1 * unitBox.box.evalDefInt Py.prismF ⟨t, t, t⟩ 0 := rfl
  rw [e, e']
  simp only [Box.evalDefInt, unitBox, cycleN, offSteep, prismF_bump hu _ nm nm nm, prismF_bump hu _ nm nm nM, prismF_bump hu _ nm nM nm,
    prismF_bump hu _ nm nM nM, prismF_bump hu _ nM nm nm, prismF_bump hu _ nM nm nM, prismF_bump hu _ nM nM nm, prismF_bump hu _ nM nM nM,
    bump_at ht m m m, bump_at ht m m M, bump_at ht m M m, bump_at ht m M M, bump_at ht M m m, bump_at ht M m M, bump_at ht M M m, bump_at ht M M M,
    hne, hne', and_true, and_false, if_true, if_false]
  ring

end

/-! ## How small the exact values are -/

theorem unitBox_far {t : ℝ} (ht : 2 ≤ t) : unitBox.box.halfDiagonal = √3 / 2 ∧ (⟨t, t, t⟩ - unitBox.box.location : V3 ℝ).len = √3 * (t - 1 / 2) := by
  constructor
  · simp only [Box.halfDiagonal, V3.len, unitBox]
    norm_num
  · have h : (⟨t, t, t⟩ - unitBox.box.location : V3 ℝ) = (t - 1 / 2) • ⟨1, 1, 1⟩ := by
      ext <;> simp [unitBox, Box.location] <;> norm_num
    rw [h, V3.len_smul, abs_of_pos (by linarith), V3.len]
    norm_num
    ring

theorem inv_pow_le {w : ℝ} (hw : 1 ≤ w) (n : ℕ) : 1 / w ^ (n + 1) ≤ 1 / w := by
  refine one_div_le_one_div_of_le (by linarith) ?_
  rw [pow_succ]
  exact le_mul_of_one_le_left (by linarith) (one_le_pow₀ hw)

theorem entry_small {g l w e a b : ℝ} (hg : 0 < g) (hl : 0 < l) (hw : 1 / l ^ 3 ≤ 1 / w) (he : |e| ≤ 1) (ha : |a| ≤ 1) (hb : |b| ≤ 1) :
    |-g * 1 * (e - 3 * a * b) / l ^ 3| ≤ 4 * (g * (1 / w)) := by
  have hab : |a * b| ≤ 1 := by rw [abs_mul]; exact mul_le_one₀ ha (abs_nonneg _) hb
  have hx : |e - 3 * a * b| ≤ 4 := by
    rw [mul_assoc]
    rw [abs_le] at he hab ⊢
    constructor <;> linarith
  rw [abs_div, abs_mul, mul_one, abs_neg, abs_of_pos hg, abs_of_pos (show 0 < l ^ 3 by positivity), div_eq_mul_one_div]
  calc g * |e - 3 * a * b| * (1 / l ^ 3) ≤ g * 4 * (1 / w) := mul_le_mul (by gcongr) hw (by positivity) (by positivity)
    _ = _ := by ring

theorem exact_small {t : ℝ} (ht : 2 ≤ t) :
    |unitBox.gravitationalPotential ⟨t, t, t⟩| ≤ Gravity.G * (28 / (t - 1)) ∧
    |(unitBox.gravitationalField ⟨t, t, t⟩).z| ≤ Gravity.G * (28 / (t - 1)) ∧
    Within (Gravity.G * (28 / (t - 1))) (unitBox.gravitationalGradient ⟨t, t, t⟩) (⟨⟨0, 0, 0⟩, ⟨0, 0, 0⟩, ⟨0, 0, 0⟩⟩ : M3 ℝ) := by
  obtain ⟨e1, e2⟩ := unitBox_far ht
  have hG := G_pos
  have h3 := Real.sq_sqrt (show (0 : ℝ) ≤ 3 by norm_num)
  have h30 := Real.sqrt_nonneg 3
  have h31 : 1 ≤ √3 := by nlinarith
  have h32 : √3 ≤ 2 := by nlinarith
  have hprop : unitBox.box.Proper := ⟨by norm_num [unitBox], by norm_num [unitBox], by norm_num [unitBox]⟩
  have hmass : unitBox.mass = 1 := by norm_num [unitBox, GravPrism.mass, Box.volume]
  have hout : unitBox.box.halfDiagonal < ((⟨t, t, t⟩ : V3 ℝ) - unitBox.box.location).len := by rw [e1, e2]; nlinarith
  have p1 := gravPrism_potential_far unitBox hprop ⟨t, t, t⟩ hout
  have p2 := (gravPrism_field_far unitBox hprop ⟨t, t, t⟩ hout).2.2
  have p3 := gravPrism_gradient_far unitBox hprop ⟨t, t, t⟩ hout
  set w := t - 1 with hw
  have hw1 : 1 ≤ w := by linarith
  have hd : √3 * (t - 1 / 2) - √3 / 2 = √3 * w := by rw [hw]; ring
  have hwle : w ≤ √3 * w := by nlinarith
  set v : V3 ℝ := (⟨t, t, t⟩ : V3 ℝ) - unitBox.box.location with hv
  have hr : w ≤ v.len := by rw [e2]; nlinarith
  have hvp : 0 < v.len := by linarith
  have hv0 : v.len ≠ 0 := hvp.ne'
  obtain ⟨b1, b2, b3, -⟩ := unit_bounds hv0
  have hdenom : ∀ n : ℕ, 1 / (√3 * w) ^ (n + 1) ≤ 1 / w := fun n =>
    (one_div_le_one_div_of_le (by positivity) (pow_le_pow_left₀ (by linarith) hwle _)).trans (inv_pow_le hw1 n)
  have hrn : ∀ n : ℕ, 1 / v.len ^ (n + 1) ≤ 1 / w := fun n =>
    (one_div_le_one_div_of_le (by positivity) (pow_le_pow_left₀ (by linarith) hr _)).trans (inv_pow_le hw1 n)
  rw [e2, e1, hd, hmass, abs_one, mul_one] at p1 p2 p3
  have iw : 0 < 1 / w := by positivity
  have tri : ∀ {x y e c : ℝ}, |x - y| ≤ e → |y| ≤ c → e + c ≤ Gravity.G * (28 / w) → |x| ≤ Gravity.G * (28 / w) := fun {x y e c} h1 h2 h3 => by
    have : |x| ≤ |x - y| + |y| := by have := abs_add_le (x - y) y; rwa [sub_add_cancel] at this
    linarith
  have k1 := hdenom 2
  have k2 := hdenom 3
  have q0 := hrn 0
  have q1 := hrn 1
  have q2 := hrn 2
  refine ⟨?_, ?_, ?_⟩
  · refine tri p1 (c := Gravity.G * (1 / w)) ?_ ?_
    · simp only [GravPrism.lumped, Gravity.PointMass.gravitationalPotential, hmass, ← hv]
      rw [mul_one, abs_of_pos (by positivity)]
      rw [zero_add, pow_one] at q0
      rw [div_eq_mul_one_div]
      gcongr
    · rw [div_pow, h3]
      have : 2 * Gravity.G * (3 / 2 ^ 2) / (√3 * w) ^ 3 = Gravity.G * (3 / 2) * (1 / (√3 * w) ^ (2 + 1)) := by norm_num; ring
      rw [this]
      have := mul_le_mul_of_nonneg_left k1 (show 0 ≤ Gravity.G * (3 / 2) by positivity)
      have h28 : Gravity.G * (28 / w) = 28 * (Gravity.G * (1 / w)) := by ring
      rw [h28]
      have := mul_pos hG iw
      nlinarith
  · refine tri p2 (c := Gravity.G * (1 / w)) ?_ ?_
    · simp only [GravPrism.lumped, Gravity.PointMass.gravitationalField, hmass, ← hv, V3.map_z]
      rw [abs_div, abs_mul, mul_one, abs_neg, abs_of_pos hG, abs_of_pos (show 0 < v.len ^ 2 by positivity), div_eq_mul_one_div]
      exact mul_le_mul (by nlinarith) q1 (by positivity) hG.le
    · have : 4 * Gravity.G * (√3 / 2) / (√3 * w) ^ 3 = Gravity.G * (2 * √3) * (1 / (√3 * w) ^ (2 + 1)) := by norm_num; ring
      rw [this]
      have := mul_le_mul_of_nonneg_left k1 (show 0 ≤ Gravity.G * (2 * √3) by positivity)
      have h28 : Gravity.G * (28 / w) = 28 * (Gravity.G * (1 / w)) := by ring
      rw [h28]
      have := mul_pos hG iw
      nlinarith
  · have hc : 24 * Gravity.G * (√3 / 2) / (√3 * w) ^ 4 + 4 * (Gravity.G * (1 / w)) ≤ Gravity.G * (28 / w) := by
      have : 24 * Gravity.G * (√3 / 2) / (√3 * w) ^ 4 = Gravity.G * (12 * √3) * (1 / (√3 * w) ^ (3 + 1)) := by norm_num; ring
      rw [this]
      have := mul_le_mul_of_nonneg_left k2 (show 0 ≤ Gravity.G * (12 * √3) by positivity)
      have h28 : Gravity.G * (28 / w) = 28 * (Gravity.G * (1 / w)) := by ring
      rw [h28]
      have := mul_pos hG iw
      nlinarith
    have z : ∀ x : ℝ, |x - 0| = |x| := fun x => by rw [sub_zero]
    have o1 : |(1 : ℝ)| ≤ 1 := by rw [abs_one]
    have o0 : |(0 : ℝ)| ≤ 1 := by rw [abs_zero]; norm_num
    have ent : ∀ {e a b : ℝ}, |e| ≤ 1 → |a| ≤ 1 → |b| ≤ 1 → |-Gravity.G * unitBox.mass * (e - 3 * a * b) / v.len ^ 3| ≤ 4 * (Gravity.G * (1 / w)) :=
      fun he ha hb => by rw [hmass]; exact entry_small hG hvp q2 he ha hb
    obtain ⟨⟨a1, a2, a3⟩, ⟨a4, a5, a6⟩, a7, a8, a9⟩ := p3
    simp only [Within, z]
    exact ⟨⟨tri a1 (ent o1 b1 b1) hc, tri a2 (ent o0 b1 b2) hc, tri a3 (ent o0 b1 b3) hc⟩,
      ⟨tri a4 (ent o0 b2 b1) hc, tri a5 (ent o1 b2 b2) hc, tri a6 (ent o0 b2 b3) hc⟩,
      tri a7 (ent o0 b3 b1) hc, tri a8 (ent o0 b3 b2) hc, tri a9 (ent o1 b3 b3) hc⟩

/-- **Far from a prism the computed gravity has no correct digit.**  For any precision `u > 0` and any factor `K` there are operations with relative errors of at
most `u` and a point outside a prism of unit size where the error of the potential, of a component of the field and of an entry of the gradient is more than `K` times the
exact potential, the exact component and every entry of the exact gradient. -/
theorem GravPrism.loses_accuracy {u : ℝ} (hu : 0 < u) (K : ℝ) : ∃ (F : ArithLog u) (xyz : V3 ℝ), 2 ≤ xyz.x ∧
    K * |unitBox.gravitationalPotential xyz| < |GravPrism.gravitationalPotential F unitBox xyz - unitBox.gravitationalPotential xyz| ∧
    K * |(unitBox.gravitationalField xyz).z| < |(GravPrism.gravitationalField F unitBox xyz).z - (unitBox.gravitationalField xyz).z| ∧
    ∃ M, Within M (unitBox.gravitationalGradient xyz) (⟨⟨0, 0, 0⟩, ⟨0, 0, 0⟩, ⟨0, 0, 0⟩⟩ : M3 ℝ) ∧
      K * M < |(GravPrism.gravitationalGradient F unitBox xyz).z.z - (unitBox.gravitationalGradient xyz).z.z| := by
  have hc : 0 < Real.arctan (1 / 2) := Real.arctan_pos.2 (by norm_num)
  set c := Real.arctan (1 / 2) with hcd
  have hK := abs_nonneg K
  obtain ⟨t, ht⟩ : ∃ t, t = 2 + 28 * |K| / (u * c) := ⟨_, rfl⟩
  have h1 : 0 ≤ 28 * |K| / (u * c) := by positivity
  have ht2 : 2 ≤ t := by linarith
  have hG := G_pos
  obtain ⟨s1, s2, s3⟩ := exact_small ht2
  have hlt : |K| * (28 / (t - 1)) < u * c := by
    rw [← mul_div_assoc, div_lt_iff₀ (by linarith), ht]
    have : u * c * (2 + 28 * |K| / (u * c) - 1) = u * c + 28 * |K| := by field_simp; ring
    rw [this]
    have := mul_pos hu hc
    linarith
  have hat : c ≤ |Real.arctan (slope (0 - t) (0 - t) (1 - t))| := by
    have h5 := Real.arctan_strictMono.monotone (slope_le (t := t) (by linarith))
    rw [Real.arctan_neg] at h5
    rw [abs_of_nonpos (by linarith)]
    linarith
  have hsz : ∀ k, 1 ≤ k → Gravity.G * (u * c) ≤ Gravity.G * (k * (u * |Real.arctan (slope (0 - t) (0 - t) (1 - t))|)) := fun k hk => by
    refine mul_le_mul_of_nonneg_left ?_ hG.le
    have : u * c ≤ u * |Real.arctan (slope (0 - t) (0 - t) (1 - t))| := mul_le_mul_of_nonneg_left hat hu.le
    have h0 : 0 ≤ u * |Real.arctan (slope (0 - t) (0 - t) (1 - t))| := by positivity
    nlinarith
  have hKM : ∀ {x : ℝ}, x ≤ Gravity.G * (28 / (t - 1)) → 0 ≤ x → K * x < Gravity.G * (u * c) := fun {x} hx h0 => by
    calc K * x ≤ |K| * x := mul_le_mul_of_nonneg_right (le_abs_self K) h0
      _ ≤ |K| * (Gravity.G * (28 / (t - 1))) := mul_le_mul_of_nonneg_left hx hK
      _ = Gravity.G * (|K| * (28 / (t - 1))) := by ring
      _ < _ := mul_lt_mul_of_pos_left hlt hG
  refine ⟨offSteep hu.le t, ⟨t, t, t⟩, ht2, ?_, ?_, Gravity.G * (28 / (t - 1)), s3, ?_⟩
  · rw [potential_off hu.le (by linarith), sub_sub_cancel_left, abs_neg, abs_mul, abs_mul, abs_mul u, abs_of_pos hG, abs_of_pos hu,
      abs_of_nonneg (show 0 ≤ 3 / 2 * (t - 1) ^ 2 by positivity)]
    exact (hKM s1 (abs_nonneg _)).trans_le (hsz _ (by nlinarith))
  · rw [field_off hu.le (by linarith), sub_sub_cancel_left, abs_neg, abs_mul, abs_mul, abs_mul u, abs_of_pos hG, abs_of_pos hu,
      abs_of_nonneg (show 0 ≤ t - 1 by linarith)]
    exact (hKM s2 (abs_nonneg _)).trans_le (hsz _ (by linarith))
  · rw [gradient_off hu.le (by linarith), sub_sub_cancel_left, abs_neg, abs_mul, abs_mul u, abs_of_pos hG, abs_of_pos hu]
    have := hsz 1 le_rfl
    rw [one_mul] at this
    exact (hKM le_rfl (by have : 0 < t - 1 := by linarith
                          positivity)).trans_le this

end Verif.Rounded
