import Verif.Lemmas.Plate
import Verif.Props.PrismOffSurface

/-!
# C153: the demagnetising field of a prism
-/

namespace Verif.Prism

open Real Plate

/-- One term of the demagnetising factor: the corner at distances `x`, `y` along and `z` across the faces. -/
noncomputable def corner (x y z : ℝ) : ℝ := arctan (x * y / (z * √(x ^ 2 + y ^ 2 + z ^ 2)))

theorem corner_pos {x y z : ℝ} (hx : 0 < x) (hy : 0 < y) (hz : 0 < z) : 0 < corner x y z :=
  arctan_pos.2 (by positivity)

theorem fzz_neg_z (x y z : ℝ) : Py.prismFzz x y (-z) = -Py.prismFzz x y z := by
  simp only [Py.prismFzz, neg_ne_zero]
  split_ifs
  · rw [neg_mul_neg, neg_mul, div_neg, arctan_neg]
  · simp

theorem fzz_corner {x y z : ℝ} (hz : 0 < z) : Py.prismFzz x y z = corner x y z := by
  simp only [Py.prismFzz, corner, hz.ne', ne_eq, not_false_eq_true, if_true]
  ring_nf

/-- All eight cornerSum seen from inside. -/
theorem eight_corners {x0 x1 y0 y1 z0 z1 : ℝ} (hz0 : 0 < z0) (hz1 : 0 < z1) :
    Py.prismFzz x1 y1 z1 - Py.prismFzz x1 y1 (-z0) - Py.prismFzz x1 (-y0) z1 + Py.prismFzz x1 (-y0) (-z0) - Py.prismFzz (-x0) y1 z1 +
      Py.prismFzz (-x0) y1 (-z0) + Py.prismFzz (-x0) (-y0) z1 - Py.prismFzz (-x0) (-y0) (-z0) =
    corner x1 y1 z1 + corner x1 y1 z0 + corner x1 y0 z1 + corner x1 y0 z0 + corner x0 y1 z1 + corner x0 y1 z0 + corner x0 y0 z1 + corner x0 y0 z0 := by
  simp only [fzz_neg_x, fzz_neg_y, fzz_neg_z]
  simp only [fzz_corner hz0, fzz_corner hz1]
  ring

/-- The cornerSum of a box seen from a point, added up; `x0`, `y0`, `z0` on the one side, `x1`, `y1`, `z1` on the other. -/
noncomputable def cornerSum (x0 x1 y0 y1 z0 z1 : ℝ) : ℝ :=
  corner x1 y1 z1 + corner x1 y1 z0 + corner x1 y0 z1 + corner x1 y0 z0 + corner x0 y1 z1 + corner x0 y1 z0 + corner x0 y0 z1 + corner x0 y0 z0

theorem cornerSum_pos {x0 x1 y0 y1 z0 z1 : ℝ} (a : 0 < x0) (b : 0 < x1) (c : 0 < y0) (d : 0 < y1) (e : 0 < z0) (f : 0 < z1) :
    0 < cornerSum x0 x1 y0 y1 z0 z1 := by
  have h1 := corner_pos b d f
  have h2 := corner_pos b d e
  have h3 := corner_pos b c f
  have h4 := corner_pos b c e
  have h5 := corner_pos a d f
  have h6 := corner_pos a d e
  have h7 := corner_pos a c f
  have h8 := corner_pos a c e
  rw [cornerSum]
  linarith

/-- Strictly inside. -/
def Box.Inside (b : Box) (p : V3 ℝ) : Prop :=
  (b.min.x < p.x ∧ p.x < b.max.x) ∧ (b.min.y < p.y ∧ p.y < b.max.y) ∧ b.min.z < p.z ∧ p.z < b.max.z

theorem eval_zz (b : Box) (p : V3 ℝ) (h : b.Inside p) :
    b.evalDefInt Py.prismFzz p 0 = cornerSum (p.x - b.min.x) (b.max.x - p.x) (p.y - b.min.y) (b.max.y - p.y) (p.z - b.min.z) (b.max.z - p.z) ∧
    b.evalDefInt Py.prismFzz p 1 = cornerSum (p.y - b.min.y) (b.max.y - p.y) (p.z - b.min.z) (b.max.z - p.z) (p.x - b.min.x) (b.max.x - p.x) ∧
    b.evalDefInt Py.prismFzz p 2 = cornerSum (p.z - b.min.z) (b.max.z - p.z) (p.x - b.min.x) (b.max.x - p.x) (p.y - b.min.y) (b.max.y - p.y) := by
  obtain ⟨⟨h1, h2⟩, ⟨h3, h4⟩, h5, h6⟩ := h
  simp only [Box.evalDefInt, cycleN, cornerSum]
  rw [show b.min.x - p.x = -(p.x - b.min.x) by ring, show b.min.y - p.y = -(p.y - b.min.y) by ring, show b.min.z - p.z = -(p.z - b.min.z) by ring]
  exact ⟨eight_corners (by linarith) (by linarith), eight_corners (by linarith) (by linarith), eight_corners (by linarith) (by linarith)⟩

theorem eval_sum (b : Box) (p : V3 ℝ) (h : b.Inside p) :
    b.evalDefInt Py.prismFzz p 0 + b.evalDefInt Py.prismFzz p 1 + b.evalDefInt Py.prismFzz p 2 = 4 * π := by
  have := gravPrism_trace_inside ⟨b, -1 / Gravity.G⟩ p h.1 h.2.1 h.2.2
  have hG : (0 : ℝ) < Gravity.G := by norm_num [Gravity.G]
  simp only [M3.trace, GravPrism.gravitationalGradient] at this
  field_simp at this
  linarith

/-- **C153.** At every point inside a magnetised prism the field is `-N M` with a symmetric tensor `N` of trace one that depends on the shape and the point only,
and whose diagonal entries lie between zero and one; the flux density is `μ₀ (M - N M)`. -/
theorem MagPrism.demagnetising (b : Box) (p : V3 ℝ) (h : b.Inside p) :
    ∃ N : M3 ℝ, (N.x.y = N.y.x ∧ N.x.z = N.z.x ∧ N.y.z = N.z.y) ∧ N.x.x + N.y.y + N.z.z = 1 ∧
      (0 < N.x.x ∧ N.x.x < 1) ∧ (0 < N.y.y ∧ N.y.y < 1) ∧ (0 < N.z.z ∧ N.z.z < 1) ∧
      ∀ m : V3 ℝ, (⟨b, m⟩ : MagPrism).magneticField p = -⟨N.x.dot m, N.y.dot m, N.z.dot m⟩ ∧
        (⟨b, m⟩ : MagPrism).magneticFluxDensity p = mu0 • (m - ⟨N.x.dot m, N.y.dot m, N.z.dot m⟩) := by
  have hs := eval_sum b p h
  obtain ⟨hz, hx, hy⟩ := eval_zz b p h
  obtain ⟨⟨h1, h2⟩, ⟨h3, h4⟩, h5, h6⟩ := h
  have cz := cornerSum_pos (sub_pos.2 h1) (sub_pos.2 h2) (sub_pos.2 h3) (sub_pos.2 h4) (sub_pos.2 h5) (sub_pos.2 h6)
  have cx := cornerSum_pos (sub_pos.2 h3) (sub_pos.2 h4) (sub_pos.2 h5) (sub_pos.2 h6) (sub_pos.2 h1) (sub_pos.2 h2)
  have cy := cornerSum_pos (sub_pos.2 h5) (sub_pos.2 h6) (sub_pos.2 h1) (sub_pos.2 h2) (sub_pos.2 h3) (sub_pos.2 h4)
  rw [← hz] at cz
  rw [← hx] at cx
  rw [← hy] at cy
  have hpi := pi_pos
  set gzz := b.evalDefInt Py.prismFzz p 0
  set gxx := b.evalDefInt Py.prismFzz p 1
  set gyy := b.evalDefInt Py.prismFzz p 2
  set gxy := b.evalDefInt Py.prismFzx p 1 with hgxy
  set gxz := b.evalDefInt Py.prismFzx p 0 with hgxz
  set gyz := b.evalDefInt Py.prismFzy p 0 with hgyz
  have key : ∀ {a : ℝ}, 0 < a → a < 4 * π → 0 < a / (4 * π) ∧ a / (4 * π) < 1 := fun h0 h1 =>
    ⟨by positivity, (div_lt_one (by positivity)).2 h1⟩
  have field : ∀ m : V3 ℝ, (⟨b, m⟩ : MagPrism).magneticField p =
      -⟨gxx / (4 * π) * m.x + gxy / (4 * π) * m.y + gxz / (4 * π) * m.z, gxy / (4 * π) * m.x + gyy / (4 * π) * m.y + gyz / (4 * π) * m.z,
        gxz / (4 * π) * m.x + gyz / (4 * π) * m.y + gzz / (4 * π) * m.z⟩ := fun m => by
    simp only [MagPrism.magneticField]
    ext <;> simp only [V3.neg_x, V3.neg_y, V3.neg_z] <;> norm_num <;> ring
  refine ⟨⟨⟨gxx / (4 * π), gxy / (4 * π), gxz / (4 * π)⟩, ⟨gxy / (4 * π), gyy / (4 * π), gyz / (4 * π)⟩,
    ⟨gxz / (4 * π), gyz / (4 * π), gzz / (4 * π)⟩⟩, ⟨rfl, rfl, rfl⟩, ?_, key cx (by linarith), key cy (by linarith), key cz (by linarith), fun m => ⟨field m, ?_⟩⟩
  · rw [← add_div, ← add_div, div_eq_one_iff_eq (by positivity)]
    linarith
  · have hin : (⟨b, m⟩ : MagPrism).isInside p := ⟨⟨h1.le, h3.le, h5.le⟩, h2.le, h4.le, h6.le⟩
    simp only [MagPrism.magneticFluxDensity, hin, if_true, field m, V3.dot]
    ext <;> simp only [V3.map, V3.add_x, V3.add_y, V3.add_z, V3.neg_x, V3.neg_y, V3.neg_z, V3.smul_x, V3.smul_y, V3.smul_z, V3.sub_x, V3.sub_y, V3.sub_z] <;> ring

/-- **C153.** Inside a body of positive density each diagonal entry of the gravity gradient lies between `-4πGρ` and zero. -/
theorem GravPrism.gradient_inside (s : GravPrism) (hr : 0 < s.rho) (p : V3 ℝ) (h : s.box.Inside p) :
    (-(4 * π * Gravity.G * s.rho) < (s.gravitationalGradient p).x.x ∧ (s.gravitationalGradient p).x.x < 0) ∧
    (-(4 * π * Gravity.G * s.rho) < (s.gravitationalGradient p).y.y ∧ (s.gravitationalGradient p).y.y < 0) ∧
    -(4 * π * Gravity.G * s.rho) < (s.gravitationalGradient p).z.z ∧ (s.gravitationalGradient p).z.z < 0 := by
  have hs := eval_sum s.box p h
  obtain ⟨hz, hx, hy⟩ := eval_zz s.box p h
  obtain ⟨⟨h1, h2⟩, ⟨h3, h4⟩, h5, h6⟩ := h
  have cz := cornerSum_pos (sub_pos.2 h1) (sub_pos.2 h2) (sub_pos.2 h3) (sub_pos.2 h4) (sub_pos.2 h5) (sub_pos.2 h6)
  have cx := cornerSum_pos (sub_pos.2 h3) (sub_pos.2 h4) (sub_pos.2 h5) (sub_pos.2 h6) (sub_pos.2 h1) (sub_pos.2 h2)
  have cy := cornerSum_pos (sub_pos.2 h5) (sub_pos.2 h6) (sub_pos.2 h1) (sub_pos.2 h2) (sub_pos.2 h3) (sub_pos.2 h4)
  rw [← hz] at cz
  rw [← hx] at cx
  rw [← hy] at cy
  have hk : 0 < Gravity.G * s.rho := mul_pos (by norm_num [Gravity.G]) hr
  have key : ∀ {a : ℝ}, 0 < a → a < 4 * π → -(4 * π * Gravity.G * s.rho) < -Gravity.G * s.rho * a ∧ -Gravity.G * s.rho * a < 0 := fun {a} h0 h1 =>
    ⟨by nlinarith [mul_lt_mul_of_pos_left h1 hk], by nlinarith [mul_pos hk h0]⟩
  exact ⟨key cx (by linarith), key cy (by linarith), key cz (by linarith)⟩

/-! ### The centre -/

/-- The demagnetising factor at the centre of a box with the half-lengths `a` across and `b`, `c` along the faces. -/
noncomputable def centreFactor (a b c : ℝ) : ℝ := 2 / π * arctan (b * c / (a * √(a ^ 2 + b ^ 2 + c ^ 2)))

theorem fzx_neg (x y z : ℝ) : Py.prismFzx (-x) y z = Py.prismFzx x y z ∧ Py.prismFzx x y (-z) = Py.prismFzx x y z := by
  simp only [Py.prismFzx, neg_mul_neg, and_self]

theorem fzy_neg (x y z : ℝ) : Py.prismFzy x (-y) z = Py.prismFzy x y z ∧ Py.prismFzy x y (-z) = Py.prismFzy x y z := by
  simp only [Py.prismFzy, neg_mul_neg, and_self]

/-- **C153.** At the centre of a prism with sides `2a`, `2b`, `2c` the tensor is diagonal, with known entries. -/
theorem MagPrism.centre_field (p m : V3 ℝ) {a b c : ℝ} (ha : 0 < a) (hb : 0 < b) (hc : 0 < c) :
    (⟨⟨⟨p.x - a, p.y - b, p.z - c⟩, ⟨p.x + a, p.y + b, p.z + c⟩⟩, m⟩ : MagPrism).magneticField p =
      -⟨centreFactor a b c * m.x, centreFactor b c a * m.y, centreFactor c a b * m.z⟩ := by
  have hpi := pi_pos
  set B : Box := ⟨⟨p.x - a, p.y - b, p.z - c⟩, ⟨p.x + a, p.y + b, p.z + c⟩⟩ with hB
  have hin : B.Inside p := ⟨⟨by simp [hB, ha], by simp [hB, ha]⟩, ⟨by simp [hB, hb], by simp [hB, hb]⟩, by simp [hB, hc], by simp [hB, hc]⟩
  obtain ⟨hz, hx, hy⟩ := eval_zz B p hin
  have ea : ∀ t u : ℝ, t - (t - u) = u := fun t u => by ring
  have eb : ∀ t u : ℝ, t + u - t = u := fun t u => by ring
  have ec : ∀ t u : ℝ, t - u - t = -u := fun t u => by ring
  simp only [hB, ea, eb] at hz hx hy
  have hxy : B.evalDefInt Py.prismFzx p 1 = 0 := by
    simp only [hB, Box.evalDefInt, cycleN, eb, ec, (fzx_neg _ _ _).1, (fzx_neg _ _ _).2]; ring
  have hxz : B.evalDefInt Py.prismFzx p 0 = 0 := by
    simp only [hB, Box.evalDefInt, cycleN, eb, ec, (fzx_neg _ _ _).1, (fzx_neg _ _ _).2]; ring
  have hyz : B.evalDefInt Py.prismFzy p 0 = 0 := by
    simp only [hB, Box.evalDefInt, cycleN, eb, ec, (fzy_neg _ _ _).1, (fzy_neg _ _ _).2]; ring
  have e : ∀ x y z : ℝ, -1.0 / (4 * π) * cornerSum x x y y z z = -(2 / π * corner x y z) := fun x y z => by
    rw [cornerSum, show (-1.0 : ℝ) = -1 by norm_num]; field_simp; ring
  have ex := e b c a
  have ey := e c a b
  have ez := e a b c
  simp only [MagPrism.magneticField, hxy, hxz, hyz]
  rw [← hB] at hz hx hy
  rw [hz, hx, hy]
  simp only [zero_mul, add_zero, zero_add, ← mul_assoc, ex, ey, ez]
  rw [corner, show b ^ 2 + c ^ 2 + a ^ 2 = a ^ 2 + b ^ 2 + c ^ 2 by ring, corner, corner, show c ^ 2 + a ^ 2 + b ^ 2 = a ^ 2 + b ^ 2 + c ^ 2 by ring]
  simp only [centreFactor]
  rw [show b ^ 2 + c ^ 2 + a ^ 2 = a ^ 2 + b ^ 2 + c ^ 2 by ring, show c ^ 2 + a ^ 2 + b ^ 2 = a ^ 2 + b ^ 2 + c ^ 2 by ring]
  ext <;> simp only [V3.neg_x, V3.neg_y, V3.neg_z, neg_mul]

/-- **C153.** The factors at the centre add up to one, are positive, and the shorter the side, the larger. -/
theorem centreFactor_laws {a b c : ℝ} (ha : 0 < a) (hb : 0 < b) (hc : 0 < c) :
    centreFactor a b c + centreFactor b c a + centreFactor c a b = 1 ∧ 0 < centreFactor a b c ∧ centreFactor a b c < 1 ∧
    (a < b ↔ centreFactor b c a < centreFactor a b c) := by
  have pos : ∀ {a b c : ℝ}, 0 < a → 0 < b → 0 < c → 0 < centreFactor a b c := fun ha hb hc =>
    mul_pos (div_pos two_pos pi_pos) (arctan_pos.2 (by positivity))
  have hsum : centreFactor a b c + centreFactor b c a + centreFactor c a b = 1 := by
    obtain ⟨N, -, ht, -, -, -, hf⟩ := MagPrism.demagnetising ⟨⟨0 - a, 0 - b, 0 - c⟩, ⟨0 + a, 0 + b, 0 + c⟩⟩ 0
      ⟨⟨by simp [ha], by simp [ha]⟩, ⟨by simp [hb], by simp [hb]⟩, by simp [hc], by simp [hc]⟩
    have hx := congrArg V3.x ((hf ⟨1, 0, 0⟩).1.symm.trans (MagPrism.centre_field 0 ⟨1, 0, 0⟩ ha hb hc))
    have hy := congrArg V3.y ((hf ⟨0, 1, 0⟩).1.symm.trans (MagPrism.centre_field 0 ⟨0, 1, 0⟩ ha hb hc))
    have hz := congrArg V3.z ((hf ⟨0, 0, 1⟩).1.symm.trans (MagPrism.centre_field 0 ⟨0, 0, 1⟩ ha hb hc))
    simp [V3.dot] at hx hy hz
    linarith
  refine ⟨hsum, pos ha hb hc, by linarith [pos hb hc ha, pos hc ha hb], ?_⟩
  rw [centreFactor, centreFactor, show b ^ 2 + c ^ 2 + a ^ 2 = a ^ 2 + b ^ 2 + c ^ 2 by ring,
    mul_lt_mul_iff_right₀ (div_pos two_pos pi_pos), arctan_lt_arctan_iff]
  set r := √(a ^ 2 + b ^ 2 + c ^ 2) with hr
  have hr0 : 0 < r := sqrt_pos.2 (by positivity)
  rw [div_lt_div_iff₀ (by positivity) (by positivity)]
  constructor
  · intro h
    have : a * a < b * b := by nlinarith
    calc c * a * (a * r) = c * r * (a * a) := by ring
      _ < c * r * (b * b) := by gcongr
      _ = b * c * (b * r) := by ring
  · intro h
    by_contra hn
    push Not at hn
    have : b * b ≤ a * a := by nlinarith
    have : c * r * (b * b) ≤ c * r * (a * a) := by gcongr
    nlinarith

/-- **C153.** A magnetised cube: at the centre the field is a third of the magnetisation and opposed to it, as in a sphere. -/
theorem MagPrism.cube (p m : V3 ℝ) {a : ℝ} (ha : 0 < a) :
    (⟨⟨⟨p.x - a, p.y - a, p.z - a⟩, ⟨p.x + a, p.y + a, p.z + a⟩⟩, m⟩ : MagPrism).magneticField p = (-(1 / 3) : ℝ) • m := by
  have h := (centreFactor_laws ha ha ha).1
  have h3 : centreFactor a a a = 1 / 3 := by linarith
  rw [MagPrism.centre_field p m ha ha ha, h3]
  ext <;> simp

/-- A brick magnetised along its shortest side is demagnetised most. -/
example : centreFactor 3 1 2 < centreFactor 2 3 1 := (centreFactor_laws (a := 2) (b := 3) (c := 1) (by norm_num) (by norm_num) (by norm_num)).2.2.2.1 (by norm_num)

/-- Points inside exist. -/
example : (⟨⟨0, 0, 0⟩, ⟨1, 2, 3⟩⟩ : Box).Inside ⟨1 / 2, 1, 1⟩ := by
  refine ⟨⟨?_, ?_⟩, ⟨?_, ?_⟩, ?_, ?_⟩ <;> norm_num

end Verif.Prism
