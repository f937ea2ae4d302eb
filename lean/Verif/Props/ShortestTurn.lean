import Verif.Lemmas.ShortestTurn

/-! # C156: rotations between directions are the shortest ones and can be undone -/

namespace Verif.Spatial

open V3

theorem ok_eq (v w : V3 ℝ) (tol : ℝ) :
    rotationMatrixFromNormals (arr3 v) (arr3 w) tol = rotationUnit (unit v) (unit w) tol := rfl

/-- The directions are equal, opposite, or at least the tolerance apart from that: the cases in which C10 says that the
rotation is exact.  With the default tolerance of `1e-20` nothing else can be told apart in double precision. -/
def Distinct (v w : V3 ℝ) (tol : ℝ) : Prop :=
  ((unit v).cross (unit w)).len = 0 ∨ tol ≤ ((unit v).cross (unit w)).len

theorem Distinct.symm {v w : V3 ℝ} {tol : ℝ} (h : Distinct v w tol) : Distinct w v tol := by
  have e : (unit w).cross (unit v) = -((unit v).cross (unit w)) := by
    ext <;> simp only [V3.cross, V3.neg_x, V3.neg_y, V3.neg_z] <;> ring
  rw [Distinct, e, V3.len_neg]; exact h

/-- **C156.** Of all rotations which take the direction of `v0` to that of `v1` the matrix returned is the one with the
smallest angle: the cosine of its angle, `(trace - 1)/2`, is the cosine of the angle between the two directions, and no
other rotation that takes one to the other has a larger one. -/
theorem shortest_turn (v w : V3 ℝ) (hv : v ≠ 0) (hw : w ≠ 0) (tol : ℝ) (ht : 0 < tol) (ht1 : tol < 1)
    (hb : Distinct v w tol) :
    ∃ R, rotationMatrixFromNormals (arr3 v) (arr3 w) tol = .ok R ∧ R.IsRotation ∧ R.mulVec (unit v) = unit w ∧
      (R.trace - 1) / 2 = (unit v).dot (unit w) ∧
      ∀ Q : M3 ℝ, Q.IsRotation → Q.mulVec (unit v) = unit w → (Q.trace - 1) / 2 ≤ (R.trace - 1) / 2 := by
  have ha := V3.unit_dot hv
  have hb1 := V3.unit_dot hw
  rw [ok_eq]
  change (unit v).dot (unit v) = 1 at ha
  change (unit w).dot (unit w) = 1 at hb1
  suffices h : ∃ R, rotationUnit (unit v) (unit w) tol = .ok R ∧ R.IsRotation ∧ R.mulVec (unit v) = unit w ∧
      (R.trace - 1) / 2 = (unit v).dot (unit w) by
    obtain ⟨R, h1, h2, h3, h4⟩ := h
    refine ⟨R, h1, h2, h3, h4, fun Q hQ hQv => ?_⟩
    have := hQ.trace_le (unit v) ha
    rw [hQv] at this
    rw [h4]; linarith
  unfold Distinct at hb
  generalize unit v = a at *
  generalize unit w = b at *
  rcases hb with h0 | hband
  · rcases same_or_opposite a b ha hb1 h0 with rfl | rfl
    · refine ⟨M3.one, rotationUnit_same b tol ht, M3.one_isRotation, M3.one_mulVec b, ?_⟩
      rw [ha]; norm_num [M3.trace, M3.one]
    · obtain ⟨u, hu, hpos, R, h1, -, h2, h3, h4⟩ := rotationUnit_opposite a ha tol ht ht1
      refine ⟨R, h1, h2, h3, ?_⟩
      have hd : a.dot (-a) = -1 := by simp only [V3.dot, V3.neg_x, V3.neg_y, V3.neg_z] at ha ⊢; linarith
      have e1 := congrArg V3.x (h4 ⟨1, 0, 0⟩)
      have e2 := congrArg V3.y (h4 ⟨0, 1, 0⟩)
      have e3 := congrArg V3.z (h4 ⟨0, 0, 1⟩)
      simp only [M3.mulVec, V3.dot, V3.smul_x, V3.smul_y, V3.smul_z, V3.sub_x, V3.sub_y, V3.sub_z, smul_eq_mul, mul_one,
        mul_zero, add_zero, zero_add] at e1 e2 e3 hpos
      have hs : 2 * (u.x / (u.x * u.x + u.y * u.y + u.z * u.z)) * u.x + 2 * (u.y / (u.x * u.x + u.y * u.y + u.z * u.z)) * u.y +
          2 * (u.z / (u.x * u.x + u.y * u.y + u.z * u.z)) * u.z = 2 := by
        have := hpos.ne'
        rw [← sub_eq_zero]
        generalize hD : u.x * u.x + u.y * u.y + u.z * u.z = D at *
        field_simp
        linear_combination 2 * hD
      rw [hd, M3.trace, e1, e2, e3]; linarith
  · obtain ⟨hd, R, h1, h2, h3, h4⟩ := rotationUnit_turn a b ha hb1 tol ht hband
    refine ⟨R, h1, h2, h3, ?_⟩
    have hc := V3.cross_dot_self a b
    rw [ha, hb1] at hc
    set c := a.cross b with hcd
    have e1 := congrArg V3.x (h4 ⟨1, 0, 0⟩)
    have e2 := congrArg V3.y (h4 ⟨0, 1, 0⟩)
    have e3 := congrArg V3.z (h4 ⟨0, 0, 1⟩)
    generalize a.dot b = d at *
    simp only [M3.mulVec, V3.dot, V3.cross, V3.smul_x, V3.smul_y, V3.smul_z, V3.add_x, V3.add_y, V3.add_z, smul_eq_mul, mul_one,
      mul_zero, add_zero, zero_add, sub_zero] at e1 e2 e3 hc
    have hs : c.x / (1 + d) * c.x + c.y / (1 + d) * c.y + c.z / (1 + d) * c.z = 1 - d := by
      have := hd.ne'
      field_simp
      linear_combination hc
    rw [M3.trace, e1, e2, e3]; linarith

/-- **C156.** Unless the directions are opposite the matrix is the only rotation which takes the direction of `v0` to that
of `v1` and leaves what is perpendicular to both where it is. -/
theorem only_turn (v w : V3 ℝ) (hv : v ≠ 0) (hw : w ≠ 0) (tol : ℝ) (ht : 0 < tol)
    (hb : tol ≤ ((unit v).cross (unit w)).len) :
    ∃ R, rotationMatrixFromNormals (arr3 v) (arr3 w) tol = .ok R ∧
      ∀ Q : M3 ℝ, Q.IsRotation → ((Q.mulVec (unit v) = unit w ∧ ∀ p : V3 ℝ, p.dot v = 0 → p.dot w = 0 → Q.mulVec p = p) ↔
        Q = R) := by
  have ha := V3.unit_dot hv
  have hb1 := V3.unit_dot hw
  rw [ok_eq]
  change (unit v).dot (unit v) = 1 at ha
  change (unit w).dot (unit w) = 1 at hb1
  obtain ⟨hd, R, h1, h2, h3, h4⟩ := rotationUnit_turn (unit v) (unit w) ha hb1 tol ht hb
  have hperp : ∀ p : V3 ℝ, ∀ s : V3 ℝ, s ≠ 0 → (p.dot s = 0 ↔ p.dot (unit s) = 0) := by
    intro p s hs
    have hl := (V3.len_pos hs).ne'
    have : p.dot (unit s) = p.dot s / s.len := by simp only [unit, V3.dot, V3.map_x, V3.map_y, V3.map_z]; field_simp
    rw [this, div_eq_zero_iff]; simp [hl]
  refine ⟨R, h1, fun Q hQ => ⟨fun ⟨hq, hfix⟩ => ?_, ?_⟩⟩
  · have hfix' : Q.mulVec ((unit v).cross (unit w)) = (unit v).cross (unit w) := by
      apply hfix
      · rw [hperp _ _ hv]; simp only [V3.dot, V3.cross]; ring
      · rw [hperp _ _ hw]; simp only [V3.dot, V3.cross]; ring
    have hRfix : R.mulVec ((unit v).cross (unit w)) = (unit v).cross (unit w) := by
      rw [h4]
      have hc := V3.cross_dot_self (unit v) (unit w)
      rw [ha, hb1] at hc
      have hx : ((unit v).cross (unit w)).cross ((unit v).cross (unit w)) = 0 := by
        ext <;> simp [V3.cross] <;> ring
      rw [hx, hc, add_zero, ← add_smul]
      have : (unit v).dot (unit w) + (1 * 1 - (unit v).dot (unit w) ^ 2) / (1 + (unit v).dot (unit w)) = 1 := by
        field_simp; ring
      rw [this, one_smul]
    have hlen : 0 < ((unit v).cross (unit w)).len := lt_of_lt_of_le ht hb
    generalize unit v = a at *
    generalize unit w = b at *
    set c := a.cross b with hcd
    have hca : c.dot a = 0 := by simp only [hcd, V3.dot, V3.cross]; ring
    have hcc : c.dot c ≠ 0 := by rw [V3.dot_self]; positivity
    -- `a`, `c` and `c × a` span everything
    have hspan : ∀ p : V3 ℝ, p = a.dot p • a + (c.dot p / c.dot c) • c + ((c.cross a).dot p / c.dot c) • c.cross a := by
      intro p
      have hx : c.dot c • p = (c.dot c * a.dot p) • a + (c.dot p) • c + ((c.cross a).dot p) • c.cross a := by
        simp only [V3.dot] at ha hca
        ext <;> simp only [V3.dot, V3.cross, V3.smul_x, V3.smul_y, V3.smul_z, V3.add_x, V3.add_y, V3.add_z, smul_eq_mul] <;>
          clear_value c <;> grind
      have hy := congrArg (fun q => (c.dot c)⁻¹ • q) hx
      simp only [smul_smul, smul_add, inv_mul_cancel₀ hcc, one_smul] at hy
      refine hy.trans ?_
      congr 1
      · congr 1
        · rw [← mul_assoc, inv_mul_cancel₀ hcc, one_mul]
        · congr 1; ring
      · congr 1; ring
    apply M3.ext_mulVec
    intro p
    rw [hspan p]
    simp only [M3.mulVec_add, M3.mulVec_smul, ← hQ.cross, ← h2.cross, hq, h3, hfix', hRfix]
  · rintro rfl
    refine ⟨h3, fun p p1 p2 => ?_⟩
    rw [hperp _ _ hv] at p1
    rw [hperp _ _ hw] at p2
    have hlen : 0 < ((unit v).cross (unit w)).len := lt_of_lt_of_le ht hb
    rw [h4]
    generalize unit v = a at *
    generalize unit w = b at *
    have hc := V3.cross_dot_self a b
    rw [ha, hb1] at hc
    have hx : (a.cross b).cross p = 0 := by
      simp only [V3.dot] at p1 p2
      ext <;> simp only [V3.cross, V3.zero_x, V3.zero_y, V3.zero_z] <;> grind
    have hpar : ((a.cross b).dot p) • a.cross b = (1 - a.dot b ^ 2) • p := by
      have h := congrArg (fun q => (a.cross b).cross q) hx
      have e : (a.cross b).cross ((a.cross b).cross p) = ((a.cross b).dot p) • a.cross b - ((a.cross b).dot (a.cross b)) • p := by
        generalize a.cross b = c
        ext <;> simp only [V3.cross, V3.dot, V3.smul_x, V3.smul_y, V3.smul_z, V3.sub_x, V3.sub_y, V3.sub_z, smul_eq_mul] <;> ring
      simp only [e] at h
      have z : (a.cross b).cross (0 : V3 ℝ) = 0 := by ext <;> simp [V3.cross]
      rw [z, hc] at h
      have := sub_eq_zero.1 h
      simpa using this
    have hdiv : ((a.cross b).dot p / (1 + a.dot b)) • a.cross b = (1 - a.dot b) • p := by
      have : ((a.cross b).dot p / (1 + a.dot b)) • a.cross b = (1 / (1 + a.dot b)) • (((a.cross b).dot p) • a.cross b) := by
        rw [smul_smul]; congr 1; ring
      rw [this, hpar, smul_smul]; congr 1; field_simp; ring
    rw [hx, hdiv, add_zero, ← add_smul]; simp

/-- **C156.** The rotation back from `v1` to `v0` undoes the rotation from `v0` to `v1`. -/
theorem turn_undone (v w : V3 ℝ) (hv : v ≠ 0) (hw : w ≠ 0) (tol : ℝ) (ht : 0 < tol) (ht1 : tol < 1)
    (hb : Distinct v w tol) :
    ∃ R S, rotationMatrixFromNormals (arr3 v) (arr3 w) tol = .ok R ∧
      rotationMatrixFromNormals (arr3 w) (arr3 v) tol = .ok S ∧ S = R.transpose ∧
      (∀ p, S.mulVec (R.mulVec p) = p) ∧ ∀ p, R.mulVec (S.mulVec p) = p := by
  have ha := V3.unit_dot hv
  have hb1 := V3.unit_dot hw
  rw [ok_eq, ok_eq]
  change (unit v).dot (unit v) = 1 at ha
  change (unit w).dot (unit w) = 1 at hb1
  suffices h : ∃ R, rotationUnit (unit v) (unit w) tol = .ok R ∧ R.IsRotation ∧ rotationUnit (unit w) (unit v) tol = .ok R.transpose by
    obtain ⟨R, h1, h2, h3⟩ := h
    exact ⟨R, R.transpose, h1, h3, rfl, h2.transpose_mulVec, h2.mulVec_transpose⟩
  unfold Distinct at hb
  generalize unit v = a at *
  generalize unit w = b at *
  rcases hb with h0 | hband
  · rcases same_or_opposite a b ha hb1 h0 with rfl | rfl
    · exact ⟨M3.one, rotationUnit_same b tol ht, M3.one_isRotation, rotationUnit_same b tol ht⟩
    · obtain ⟨u, hu, hpos, R, h1, h1', h2, h3, h4⟩ := rotationUnit_opposite a ha tol ht ht1
      refine ⟨R, h1, h2, ?_⟩
      rw [h1']
      congr 1
      have e1 := h4 ⟨1, 0, 0⟩
      have e2 := h4 ⟨0, 1, 0⟩
      have e3 := h4 ⟨0, 0, 1⟩
      simp only [V3.ext_iff, M3.mulVec, V3.dot, V3.smul_x, V3.smul_y, V3.smul_z, V3.sub_x, V3.sub_y, V3.sub_z, smul_eq_mul, mul_one,
        mul_zero, add_zero, zero_add, sub_zero] at e1 e2 e3
      obtain ⟨-, f1, f2⟩ := e1
      obtain ⟨g1, -, g2⟩ := e2
      obtain ⟨k1, k2, -⟩ := e3
      ext <;> simp only [M3.transpose, f1, f2, g1, g2, k1, k2] <;> ring
  · obtain ⟨hd, R, h1, h2, h3, h4⟩ := rotationUnit_turn a b ha hb1 tol ht hband
    have hanti : b.cross a = -(a.cross b) := by ext <;> simp only [V3.cross, V3.neg_x, V3.neg_y, V3.neg_z] <;> ring
    obtain ⟨-, S, s1, s2, s3, s4⟩ := rotationUnit_turn b a hb1 ha tol ht (by rw [hanti, V3.len_neg]; exact hband)
    refine ⟨R, h1, h2, ?_⟩
    rw [s1]
    congr 1
    rw [hanti, V3.dot_comm b a] at s4
    have e1 := h4 ⟨1, 0, 0⟩
    have e2 := h4 ⟨0, 1, 0⟩
    have e3 := h4 ⟨0, 0, 1⟩
    have t1 := s4 ⟨1, 0, 0⟩
    have t2 := s4 ⟨0, 1, 0⟩
    have t3 := s4 ⟨0, 0, 1⟩
    generalize a.dot b = d at *
    generalize a.cross b = c at *
    simp only [V3.ext_iff, M3.mulVec, V3.dot, V3.cross, V3.smul_x, V3.smul_y, V3.smul_z, V3.add_x, V3.add_y, V3.add_z, V3.neg_x,
      V3.neg_y, V3.neg_z, smul_eq_mul, mul_one, mul_zero, add_zero, zero_add, sub_zero, zero_sub] at e1 e2 e3 t1 t2 t3
    obtain ⟨e11, e12, e13⟩ := e1
    obtain ⟨e21, e22, e23⟩ := e2
    obtain ⟨e31, e32, e33⟩ := e3
    obtain ⟨t11, t12, t13⟩ := t1
    obtain ⟨t21, t22, t23⟩ := t2
    obtain ⟨t31, t32, t33⟩ := t3
    ext <;> simp only [M3.transpose, e11, e12, e13, e21, e22, e23, e31, e32, e33, t11, t12, t13, t21, t22, t23, t31, t32, t33] <;>
      ring

/-- **C156.** Rotating points from one normal to another and back returns them. -/
theorem points_undone (xyz : Mat) (n0 n1 x0 : V3 ℝ) (hw : xyz.width = 3) (h0 : n0 ≠ 0) (h1 : n1 ≠ 0)
    (hb : Distinct n0 n1 defaultTol) :
    ∃ out back, rotatePointsFromNormals xyz n0 n1 x0 = .ok out ∧ rotatePointsFromNormals out n1 n0 x0 = .ok back ∧
      back.rows = xyz.rows ∧ ∀ i, back.row i = xyz.row i := by
  obtain ⟨R, S, hR, hS, -, hSR, -⟩ := turn_undone n0 n1 h0 h1 defaultTol (by norm_num [defaultTol]) (by norm_num [defaultTol]) hb
  refine ⟨Mat.ofRows xyz.rows fun i => R.mulVec (xyz.row i - x0) + x0,
    Mat.ofRows xyz.rows fun i => S.mulVec ((R.mulVec (xyz.row i - x0) + x0) - x0) + x0, ?_, ?_, rfl, fun i => ?_⟩
  · simp only [rotatePointsFromNormals, hR]
    simp [bind, Except.bind, hw, pure, Except.pure]
  · simp only [rotatePointsFromNormals, hS]
    simp only [bind, Except.bind, pure, Except.pure]
    rw [if_neg (by simp [Mat.ofRows])]
    rfl
  · change S.mulVec ((R.mulVec (xyz.row i - x0) + x0) - x0) + x0 = xyz.row i
    rw [add_sub_cancel_right, hSR, sub_add_cancel]

/-- **C156.** The rotation does not depend on how the axes point: when both directions are turned by `Q`, so is the
rotation. -/
theorem turn_turned (Q : M3 ℝ) (hQ : Q.IsRotation) (v w : V3 ℝ) (hv : v ≠ 0) (hw : w ≠ 0) (tol : ℝ) (ht : 0 < tol)
    (hb : tol ≤ ((unit v).cross (unit w)).len) :
    ∃ R S, rotationMatrixFromNormals (arr3 v) (arr3 w) tol = .ok R ∧
      rotationMatrixFromNormals (arr3 (Q.mulVec v)) (arr3 (Q.mulVec w)) tol = .ok S ∧
      ∀ p, S.mulVec (Q.mulVec p) = Q.mulVec (R.mulVec p) := by
  have hu : ∀ s : V3 ℝ, unit (Q.mulVec s) = Q.mulVec (unit s) := by
    intro s
    have e : ∀ r : V3 ℝ, ∀ k : ℝ, r.map (· / k) = k⁻¹ • r := by
      intro r k; ext <;> simp [div_eq_inv_mul]
    rw [unit, unit, hQ.len, e, e, M3.mulVec_smul]
  have ha := V3.unit_dot hv
  have hb1 := V3.unit_dot hw
  rw [ok_eq, ok_eq, hu, hu]
  change (unit v).dot (unit v) = 1 at ha
  change (unit w).dot (unit w) = 1 at hb1
  obtain ⟨-, R, h1, -, -, h4⟩ := rotationUnit_turn (unit v) (unit w) ha hb1 tol ht hb
  obtain ⟨-, S, s1, -, -, s4⟩ := rotationUnit_turn (Q.mulVec (unit v)) (Q.mulVec (unit w)) (by rw [hQ.dot]; exact ha)
    (by rw [hQ.dot]; exact hb1) tol ht (by rw [hQ.cross, hQ.len]; exact hb)
  refine ⟨R, S, h1, s1, fun p => ?_⟩
  rw [s4, h4, hQ.cross, hQ.dot, hQ.dot, hQ.cross, M3.mulVec_add, M3.mulVec_add, M3.mulVec_smul, M3.mulVec_smul]

/-- **C156.** Only the directions matter: the lengths of the vectors do not, nor does reversing both. -/
theorem turn_directions (v w : V3 ℝ) (hv : v ≠ 0) (hw : w ≠ 0) (s t tol : ℝ) (hs : 0 < s) (ht : 0 < t) :
    rotationMatrixFromNormals (arr3 (s • v)) (arr3 (t • w)) tol = rotationMatrixFromNormals (arr3 v) (arr3 w) tol ∧
      (tol ≤ ((unit v).cross (unit w)).len →
        rotationMatrixFromNormals (arr3 (-v)) (arr3 (-w)) tol = rotationMatrixFromNormals (arr3 v) (arr3 w) tol) := by
  have hu : ∀ (c : ℝ) (p : V3 ℝ), 0 < c → p ≠ 0 → unit (c • p) = unit p := by
    intro c p hc hp
    have hl := V3.len_pos hp
    have : (c • p).len = c * p.len := by rw [V3.len_smul, abs_of_pos hc]
    ext <;> simp only [unit, V3.map_x, V3.map_y, V3.map_z, this, V3.smul_x, V3.smul_y, V3.smul_z, smul_eq_mul] <;> field_simp
  have hn : ∀ p : V3 ℝ, unit (-p) = -unit p := by
    intro p; ext <;> simp [unit, V3.len_neg, neg_div]
  refine ⟨by rw [ok_eq, ok_eq, hu s v hs hv, hu t w ht hw], fun hb => ?_⟩
  rw [ok_eq, ok_eq, hn, hn]
  have e1 : (-unit v).cross (-unit w) = (unit v).cross (unit w) := by ext <;> simp [V3.cross]
  have e2 : (-unit v).dot (-unit w) = (unit v).dot (unit w) := by simp [V3.dot]
  simp only [rotationUnit, e1, e2]
  rw [if_neg (not_lt.2 hb), if_neg (not_lt.2 hb)]

/-- Non-vacuity: the axes `x` and `y`. -/
example : (⟨1, 0, 0⟩ : V3 ℝ) ≠ 0 ∧ (⟨0, 1, 0⟩ : V3 ℝ) ≠ 0 ∧
    defaultTol ≤ ((unit ⟨1, 0, 0⟩).cross (unit ⟨0, 1, 0⟩)).len ∧ Distinct ⟨1, 0, 0⟩ ⟨0, 1, 0⟩ defaultTol ∧
    Distinct ⟨1, 0, 0⟩ ⟨-1, 0, 0⟩ defaultTol := by
  have h : ((unit ⟨1, 0, 0⟩).cross (unit (⟨0, 1, 0⟩ : V3 ℝ))).len = 1 := by simp [V3.cross, V3.len, unit]
  refine ⟨by simp [V3.ext_iff], by simp [V3.ext_iff], ?_, Or.inr ?_, Or.inl ?_⟩
  · rw [h]; norm_num [defaultTol]
  · rw [h]; norm_num [defaultTol]
  · simp [V3.cross, V3.len, unit]

end Verif.Spatial
