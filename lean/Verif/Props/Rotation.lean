import Verif.Lemmas.Rotation

/-! # C10–C12: rotations and metric helpers -/

namespace Verif.Spatial

open V3

/-- The unit vector along `v`. -/
noncomputable def unit (v : V3 ℝ) : V3 ℝ := v.map (· / v.len)

/-- The three numbers held by an array that squeezes to shape `(3,)`. -/
def vec (a : NArr ℝ) : V3 ℝ := ⟨a.squeeze.get [0], a.squeeze.get [1], a.squeeze.get [2]⟩

/-! ## C10 -/

/-- Helper: everything about unit vectors. -/
theorem rotationUnit_spec (v0 v1 : V3 ℝ) (h0 : v0.dot v0 = 1) (h1 : v1.dot v1 = 1) (tol : ℝ)
    (ht : 0 < tol) (ht1 : tol < 1) :
    ∃ R, rotationUnit v0 v1 tol = .ok R ∧ R.IsRotation ∧
      ((v0.cross v1).len = 0 ∨ tol ≤ (v0.cross v1).len → R.mulVec v0 = v1) ∧
      (R.mulVec v0 - v1).len ≤ 4 * tol := by
  have hc := V3.cross_dot_self v0 v1
  rw [h0, h1] at hc
  have hself := V3.dot_self (v0.cross v1)
  have hcs := V3.dot_sq_le v0 v1
  rw [h0, h1] at hcs
  set d := v0.dot v1 with hd
  have hd1 : -1 ≤ d := by nlinarith
  have hd2 : d ≤ 1 := by nlinarith
  by_cases hband : (v0.cross v1).len < tol
  · have hlt : 1 - d ^ 2 < tol ^ 2 := by
      have := (V3.len_lt_iff ht.le).1 hband
      rw [hc] at this; linarith
    by_cases hneg : d < 0
    · -- anti-parallel
      have hw : 1 + d < tol ^ 2 := by nlinarith
      have hw0 : 0 ≤ 1 + d := by linarith
      have hsum : (v0 + v1).len ≤ 2 * tol := by
        rw [V3.len_le_iff (by positivity)]
        have e : (v0 + v1).dot (v0 + v1) = v0.dot v0 + 2 * v0.dot v1 + v1.dot v1 := by
          simp only [V3.dot, V3.add_x, V3.add_y, V3.add_z]; ring
        rw [e, h0, h1, ← hd]; nlinarith
      -- the axis used
      obtain ⟨u, hu, hperp, hbig⟩ : ∃ u : V3 ℝ, (if (v0.cross ⟨0, 0, 1⟩).len > tol then v0.cross ⟨0, 0, 1⟩
          else v0.cross ⟨0, 1, 0⟩) = u ∧ u.dot v0 = 0 ∧ (tol ^ 2 < u.dot u ∨ 1 - tol ^ 2 ≤ u.dot u) := by
        by_cases htr : (v0.cross ⟨0, 0, 1⟩).len > tol
        · refine ⟨_, if_pos htr, by simp only [V3.dot, V3.cross]; ring, Or.inl ?_⟩
          rw [V3.dot_self]; exact pow_lt_pow_left₀ htr ht.le (by norm_num)
        · refine ⟨_, if_neg htr, by simp only [V3.dot, V3.cross]; ring, Or.inr ?_⟩
          have := (V3.len_le_iff ht.le).1 (not_lt.1 htr)
          simp only [V3.dot, V3.cross] at this h0 ⊢
          nlinarith [sq_nonneg v0.x]
      have hupos : 0 < u.dot u := by
        rcases hbig with h | h
        · nlinarith
        · nlinarith
      have hn : 0 < u.dot u + (1 + d) ^ 2 := by positivity
      obtain ⟨R, hR, hrot, hq⟩ := fromQuat_perp v0 u (1 + d) h0 hperp hn.ne'
      refine ⟨R, ?_, hrot, ?_, ?_⟩
      · simp only [rotationUnit, ← hd]
        rw [if_pos hband, if_pos hneg, hu]; exact hR
      · rintro (hz | hz)
        · have hz2 : 1 - d ^ 2 = 0 := by rw [hz] at hself; rw [hc] at hself; linarith
          have hdm : d = -1 := by nlinarith
          rw [hdm] at hq
          have hq0 : (R.mulVec v0 + v0).dot (R.mulVec v0 + v0) = 0 := by
            have : (R.mulVec v0 + v0).dot (R.mulVec v0 + v0) * (u.dot u + (1 + -1) ^ 2) = 0 := by
              rw [hq]; ring
            rcases mul_eq_zero.1 this with h | h
            · exact h
            · exfalso; nlinarith
          have hs0 : (v0 + v1).dot (v0 + v1) = 0 := by
            have e : (v0 + v1).dot (v0 + v1) = v0.dot v0 + 2 * v0.dot v1 + v1.dot v1 := by
              simp only [V3.dot, V3.add_x, V3.add_y, V3.add_z]; ring
            rw [e, h0, h1, ← hd, hdm]; ring
          rw [V3.dot_self] at hq0 hs0
          have a := V3.len_eq_zero.1 (pow_eq_zero_iff (by norm_num) |>.1 hq0)
          have b := V3.len_eq_zero.1 (pow_eq_zero_iff (by norm_num) |>.1 hs0)
          rw [eq_neg_of_add_eq_zero_left a, eq_neg_of_add_eq_zero_right b]
        · exact absurd hband (not_lt.2 hz)
      · have hle : (R.mulVec v0 + v0).len ≤ 2 * tol := by
          rw [V3.len_le_iff (by positivity)]
          have hkey : 4 * (1 + d) ^ 2 ≤ (2 * tol) ^ 2 * (u.dot u + (1 + d) ^ 2) := by
            rcases hbig with h | h
            · have : (1 + d) ^ 2 ≤ (tol ^ 2) ^ 2 := pow_le_pow_left₀ hw0 hw.le 2
              nlinarith [sq_nonneg (tol * (1 + d)), mul_pos ht ht]
            · have hw' : (1 + d) ^ 2 ≤ tol ^ 2 := by
                have : 1 + d ≤ tol := by nlinarith
                exact pow_le_pow_left₀ hw0 this 2
              have h1t : 0 ≤ 1 - tol ^ 2 := by nlinarith
              nlinarith [mul_nonneg h1t (sub_nonneg.2 hw'), mul_le_mul_of_nonneg_left h (sq_nonneg tol)]
          by_contra hcon
          have := mul_lt_mul_of_pos_right (not_le.1 hcon) hn
          rw [hq] at this; linarith
        have e : R.mulVec v0 - v1 = (R.mulVec v0 + v0) + -(v0 + v1) := by abel
        rw [e]
        refine (V3.len_add_le _ _).trans ?_
        rw [V3.len_neg]; linarith
    · -- parallel
      have hw : 1 - d < tol ^ 2 := by nlinarith
      have ed : (v0 - v1).dot (v0 - v1) = 2 - 2 * d := by
        have e : (v0 - v1).dot (v0 - v1) = v0.dot v0 - 2 * v0.dot v1 + v1.dot v1 := by
          simp only [V3.dot, V3.sub_x, V3.sub_y, V3.sub_z]; ring
        rw [e, h0, h1, ← hd]; ring
      refine ⟨M3.one, ?_, M3.one_isRotation, ?_, ?_⟩
      · simp only [rotationUnit, ← hd]; rw [if_pos hband, if_neg hneg]
      · rintro (hz | hz)
        · have hz2 : 1 - d ^ 2 = 0 := by rw [hz] at hself; rw [hc] at hself; linarith
          have hdm : d = 1 := by nlinarith
          rw [M3.one_mulVec]
          rw [hdm, V3.dot_self] at ed
          have : (v0 - v1).len = 0 := pow_eq_zero_iff (by norm_num) |>.1 (ed.trans (by norm_num))
          exact sub_eq_zero.1 (V3.len_eq_zero.1 this)
        · exact absurd hband (not_lt.2 hz)
      · rw [M3.one_mulVec, V3.len_le_iff (by positivity), ed]; nlinarith
  · have hd0 : 1 + d ≠ 0 := by
      intro h
      have : d = -1 := by linarith
      rw [this] at hc
      have : (v0.cross v1).len = 0 := by
        rw [hc] at hself
        exact pow_eq_zero_iff (by norm_num) |>.1 (hself.symm.trans (by norm_num))
      rw [this] at hband; exact hband ht
    obtain ⟨R, hR, hrot, hv⟩ := fromQuat_cross v0 v1 h0 h1 hd0
    refine ⟨R, ?_, hrot, fun _ => hv, ?_⟩
    · simp only [rotationUnit, ← hd]; rw [if_neg hband]; exact hR
    · rw [hv, sub_self, V3.len_eq_zero.2 rfl]; positivity

/-- **C10.** For all non-zero inputs of three elements and every tolerance `0 < tol < 1` the function succeeds and
returns a proper rotation that takes the direction of `v0` to the direction of `v1`: exactly when the
normalised vectors are parallel, anti-parallel, or at least `tol` away from that; up to `4 tol` always. -/
theorem rotationMatrix_spec (a b : NArr ℝ) (ha : a.squeeze.shape = [3]) (hb : b.squeeze.shape = [3])
    (ha0 : vec a ≠ 0) (hb0 : vec b ≠ 0) (tol : ℝ) (ht : 0 < tol) (ht1 : tol < 1) :
    ∃ R, rotationMatrixFromNormals a b tol = .ok R ∧ R.IsRotation ∧
      (((unit (vec a)).cross (unit (vec b))).len = 0 ∨
          tol ≤ ((unit (vec a)).cross (unit (vec b))).len →
        R.mulVec (unit (vec a)) = unit (vec b)) ∧
      (R.mulVec (unit (vec a)) - unit (vec b)).len ≤ 4 * tol := by
  obtain ⟨R, h1, h2, h3, h4⟩ := rotationUnit_spec (unit (vec a)) (unit (vec b)) (V3.unit_dot ha0)
    (V3.unit_dot hb0) tol ht ht1
  refine ⟨R, ?_, h2, h3, h4⟩
  simp only [rotationMatrixFromNormals, ha, hb, ne_eq, not_true_eq_false, if_false]
  exact h1

/-- **C10.** Parallel inputs (any positive multiple) give the identity. -/
theorem rotationMatrix_parallel (v : V3 ℝ) (c : ℝ) (hv : v ≠ 0) (hc : 0 < c) (tol : ℝ) (ht : 0 < tol) :
    rotationMatrixFromNormals (arr3 v) (arr3 (c • v)) tol = .ok M3.one := by
  have hl := V3.len_pos hv
  have e : unit (c • v) = unit v := by
    have : (c • v).len = c * v.len := by rw [V3.len_smul, abs_of_pos hc]
    ext <;> simp only [unit, V3.map_x, V3.map_y, V3.map_z, this, V3.smul_x, V3.smul_y, V3.smul_z,
      smul_eq_mul] <;> field_simp
  have hself := V3.unit_dot hv
  have : rotationMatrixFromNormals (arr3 v) (arr3 (c • v)) tol =
      rotationUnit (unit v) (unit (c • v)) tol := rfl
  rw [this, e]
  have hx : (unit v).cross (unit v) = 0 := by ext <;> simp [V3.cross] <;> ring
  simp only [rotationUnit, hx]
  rw [if_pos (by rw [V3.len_eq_zero.2 rfl]; exact ht), if_neg]
  change ¬ (unit v).dot (unit v) < 0
  exact not_lt.2 (V3.dot_self_nonneg _)

/-- **C10.** Inputs that do not squeeze to three elements raise `ValueError`. -/
theorem rotationMatrix_shape (a b : NArr ℝ) (tol : ℝ)
    (h : a.squeeze.shape ≠ [3] ∨ b.squeeze.shape ≠ [3]) :
    rotationMatrixFromNormals a b tol = .error .valueError := by
  by_cases ha : a.squeeze.shape = [3]
  · have hb : b.squeeze.shape ≠ [3] := h.resolve_left (fun h => h ha)
    simp [rotationMatrixFromNormals, ha, hb]
  · simp [rotationMatrixFromNormals, ha]

/-- **C10, limit of the property.** With a tolerance of one or more no perpendicular axis is found for the anti-parallel pair
`± e_y`: scipy is handed the zero quaternion. -/
theorem rotationMatrix_large_tol_fails (tol : ℝ) (ht : 1 ≤ tol) :
    rotationMatrixFromNormals (arr3 ⟨0, 1, 0⟩) (arr3 ⟨0, -1, 0⟩) tol = .error .valueError := by
  have e : rotationMatrixFromNormals (arr3 ⟨0, 1, 0⟩) (arr3 ⟨0, -1, 0⟩) tol =
      rotationUnit (unit ⟨0, 1, 0⟩) (unit ⟨0, -1, 0⟩) tol := rfl
  have u0 : unit (⟨0, 1, 0⟩ : V3 ℝ) = ⟨0, 1, 0⟩ := by ext <;> simp [unit, V3.len]
  have u1 : unit (⟨0, -1, 0⟩ : V3 ℝ) = ⟨0, -1, 0⟩ := by ext <;> simp [unit, V3.len]
  rw [e, u0, u1]
  simp only [rotationUnit]
  rw [if_pos (by simp [V3.cross, V3.len]; linarith), if_pos (by simp [V3.dot]),
    if_neg (by simp [V3.cross, V3.len]; linarith)]
  simp [fromQuat, V3.cross, V3.dot]

/-- **C10, limit of the property.** With a non-positive tolerance anti-parallel vectors are not handled: scipy is
handed the zero quaternion. -/
theorem rotationMatrix_nonpos_tol_fails (tol : ℝ) (ht : tol ≤ 0) :
    rotationMatrixFromNormals (arr3 ⟨1, 0, 0⟩) (arr3 ⟨-1, 0, 0⟩) tol = .error .valueError := by
  have e1 : unit ⟨1, 0, 0⟩ = ⟨1, 0, 0⟩ := by ext <;> simp [unit, V3.len]
  have e2 : unit ⟨-1, 0, 0⟩ = ⟨-1, 0, 0⟩ := by ext <;> simp [unit, V3.len]
  have : rotationMatrixFromNormals (arr3 ⟨1, 0, 0⟩) (arr3 ⟨-1, 0, 0⟩) tol =
      rotationUnit (unit ⟨1, 0, 0⟩) (unit ⟨-1, 0, 0⟩) tol := rfl
  rw [this, e1, e2]
  simp [rotationUnit, V3.cross, V3.len, ht, fromQuat, V3.dot]

/-- Non-vacuity: a row vector of shape `(1, 3)` and a vector of shape `(3,)`; the default tolerance qualifies. -/
example : ((⟨[1, 3], fun _ => 1⟩ : NArr ℝ)).squeeze.shape = [3] := rfl
example (v : V3 ℝ) : (arr3 v).squeeze.shape = [3] ∧ vec (arr3 v) = v := ⟨rfl, rfl⟩
example : 0 < defaultTol ∧ defaultTol < 1 := by constructor <;> norm_num [defaultTol]

/-! ## C11 -/

/-- **C11.** `rotate_points_from_normals` keeps all distances, fixes the centre, and (exactly outside the
tolerance band) takes the ray along `n0` to the ray along `n1`. -/
theorem rotatePoints_rigid (xyz : Mat) (n0 n1 x0 : V3 ℝ) (hw : xyz.width = 3) (h0 : n0 ≠ 0)
    (h1 : n1 ≠ 0) :
    ∃ out, rotatePointsFromNormals xyz n0 n1 x0 = .ok out ∧ out.rows = xyz.rows ∧ out.width = 3 ∧
      (∀ i j, (out.row i - out.row j).len = (xyz.row i - xyz.row j).len) ∧
      (∀ i, xyz.row i = x0 → out.row i = x0) ∧
      (∀ i (t : ℝ), (((unit n0).cross (unit n1)).len = 0 ∨
          defaultTol ≤ ((unit n0).cross (unit n1)).len) →
        xyz.row i = x0 + t • unit n0 → out.row i = x0 + t • unit n1) := by
  obtain ⟨R, hR, hrot, hex, -⟩ := rotationMatrix_spec (arr3 n0) (arr3 n1) rfl rfl h0 h1 defaultTol
    (by norm_num [defaultTol]) (by norm_num [defaultTol])
  refine ⟨Mat.ofRows xyz.rows fun i => R.mulVec (xyz.row i - x0) + x0, ?_, rfl, rfl, ?_, ?_, ?_⟩
  · simp only [rotatePointsFromNormals, hR]
    simp [bind, Except.bind, hw, pure, Except.pure]
  · intro i j
    have : (R.mulVec (xyz.row i - x0) + x0) - (R.mulVec (xyz.row j - x0) + x0) =
        R.mulVec (xyz.row i - xyz.row j) := by
      rw [add_sub_add_right_eq_sub, ← M3.mulVec_sub, sub_sub_sub_cancel_right]
    change ((R.mulVec (xyz.row i - x0) + x0) - (R.mulVec (xyz.row j - x0) + x0)).len = _
    rw [this, hrot.len]
  · intro i hi
    change R.mulVec (xyz.row i - x0) + x0 = x0
    rw [hi, sub_self]
    ext <;> simp [M3.mulVec, V3.dot]
  · intro i t hband hi
    change R.mulVec (xyz.row i - x0) + x0 = x0 + t • unit n1
    rw [hi, add_sub_cancel_left, M3.mulVec_smul]
    have : R.mulVec (unit n0) = unit n1 := hex hband
    rw [this, add_comm]

/-- **C11.** Inside the tolerance band too the direction is right up to `4 tol`, with the default tolerance of 1e-20. -/
theorem rotatePoints_band (xyz : Mat) (n0 n1 x0 : V3 ℝ) (hw : xyz.width = 3) (h0 : n0 ≠ 0) (h1 : n1 ≠ 0) :
    ∃ out, rotatePointsFromNormals xyz n0 n1 x0 = .ok out ∧
      ∀ i (t : ℝ), xyz.row i = x0 + t • unit n0 → (out.row i - (x0 + t • unit n1)).len ≤ 4 * defaultTol * |t| := by
  obtain ⟨R, hR, -, -, hle⟩ := rotationMatrix_spec (arr3 n0) (arr3 n1) rfl rfl h0 h1 defaultTol
    (by norm_num [defaultTol]) (by norm_num [defaultTol])
  refine ⟨Mat.ofRows xyz.rows fun i => R.mulVec (xyz.row i - x0) + x0, ?_, ?_⟩
  · simp only [rotatePointsFromNormals, hR]
    simp [bind, Except.bind, hw, pure, Except.pure]
  · intro i t hi
    change (R.mulVec (xyz.row i - x0) + x0 - (x0 + t • unit n1)).len ≤ _
    have e : R.mulVec (xyz.row i - x0) + x0 - (x0 + t • unit n1) = t • (R.mulVec (unit n0) - unit n1) := by
      rw [hi, add_sub_cancel_left, M3.mulVec_smul, smul_sub]; abel
    have hle' : (R.mulVec (unit n0) - unit n1).len ≤ 4 * defaultTol := hle
    rw [e, V3.len_smul, mul_comm]
    exact mul_le_mul_of_nonneg_right hle' (abs_nonneg t)

/-- **C11.** Arrays that are not three wide are rejected (after the normals were accepted). -/
theorem rotatePoints_width (xyz : Mat) (n0 n1 x0 : V3 ℝ) (hw : xyz.width ≠ 3) (h0 : n0 ≠ 0)
    (h1 : n1 ≠ 0) : rotatePointsFromNormals xyz n0 n1 x0 = .error .assertionError := by
  obtain ⟨R, hR, -⟩ := rotationMatrix_spec (arr3 n0) (arr3 n1) rfl rfl h0 h1 defaultTol
    (by norm_num [defaultTol]) (by norm_num [defaultTol])
  simp only [rotatePointsFromNormals, hR]
  simp [bind, Except.bind, hw]

/-- Non-vacuity. -/
example : ∃ (m : Mat) (n0 n1 : V3 ℝ), m.width = 3 ∧ n0 ≠ 0 ∧ n1 ≠ 0 ∧
    ((unit n0).cross (unit n1)).len = 0 :=
  ⟨⟨2, 3, fun i j => i + j⟩, ⟨1, 0, 0⟩, ⟨1, 0, 0⟩, rfl, by simp [V3.ext_iff], by simp [V3.ext_iff],
    by simp [V3.cross, V3.len, unit]⟩

/-! ## C12 -/

/-- **C12.** `vector_distance` subtracts the origin from every row, and accepts exactly `N × 3` grids and
three-element origins. -/
theorem vectorDistance_spec (xyz : Mat) (o : V3 ℝ) (hw : xyz.width = 3) :
    ∃ out, vectorDistance xyz [o.x, o.y, o.z] = .ok out ∧ out.rows = xyz.rows ∧ out.width = 3 ∧
      ∀ i, out.row i = xyz.row i - o := by
  refine ⟨Mat.ofRows xyz.rows fun i => xyz.row i - o, ?_, rfl, rfl, fun _ => rfl⟩
  simp only [vectorDistance, hw, ne_eq, not_true_eq_false, if_false, List.length_cons, List.length_nil]
  rfl

theorem vectorDistance_rejects (xyz : Mat) (o : List ℝ) :
    (xyz.width ≠ 3 → vectorDistance xyz o = .error .assertionError) ∧
      (xyz.width = 3 → o.length ≠ 3 → vectorDistance xyz o = .error .exception) := by
  constructor
  · intro h; simp [vectorDistance, h]
  · intro h h'; simp [vectorDistance, h, h']

/-- **C12.** `distance` returns one number per row: the Euclidean distance of that row from the origin
argument. -/
theorem distance_spec (xyz : Mat) (o : V3 ℝ) (hw : xyz.width = 3) :
    ∃ l, distance xyz [o.x, o.y, o.z] = .ok l ∧ l.length = xyz.rows ∧
      ∀ i, i < xyz.rows → l[i]? = some (xyz.row i - o).len := by
  obtain ⟨out, h1, h2, -, h4⟩ := vectorDistance_spec xyz o hw
  refine ⟨(List.range out.rows).map (vectorMagnitude out), ?_, ?_, ?_⟩
  · simp [distance, h1, bind, Except.bind, pure, Except.pure]
  · simp [h2]
  · intro i hi
    rw [← h2] at hi
    simp [List.getElem?_map, List.getElem?_range hi, vectorMagnitude, h4]

/-- **C12.** The number `distance` returns for one point is a metric: non-negative, zero exactly at the origin
argument, symmetric, triangle inequality. -/
theorem distance_metric :
    ∃ d : V3 ℝ → V3 ℝ → ℝ,
      (∀ p q, distance (Mat.ofRows 1 fun _ => p) [q.x, q.y, q.z] = .ok [d p q]) ∧
      ∀ p q s, 0 ≤ d p q ∧ (d p q = 0 ↔ p = q) ∧ d p q = d q p ∧ d p s ≤ d p q + d q s := by
  refine ⟨fun p q => (p - q).len, fun p q => ?_, fun p q s => ⟨V3.len_nonneg _, ?_, ?_, ?_⟩⟩
  · obtain ⟨l, h1, h2, h3⟩ := distance_spec (Mat.ofRows 1 fun _ => p) q rfl
    rw [h1]
    have h30 := h3 0 (by simp [Mat.ofRows])
    congr 1
    match l, h2, h30 with
    | [a], _, h30 => simpa [Mat.ofRows, Mat.row] using h30
  · rw [V3.len_eq_zero, sub_eq_zero]
  · change (p - q).len = (q - p).len
    rw [← V3.len_neg, neg_sub]
  · have := V3.len_add_le (p - q) (q - s)
    rwa [sub_add_sub_cancel] at this

/-- **C12.** `vector_dot` returns the dot product of every row with the vector; only the first three columns
count, fewer raise. -/
theorem vectorDot_spec (xyz : Mat) (v : V3 ℝ) (hw : 3 ≤ xyz.width) :
    ∃ l, vectorDot xyz [v.x, v.y, v.z] = .ok l ∧ l.length = xyz.rows ∧
      ∀ i, i < xyz.rows → l[i]? = some ((xyz.row i).dot v) := by
  refine ⟨_, by simp only [vectorDot, not_lt.2 hw, if_false]; rfl, by simp, ?_⟩
  intro i hi
  simp [List.getElem?_map, List.getElem?_range hi, V3.dot, Mat.row, mul_comm]

theorem vectorDot_rejects (xyz : Mat) (v : List ℝ) :
    (v.length ≠ 3 → vectorDot xyz v = .error .exception) ∧
      (v.length = 3 → xyz.width < 3 → vectorDot xyz v = .error .indexError) := by
  constructor
  · intro h; simp [vectorDot, h]
  · intro h h'; simp [vectorDot, h, h']

/-- **C12.** `repeat_scalar(s, dim)` has shape `(len(s), dim)` and every row repeats its scalar. -/
theorem repeatScalar_spec (s : List ℝ) (dim : ℕ) :
    (repeatScalar s dim).rows = s.length ∧ (repeatScalar s dim).width = dim ∧
      ∀ i j (hi : i < s.length), j < dim → (repeatScalar s dim).get i j = s[i] := by
  refine ⟨by simp [repeatScalar, kron], by simp [repeatScalar, kron], ?_⟩
  intro i j hi hj
  simp [repeatScalar, kron, Nat.mod_eq_of_lt hi, hi]

/-- Non-vacuity. -/
example : ∃ m : Mat, m.width = 3 ∧ 0 < m.rows := ⟨⟨2, 3, fun _ _ => 1⟩, rfl, by norm_num⟩

end Verif.Spatial
