import Verif.Model.Spatial

/-! # Quaternions and rotations (helper lemmas) -/

namespace Verif

namespace V3

/-- `v · v` is the squared length. -/
theorem dot_self (v : V3 ℝ) : v.dot v = v.len ^ 2 := by
  rw [len_sq]; simp only [dot]; ring

theorem dot_self_nonneg (v : V3 ℝ) : 0 ≤ v.dot v := by rw [dot_self]; positivity

theorem dot_comm (a b : V3 ℝ) : a.dot b = b.dot a := by simp only [dot]; ring

theorem len_smul (c : ℝ) (v : V3 ℝ) : (c • v).len = |c| * v.len := by
  rw [len, len, ← Real.sqrt_sq_eq_abs, ← Real.sqrt_mul (sq_nonneg c)]
  congr 1
  simp only [smul_x, smul_y, smul_z, smul_eq_mul]; ring

theorem len_neg (v : V3 ℝ) : (-v).len = v.len := by
  rw [len, len]; congr 1; simp

theorem len_le_iff {v : V3 ℝ} {c : ℝ} (hc : 0 ≤ c) : v.len ≤ c ↔ v.dot v ≤ c ^ 2 := by
  rw [dot_self]
  constructor
  · intro h; exact pow_le_pow_left₀ (len_nonneg v) h 2
  · intro h; exact le_of_sq_le_sq h hc

theorem len_lt_iff {v : V3 ℝ} {c : ℝ} (hc : 0 ≤ c) : v.len < c ↔ v.dot v < c ^ 2 := by
  rw [dot_self]
  constructor
  · intro h; exact pow_lt_pow_left₀ h (len_nonneg v) (by norm_num)
  · intro h; exact lt_of_pow_lt_pow_left₀ 2 hc h

/-- Cauchy–Schwarz. -/
theorem dot_sq_le (a b : V3 ℝ) : (a.dot b) ^ 2 ≤ a.dot a * b.dot b := by
  simp only [dot]
  nlinarith [sq_nonneg (a.x * b.y - a.y * b.x), sq_nonneg (a.y * b.z - a.z * b.y),
    sq_nonneg (a.x * b.z - a.z * b.x)]

theorem dot_le_len (a b : V3 ℝ) : a.dot b ≤ a.len * b.len := by
  have h := dot_sq_le a b
  rw [dot_self, dot_self, ← mul_pow] at h
  exact le_of_sq_le_sq h (mul_nonneg (len_nonneg a) (len_nonneg b))

theorem len_add_le (a b : V3 ℝ) : (a + b).len ≤ a.len + b.len := by
  rw [len_le_iff (add_nonneg (len_nonneg a) (len_nonneg b))]
  have h := dot_le_len a b
  have e : (a + b).dot (a + b) = a.dot a + 2 * a.dot b + b.dot b := by
    simp only [dot, add_x, add_y, add_z]; ring
  rw [e, dot_self, dot_self]; nlinarith

/-- Lagrange: `|a × b|² = |a|²|b|² - (a·b)²`. -/
theorem cross_dot_self (a b : V3 ℝ) :
    (a.cross b).dot (a.cross b) = a.dot a * b.dot b - (a.dot b) ^ 2 := by
  simp only [dot, cross]; ring

/-- Dividing a non-zero vector by its length gives a unit vector. -/
theorem unit_dot {v : V3 ℝ} (h : v ≠ 0) : (v.map (· / v.len)).dot (v.map (· / v.len)) = 1 := by
  have hl := (len_pos h).ne'
  have e : (v.map (· / v.len)).dot (v.map (· / v.len)) = v.dot v / v.len ^ 2 := by
    simp only [dot, map_x, map_y, map_z]; field_simp
  rw [e, dot_self]; field_simp

end V3

namespace M3

theorem mulVec_smul (m : M3 ℝ) (c : ℝ) (v : V3 ℝ) : m.mulVec (c • v) = c • m.mulVec v := by
  ext <;> simp [mulVec, V3.dot] <;> ring

theorem mulVec_add (m : M3 ℝ) (v w : V3 ℝ) : m.mulVec (v + w) = m.mulVec v + m.mulVec w := by
  ext <;> simp [mulVec, V3.dot] <;> ring

theorem mulVec_sub (m : M3 ℝ) (v w : V3 ℝ) : m.mulVec (v - w) = m.mulVec v - m.mulVec w := by
  ext <;> simp [mulVec, V3.dot] <;> ring

/-- The columns of a rotation are orthonormal. -/
theorem IsRotation.cols {m : M3 ℝ} (h : m.IsRotation) :
    m.x.x ^ 2 + m.y.x ^ 2 + m.z.x ^ 2 = 1 ∧ m.x.y ^ 2 + m.y.y ^ 2 + m.z.y ^ 2 = 1 ∧
    m.x.z ^ 2 + m.y.z ^ 2 + m.z.z ^ 2 = 1 ∧ m.x.x * m.x.y + m.y.x * m.y.y + m.z.x * m.z.y = 0 ∧
    m.x.x * m.x.z + m.y.x * m.y.z + m.z.x * m.z.z = 0 ∧
    m.x.y * m.x.z + m.y.y * m.y.z + m.z.y * m.z.z = 0 := by
  obtain ⟨h, -⟩ := h
  have hx := congrArg V3.x h
  have hy := congrArg V3.y h
  have hz := congrArg V3.z h
  simp only [mul, mulVec, transpose, one, V3.dot, V3.mk.injEq] at hx hy hz
  refine ⟨?_, ?_, ?_, ?_, ?_, ?_⟩
  · linarith [hx.1]
  · linarith [hy.2.1]
  · linarith [hz.2.2]
  · linarith [hx.2.1]
  · linarith [hx.2.2]
  · linarith [hy.2.2]

/-- Rotations preserve dot products. -/
theorem IsRotation.dot {m : M3 ℝ} (h : m.IsRotation) (v w : V3 ℝ) :
    (m.mulVec v).dot (m.mulVec w) = v.dot w := by
  obtain ⟨h1, h2, h3, h4, h5, h6⟩ := h.cols
  simp only [mulVec, V3.dot]
  linear_combination v.x * w.x * h1 + v.y * w.y * h2 + v.z * w.z * h3 +
    (v.x * w.y + v.y * w.x) * h4 + (v.x * w.z + v.z * w.x) * h5 + (v.y * w.z + v.z * w.y) * h6

theorem IsRotation.len {m : M3 ℝ} (h : m.IsRotation) (v : V3 ℝ) : (m.mulVec v).len = v.len := by
  have e := h.dot v v
  rw [V3.dot_self, V3.dot_self] at e
  exact (pow_left_inj₀ (V3.len_nonneg _) (V3.len_nonneg _) (by norm_num)).1 e

/-- The transpose of a rotation undoes it. -/
theorem IsRotation.transpose_mulVec {m : M3 ℝ} (h : m.IsRotation) (v : V3 ℝ) :
    m.transpose.mulVec (m.mulVec v) = v := by
  obtain ⟨h1, h2, h3, h4, h5, h6⟩ := h.cols
  ext <;> simp only [mulVec, transpose, V3.dot]
  · linear_combination v.x * h1 + v.y * h4 + v.z * h5
  · linear_combination v.x * h4 + v.y * h2 + v.z * h6
  · linear_combination v.x * h5 + v.y * h6 + v.z * h3

theorem one_isRotation : (one : M3 ℝ).IsRotation := by
  constructor
  · ext <;> simp [mul, mulVec, transpose, one, V3.dot]
  · simp [det, one, V3.dot]

theorem one_mulVec (v : V3 ℝ) : (one : M3 ℝ).mulVec v = v := by
  ext <;> simp [mulVec, one, V3.dot]

end M3

namespace Spatial

/-- scipy's quaternion constructor gives a proper rotation, acting by the quaternion sandwich formula. -/
theorem fromQuat_spec (u : V3 ℝ) (w : ℝ) (h : u.dot u + w ^ 2 ≠ 0) :
    ∃ R, fromQuat u w = .ok R ∧ R.IsRotation ∧ ∀ v, (u.dot u + w ^ 2) • R.mulVec v =
      (w ^ 2 - u.dot u) • v + (2 * u.dot v) • u + (2 * w) • u.cross v := by
  have e : u.x ^ 2 + u.y ^ 2 + u.z ^ 2 + w ^ 2 = u.dot u + w ^ 2 := by simp only [V3.dot]; ring
  have hpos : 0 < u.dot u + w ^ 2 := lt_of_le_of_ne (by nlinarith [V3.dot_self_nonneg u]) h.symm
  set n := Real.sqrt (u.x ^ 2 + u.y ^ 2 + u.z ^ 2 + w ^ 2) with hn
  have hn2 : n ^ 2 = u.x ^ 2 + u.y ^ 2 + u.z ^ 2 + w ^ 2 := Real.sq_sqrt (by positivity)
  have hn0 : n ≠ 0 := by
    intro h0; rw [h0, e] at hn2; exact h (by linarith)
  refine ⟨_, by simp only [fromQuat, ← hn]; rw [if_neg hn0], ?_, ?_⟩
  · have hs : (u.x / n) ^ 2 + (u.y / n) ^ 2 + (u.z / n) ^ 2 + (w / n) ^ 2 = 1 := by
      field_simp; linarith
    generalize u.x / n = x at hs ⊢
    generalize u.y / n = y at hs ⊢
    generalize u.z / n = z at hs ⊢
    generalize w / n = w at hs ⊢
    constructor
    · ext <;> simp only [M3.mul, M3.mulVec, M3.transpose, M3.one, V3.dot]
      · linear_combination (x ^ 2 + y ^ 2 + z ^ 2 + w ^ 2 + 1) * hs
      · ring
      · ring
      · ring
      · linear_combination (x ^ 2 + y ^ 2 + z ^ 2 + w ^ 2 + 1) * hs
      · ring
      · ring
      · ring
      · linear_combination (x ^ 2 + y ^ 2 + z ^ 2 + w ^ 2 + 1) * hs
    · simp only [M3.det, V3.dot, V3.cross]
      linear_combination ((x ^ 2 + y ^ 2 + z ^ 2 + w ^ 2) ^ 2 + (x ^ 2 + y ^ 2 + z ^ 2 + w ^ 2) + 1) * hs
  · intro v
    rw [← e, ← hn2]
    ext <;> simp only [M3.mulVec, V3.dot, V3.cross, V3.smul_x, V3.smul_y, V3.smul_z, V3.add_x, V3.add_y,
      V3.add_z, smul_eq_mul] <;> field_simp <;> ring

/-- The construction for unit vectors that are not anti-parallel. -/
theorem fromQuat_cross (v0 v1 : V3 ℝ) (h0 : v0.dot v0 = 1) (h1 : v1.dot v1 = 1)
    (hd : 1 + v0.dot v1 ≠ 0) :
    ∃ R, fromQuat (v0.cross v1) (1 + v0.dot v1) = .ok R ∧ R.IsRotation ∧ R.mulVec v0 = v1 := by
  have hc := V3.cross_dot_self v0 v1
  rw [h0, h1] at hc
  set d := v0.dot v1 with hd'
  have e : (v0.cross v1).dot (v0.cross v1) + (1 + d) ^ 2 = 2 * (1 + d) := by rw [hc]; ring
  obtain ⟨R, hR, hrot, hv⟩ := fromQuat_spec (v0.cross v1) (1 + d) (by rw [e]; simpa using hd)
  refine ⟨R, hR, hrot, ?_⟩
  have h := hv v0
  rw [e, hc] at h
  have hperp : (v0.cross v1).dot v0 = 0 := by simp only [V3.dot, V3.cross]; ring
  have htrip : (v0.cross v1).cross v0 = v1 - d • v0 := by
    have hx := h0
    simp only [V3.dot] at hx
    ext <;> simp only [V3.cross, V3.sub_x, V3.sub_y, V3.sub_z, V3.smul_x, V3.smul_y, V3.smul_z,
      smul_eq_mul, hd', V3.dot]
    · linear_combination v1.x * hx
    · linear_combination v1.y * hx
    · linear_combination v1.z * hx
  rw [hperp, htrip] at h
  have hne : (2 * (1 + d)) ≠ 0 := by simpa using hd
  have h' : (2 * (1 + d)) • R.mulVec v0 = (2 * (1 + d)) • v1 := by
    rw [h]
    ext <;> simp <;> ring
  have := congrArg (fun q => (2 * (1 + d))⁻¹ • q) h'
  simp only [smul_smul, inv_mul_cancel₀ hne, one_smul] at this
  exact this

/-- The construction with a substitute axis `u` perpendicular to `v0`: the image of `v0` is close to `-v0`. -/
theorem fromQuat_perp (v0 u : V3 ℝ) (w : ℝ) (h0 : v0.dot v0 = 1) (hu : u.dot v0 = 0)
    (hne : u.dot u + w ^ 2 ≠ 0) :
    ∃ R, fromQuat u w = .ok R ∧ R.IsRotation ∧
      (R.mulVec v0 + v0).dot (R.mulVec v0 + v0) * (u.dot u + w ^ 2) = 4 * w ^ 2 := by
  obtain ⟨R, hR, hrot, hv⟩ := fromQuat_spec u w hne
  refine ⟨R, hR, hrot, ?_⟩
  have h := hv v0
  rw [hu] at h
  set n := u.dot u + w ^ 2 with hn
  have e1 : n • (R.mulVec v0 + v0) = (2 * w ^ 2) • v0 + (2 * w) • u.cross v0 := by
    rw [smul_add, h, hn]
    ext <;> simp <;> ring
  have e2 : (n • (R.mulVec v0 + v0)).dot (n • (R.mulVec v0 + v0)) =
      n ^ 2 * (R.mulVec v0 + v0).dot (R.mulVec v0 + v0) := by
    simp only [V3.dot, V3.smul_x, V3.smul_y, V3.smul_z, smul_eq_mul]; ring
  have e3 : ((2 * w ^ 2) • v0 + (2 * w) • u.cross v0).dot ((2 * w ^ 2) • v0 + (2 * w) • u.cross v0) =
      4 * w ^ 4 * v0.dot v0 + 4 * w ^ 2 * (u.cross v0).dot (u.cross v0) := by
    simp only [V3.dot, V3.cross, V3.smul_x, V3.smul_y, V3.smul_z, V3.add_x, V3.add_y, V3.add_z, smul_eq_mul]
    ring
  rw [e1, e3, V3.cross_dot_self, h0, hu] at e2
  have : n * ((R.mulVec v0 + v0).dot (R.mulVec v0 + v0) * n) = n * (4 * w ^ 2) := by
    rw [hn] at e2 ⊢; linear_combination -e2
  exact mul_left_cancel₀ hne this

end Spatial

end Verif
