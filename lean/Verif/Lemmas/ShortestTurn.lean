import Verif.Props.Rotation
import Verif.Lemmas.Motion

/-! # Shortest rotations (helper lemmas) -/

namespace Verif

namespace M3

/-- Every entry of a rotation is its own cofactor. -/
theorem IsRotation.cofactors {m : M3 ℝ} (h : m.IsRotation) :
    (m.x.x = m.y.y * m.z.z - m.y.z * m.z.y ∧ m.x.y = m.y.z * m.z.x - m.y.x * m.z.z ∧
      m.x.z = m.y.x * m.z.y - m.y.y * m.z.x) ∧
    (m.y.x = m.z.y * m.x.z - m.z.z * m.x.y ∧ m.y.y = m.z.z * m.x.x - m.z.x * m.x.z ∧
      m.y.z = m.z.x * m.x.y - m.z.y * m.x.x) ∧
    (m.z.x = m.x.y * m.y.z - m.x.z * m.y.y ∧ m.z.y = m.x.z * m.y.x - m.x.x * m.y.z ∧
      m.z.z = m.x.x * m.y.y - m.x.y * m.y.x) := by
  obtain ⟨h1, h2, h3, h4, h5, h6⟩ := h.cols
  have hd := h.2
  simp only [det, V3.dot, V3.cross] at hd
  have key : ∀ a b c d e f p q r : ℝ, a ^ 2 + d ^ 2 + p ^ 2 = 1 → b ^ 2 + e ^ 2 + q ^ 2 = 1 → c ^ 2 + f ^ 2 + r ^ 2 = 1 →
      a * b + d * e + p * q = 0 → a * c + d * f + p * r = 0 → b * c + e * f + q * r = 0 →
      a * (e * r - f * q) + b * (f * p - d * r) + c * (d * q - e * p) = 1 →
      (a = e * r - f * q ∧ b = f * p - d * r ∧ c = d * q - e * p) := by
    intro a b c d e f p q r g1 g2 g3 g4 g5 g6 g7
    refine ⟨?_, ?_, ?_⟩ <;> grind
  exact ⟨key _ _ _ _ _ _ _ _ _ h1 h2 h3 h4 h5 h6 hd,
    key m.y.x m.y.y m.y.z m.z.x m.z.y m.z.z m.x.x m.x.y m.x.z (by linarith) (by linarith) (by linarith)
      (by linarith) (by linarith) (by linarith) (by linarith),
    key m.z.x m.z.y m.z.z m.x.x m.x.y m.x.z m.y.x m.y.y m.y.z (by linarith) (by linarith) (by linarith)
      (by linarith) (by linarith) (by linarith) (by linarith)⟩

/-- A symmetric matrix whose square is a non-negative multiple of itself is positive semidefinite. -/
theorem form_nonneg (A B C D E F t x y z : ℝ) (ht3 : t ≤ 3)
    (e1 : A ^ 2 + D ^ 2 + E ^ 2 = (3 - t) * A) (e2 : D ^ 2 + B ^ 2 + F ^ 2 = (3 - t) * B)
    (e3 : E ^ 2 + F ^ 2 + C ^ 2 = (3 - t) * C) (e4 : A * D + D * B + E * F = (3 - t) * D)
    (e5 : A * E + D * F + E * C = (3 - t) * E) (e6 : D * E + B * F + F * C = (3 - t) * F) :
    0 ≤ A * x ^ 2 + B * y ^ 2 + C * z ^ 2 + 2 * D * x * y + 2 * E * x * z + 2 * F * y * z := by
  have hs : (3 - t) * (A * x ^ 2 + B * y ^ 2 + C * z ^ 2 + 2 * D * x * y + 2 * E * x * z + 2 * F * y * z) =
      (A * x + D * y + E * z) ^ 2 + (D * x + B * y + F * z) ^ 2 + (E * x + F * y + C * z) ^ 2 := by
    linear_combination -x ^ 2 * e1 - y ^ 2 * e2 - z ^ 2 * e3 - 2 * x * y * e4 - 2 * x * z * e5 - 2 * y * z * e6
  rcases eq_or_lt_of_le ht3 with h3 | h3
  · rw [h3] at e1 e2 e3
    have A0 : A = 0 := pow_eq_zero_iff two_ne_zero |>.1 (by linarith [sq_nonneg A, sq_nonneg D, sq_nonneg E])
    have D0 : D = 0 := pow_eq_zero_iff two_ne_zero |>.1 (by linarith [sq_nonneg A, sq_nonneg D, sq_nonneg E])
    have E0 : E = 0 := pow_eq_zero_iff two_ne_zero |>.1 (by linarith [sq_nonneg A, sq_nonneg D, sq_nonneg E])
    have B0 : B = 0 := pow_eq_zero_iff two_ne_zero |>.1 (by linarith [sq_nonneg B, sq_nonneg D, sq_nonneg F])
    have F0 : F = 0 := pow_eq_zero_iff two_ne_zero |>.1 (by linarith [sq_nonneg B, sq_nonneg D, sq_nonneg F])
    have C0 : C = 0 := pow_eq_zero_iff two_ne_zero |>.1 (by linarith [sq_nonneg C, sq_nonneg E, sq_nonneg F])
    rw [A0, B0, C0, D0, E0, F0]; simp
  · refine nonneg_of_mul_nonneg_right (a := 3 - t) ?_ (by linarith)
    rw [hs]; positivity

/-- A rotation turns every direction by at most its own angle: `trace ≤ 1 + 2 a·(m a)`. -/
theorem IsRotation.trace_le {m : M3 ℝ} (h : m.IsRotation) (a : V3 ℝ) (ha : a.dot a = 1) :
    m.trace ≤ 1 + 2 * a.dot (m.mulVec a) := by
  obtain ⟨r1, r2, r3, r4, r5, r6⟩ := h.rows
  obtain ⟨c1, c2, c3, c4, c5, c6⟩ := h.cols
  obtain ⟨⟨k1, k2, k3⟩, ⟨l1, l2, l3⟩, ⟨n1, n2, n3⟩⟩ := h.cofactors
  simp only [V3.dot, mulVec, trace] at ha ⊢
  set t := m.x.x + m.y.y + m.z.z with ht
  have ht3 : t ≤ 3 := by
    nlinarith [sq_nonneg (m.x.x - 1), sq_nonneg (m.y.y - 1), sq_nonneg (m.z.z - 1), sq_nonneg (m.x.y),
      sq_nonneg (m.x.z), sq_nonneg (m.y.x), sq_nonneg (m.y.z), sq_nonneg (m.z.x), sq_nonneg (m.z.y)]
  -- the rank-one symmetric matrix `m + mᵀ - (t - 1)`
  set A := 2 * m.x.x - (t - 1) with hA
  set B := 2 * m.y.y - (t - 1) with hB
  set C := 2 * m.z.z - (t - 1) with hC
  set D := m.x.y + m.y.x with hD
  set E := m.x.z + m.z.x with hE
  set F := m.y.z + m.z.y with hF
  have e1 : A ^ 2 + D ^ 2 + E ^ 2 = (3 - t) * A := by grind
  have e2 : D ^ 2 + B ^ 2 + F ^ 2 = (3 - t) * B := by grind
  have e3 : E ^ 2 + F ^ 2 + C ^ 2 = (3 - t) * C := by grind
  have e4 : A * D + D * B + E * F = (3 - t) * D := by grind
  have e5 : A * E + D * F + E * C = (3 - t) * E := by grind
  have e6 : D * E + B * F + F * C = (3 - t) * F := by grind
  have hq : 1 + 2 * (a.x * (m.x.x * a.x + m.x.y * a.y + m.x.z * a.z) + a.y * (m.y.x * a.x + m.y.y * a.y + m.y.z * a.z) +
      a.z * (m.z.x * a.x + m.z.y * a.y + m.z.z * a.z)) - t =
      A * a.x ^ 2 + B * a.y ^ 2 + C * a.z ^ 2 + 2 * D * a.x * a.y + 2 * E * a.x * a.z + 2 * F * a.y * a.z := by
    rw [hA, hB, hC, hD, hE, hF]; linear_combination (t - 1) * ha
  have := form_nonneg A B C D E F t a.x a.y a.z ht3 e1 e2 e3 e4 e5 e6
  linarith

theorem IsRotation.cross {m : M3 ℝ} (h : m.IsRotation) (v w : V3 ℝ) :
    (m.mulVec v).cross (m.mulVec w) = m.mulVec (v.cross w) := by
  have := congrArg m.mulVec (M3.transpose_cross m v w)
  rw [h.mulVec_transpose, h.2, one_smul] at this
  exact this

/-- A matrix is known from what it does. -/
theorem ext_mulVec {m n : M3 ℝ} (h : ∀ v, m.mulVec v = n.mulVec v) : m = n := by
  have h1 := h ⟨1, 0, 0⟩
  have h2 := h ⟨0, 1, 0⟩
  have h3 := h ⟨0, 0, 1⟩
  simp only [mulVec, V3.dot, V3.mk.injEq] at h1 h2 h3
  ext <;> linarith [h1.1, h1.2.1, h1.2.2, h2.1, h2.2.1, h2.2.2, h3.1, h3.2.1, h3.2.2]

end M3

namespace Spatial

/-- Outside the band: Rodrigues' formula. -/
theorem rotationUnit_turn (a b : V3 ℝ) (ha : a.dot a = 1) (hb : b.dot b = 1) (tol : ℝ) (ht : 0 < tol)
    (hband : tol ≤ (a.cross b).len) :
    0 < 1 + a.dot b ∧ ∃ R, rotationUnit a b tol = .ok R ∧ R.IsRotation ∧ R.mulVec a = b ∧
      ∀ p, R.mulVec p = a.dot b • p + ((a.cross b).dot p / (1 + a.dot b)) • a.cross b + (a.cross b).cross p := by
  have hc := V3.cross_dot_self a b
  rw [ha, hb] at hc
  have hself := V3.dot_self (a.cross b)
  have hpos : 0 < (a.cross b).len := lt_of_lt_of_le ht hband
  have hd : 0 < 1 + a.dot b := by
    have h1 : 0 < 1 - (a.dot b) ^ 2 := by
      have : 0 < (a.cross b).len ^ 2 := by positivity
      rw [← hself, hc] at this; linarith
    nlinarith
  obtain ⟨R, hR, hrot, hv⟩ := fromQuat_cross a b ha hb hd.ne'
  have e : (a.cross b).dot (a.cross b) + (1 + a.dot b) ^ 2 = 2 * (1 + a.dot b) := by rw [hc]; ring
  obtain ⟨R', hR', -, hp⟩ := fromQuat_spec (a.cross b) (1 + a.dot b) (by rw [e]; positivity)
  have hRR : R' = R := by rw [hR] at hR'; exact (Except.ok.inj hR').symm
  rw [hRR] at hp
  refine ⟨hd, R, ?_, hrot, hv, fun p => ?_⟩
  · simp only [rotationUnit]; rw [if_neg (not_lt.2 hband)]; exact hR
  · have h := hp p
    rw [e, hc] at h
    have hx := congrArg V3.x h
    have hy := congrArg V3.y h
    have hz := congrArg V3.z h
    simp only [V3.smul_x, V3.smul_y, V3.smul_z, V3.add_x, V3.add_y, V3.add_z, smul_eq_mul] at hx hy hz
    have h2 := hd.ne'
    ext <;> simp only [V3.smul_x, V3.smul_y, V3.smul_z, V3.add_x, V3.add_y, V3.add_z, smul_eq_mul] <;>
      apply mul_left_cancel₀ (mul_ne_zero two_ne_zero h2)
    · rw [hx]; field_simp; ring
    · rw [hy]; field_simp; ring
    · rw [hz]; field_simp; ring

/-- Opposite directions: half a turn about an axis that depends on the first vector only, and up to sign on neither order. -/
theorem rotationUnit_opposite (a : V3 ℝ) (ha : a.dot a = 1) (tol : ℝ) (ht : 0 < tol) (ht1 : tol < 1) :
    ∃ u : V3 ℝ, u.dot a = 0 ∧ 0 < u.dot u ∧ ∃ R, rotationUnit a (-a) tol = .ok R ∧ rotationUnit (-a) a tol = .ok R ∧
      R.IsRotation ∧ R.mulVec a = -a ∧ ∀ p, R.mulVec p = (2 * (u.dot p / u.dot u)) • u - p := by
  have key : ∀ s : V3 ℝ, s.dot s = 1 → ∃ u : V3 ℝ, (if (s.cross ⟨0, 0, 1⟩).len > tol then s.cross ⟨0, 0, 1⟩
      else s.cross ⟨0, 1, 0⟩) = u ∧ u.dot s = 0 ∧ 0 < u.dot u := by
    intro s hs
    by_cases htr : (s.cross ⟨0, 0, 1⟩).len > tol
    · refine ⟨_, if_pos htr, by simp only [V3.dot, V3.cross]; ring, ?_⟩
      rw [V3.dot_self]
      have : 0 < (s.cross ⟨0, 0, 1⟩).len := ht.trans htr
      positivity
    · refine ⟨_, if_neg htr, by simp only [V3.dot, V3.cross]; ring, ?_⟩
      have := (V3.len_le_iff ht.le).1 (not_lt.1 htr)
      simp only [V3.dot, V3.cross] at this hs ⊢
      nlinarith [sq_nonneg s.x]
  obtain ⟨u, hu, hperp, hpos⟩ := key a ha
  have hu' : (if ((-a).cross ⟨0, 0, 1⟩).len > tol then (-a).cross ⟨0, 0, 1⟩ else (-a).cross ⟨0, 1, 0⟩) = -u := by
    have n1 : (-a).cross ⟨0, 0, 1⟩ = -(a.cross ⟨0, 0, 1⟩) := by ext <;> simp [V3.cross]
    have n2 : (-a).cross ⟨0, 1, 0⟩ = -(a.cross ⟨0, 1, 0⟩) := by ext <;> simp [V3.cross]
    rw [n1, n2, V3.len_neg, ← hu]
    split_ifs <;> rfl
  have hx1 : a.cross (-a) = 0 := by ext <;> simp [V3.cross] <;> ring
  have hx2 : (-a).cross a = 0 := by ext <;> simp [V3.cross] <;> ring
  have hd1 : a.dot (-a) = -1 := by simp only [V3.dot, V3.neg_x, V3.neg_y, V3.neg_z] at ha ⊢; linarith
  have hd2 : (-a).dot a = -1 := by rw [V3.dot_comm, hd1]
  have hlt : (0 : V3 ℝ).len < tol := by rw [V3.len_eq_zero.2 rfl]; exact ht
  obtain ⟨R, hR, hrot, hp⟩ := fromQuat_spec u 0 (by simpa using hpos.ne')
  have hq : fromQuat (-u) 0 = fromQuat u 0 := by
    simp only [fromQuat, V3.neg_x, V3.neg_y, V3.neg_z, neg_sq, neg_div, mul_neg, neg_mul, neg_neg, zero_div, mul_zero]
  have hform : ∀ p, R.mulVec p = (2 * (u.dot p / u.dot u)) • u - p := by
    intro p
    have h := hp p
    have hne := hpos.ne'
    have hx := congrArg V3.x h
    have hy := congrArg V3.y h
    have hz := congrArg V3.z h
    simp only [V3.smul_x, V3.smul_y, V3.smul_z, V3.add_x, V3.add_y, V3.add_z, smul_eq_mul] at hx hy hz
    ext <;> simp only [V3.smul_x, V3.smul_y, V3.smul_z, V3.sub_x, V3.sub_y, V3.sub_z, smul_eq_mul] <;>
      apply mul_left_cancel₀ hne <;> field_simp
    · linear_combination hx
    · linear_combination hy
    · linear_combination hz
  refine ⟨u, hperp, hpos, R, ?_, ?_, hrot, ?_, hform⟩
  · simp only [rotationUnit, hx1, hd1]
    rw [if_pos hlt, if_pos (by norm_num), hu]; simpa using hR
  · simp only [rotationUnit, hx2, hd2]
    rw [if_pos hlt, if_pos (by norm_num), hu']
    have : (1 : ℝ) + -1 = 0 := by norm_num
    rw [this, hq, hR]
  · rw [hform, hperp]; simp

/-- Equal directions: nothing is turned. -/
theorem rotationUnit_same (a : V3 ℝ) (tol : ℝ) (ht : 0 < tol) : rotationUnit a a tol = .ok M3.one := by
  have hx : a.cross a = 0 := by ext <;> simp [V3.cross] <;> ring
  simp only [rotationUnit, hx]
  rw [if_pos (by rw [V3.len_eq_zero.2 rfl]; exact ht), if_neg (not_lt.2 (V3.dot_self_nonneg _))]

/-- Unit vectors without cross product are equal or opposite. -/
theorem same_or_opposite (a b : V3 ℝ) (ha : a.dot a = 1) (hb : b.dot b = 1) (h : (a.cross b).len = 0) : b = a ∨ b = -a := by
  have hc := V3.cross_dot_self a b
  rw [ha, hb, V3.dot_self, h] at hc
  have hd : (a.dot b - 1) * (a.dot b + 1) = 0 := by nlinarith
  rcases mul_eq_zero.1 hd with h | h
  · left
    have e : (b - a).dot (b - a) = 0 := by
      have : (b - a).dot (b - a) = b.dot b - 2 * a.dot b + a.dot a := by
        simp only [V3.dot, V3.sub_x, V3.sub_y, V3.sub_z]; ring
      rw [this, ha, hb]; linarith
    rw [V3.dot_self] at e
    exact sub_eq_zero.1 (V3.len_eq_zero.1 (pow_eq_zero_iff (by norm_num) |>.1 e))
  · right
    have e : (b + a).dot (b + a) = 0 := by
      have : (b + a).dot (b + a) = b.dot b + 2 * a.dot b + a.dot a := by
        simp only [V3.dot, V3.add_x, V3.add_y, V3.add_z]; ring
      rw [this, ha, hb]; linarith
    rw [V3.dot_self] at e
    exact eq_neg_of_add_eq_zero_left (V3.len_eq_zero.1 (pow_eq_zero_iff (by norm_num) |>.1 e))

end Spatial

end Verif
