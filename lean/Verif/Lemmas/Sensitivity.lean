import Verif.Lemmas.FarField
import Mathlib.Tactic.FieldSimp

/-! # How much the fields of a point and of a ball differ between two places (helper lemmas) -/

namespace Verif.V3

variable {a b : V3 ℝ}

theorem inv_diff (ha : a ≠ 0) (hb : b ≠ 0) : |1 / a.len - 1 / b.len| ≤ (a - b).len / (a.len * b.len) := by
  have pa := len_pos ha
  have pb := len_pos hb
  have e : 1 / a.len - 1 / b.len = -((a.len - b.len) / (a.len * b.len)) := by field_simp; ring
  rw [e, abs_neg, abs_div, abs_of_pos (mul_pos pa pb)]
  exact div_le_div_of_nonneg_right (FarField.abs_len_sub_le a b) (mul_pos pa pb).le

/-- Inversion at the unit sphere. -/
theorem inversion (ha : a ≠ 0) (hb : b ≠ 0) : ((1 / a.len ^ 2) • a - (1 / b.len ^ 2) • b).len = (a - b).len / (a.len * b.len) := by
  have pa := len_pos ha
  have pb := len_pos hb
  have h1 := len_sq a
  have h2 := len_sq b
  have h3 := len_sq (a - b)
  have h4 := len_sq ((1 / a.len ^ 2) • a - (1 / b.len ^ 2) • b)
  rw [← sq_eq_sq₀ (len_nonneg _) (div_nonneg (len_nonneg _) (mul_pos pa pb).le), h4, div_pow, h3]
  simp only [sub_x, sub_y, sub_z, smul_x, smul_y, smul_z, smul_eq_mul]
  generalize a.len = A at *
  generalize b.len = B at *
  have e : (1 / A ^ 2 * a.x - 1 / B ^ 2 * b.x) ^ 2 + (1 / A ^ 2 * a.y - 1 / B ^ 2 * b.y) ^ 2 + (1 / A ^ 2 * a.z - 1 / B ^ 2 * b.z) ^ 2 =
      1 / A ^ 4 * (a.x ^ 2 + a.y ^ 2 + a.z ^ 2) + 1 / B ^ 4 * (b.x ^ 2 + b.y ^ 2 + b.z ^ 2) -
        2 / (A ^ 2 * B ^ 2) * (a.x * b.x + a.y * b.y + a.z * b.z) := by field_simp; ring
  have e' : (a.x - b.x) ^ 2 + (a.y - b.y) ^ 2 + (a.z - b.z) ^ 2 =
      (a.x ^ 2 + a.y ^ 2 + a.z ^ 2) + (b.x ^ 2 + b.y ^ 2 + b.z ^ 2) - 2 * (a.x * b.x + a.y * b.y + a.z * b.z) := by ring
  rw [e, e', ← h1, ← h2]
  field_simp
  ring

theorem newton_diff (ha : a ≠ 0) (hb : b ≠ 0) :
    ((1 / a.len ^ 3) • a - (1 / b.len ^ 3) • b).len ≤ (a - b).len * (1 / (a.len ^ 2 * b.len) + 1 / (a.len * b.len ^ 2)) := by
  have pa := len_pos ha
  have pb := len_pos hb
  have e : (1 / a.len ^ 3) • a - (1 / b.len ^ 3) • b =
      (1 / a.len) • ((1 / a.len ^ 2) • a - (1 / b.len ^ 2) • b) + ((1 / a.len - 1 / b.len) * (1 / b.len ^ 2)) • b := by
    ext <;> simp only [add_x, add_y, add_z, sub_x, sub_y, sub_z, smul_x, smul_y, smul_z, smul_eq_mul] <;> field_simp <;> ring
  have h1 := inv_diff ha hb
  rw [e]
  refine (len_add_le _ _).trans ?_
  rw [len_smul, len_smul, inversion ha hb, abs_mul, abs_of_pos (by positivity : 0 < 1 / a.len), abs_of_pos (by positivity : 0 < 1 / b.len ^ 2)]
  calc 1 / a.len * ((a - b).len / (a.len * b.len)) + |1 / a.len - 1 / b.len| * (1 / b.len ^ 2) * b.len ≤
        1 / a.len * ((a - b).len / (a.len * b.len)) + (a - b).len / (a.len * b.len) * (1 / b.len ^ 2) * b.len := by gcongr
    _ = _ := by field_simp

/-- The field of a ball, up to the factor, inside at `a` and outside at `b`. -/
theorem ball_mixed {R : ℝ} (hR : 0 < R) (ha : a.len ≤ R) (hb : R ≤ b.len) :
    ((1 / R ^ 3) • a - (1 / b.len ^ 3) • b).len ≤ 2 / R ^ 3 * (a - b).len := by
  have pb := hR.trans_le hb
  have pa := len_nonneg a
  have h1 := len_sq a
  have h2 := len_sq b
  have h3 := len_sq (a - b)
  have h4 := len_sq ((1 / R ^ 3) • a - (1 / b.len ^ 3) • b)
  have hd := dot_le_len a b
  rw [← sq_le_sq₀ (len_nonneg _) (mul_nonneg (by positivity) (len_nonneg _)), h4, mul_pow, h3]
  simp only [sub_x, sub_y, sub_z, smul_x, smul_y, smul_z, smul_eq_mul, dot] at hd ⊢
  generalize a.len = A at *
  generalize b.len = B at *
  have e : (1 / R ^ 3 * a.x - 1 / B ^ 3 * b.x) ^ 2 + (1 / R ^ 3 * a.y - 1 / B ^ 3 * b.y) ^ 2 + (1 / R ^ 3 * a.z - 1 / B ^ 3 * b.z) ^ 2 =
      1 / R ^ 6 * (a.x ^ 2 + a.y ^ 2 + a.z ^ 2) + 1 / B ^ 6 * (b.x ^ 2 + b.y ^ 2 + b.z ^ 2) -
        2 / (R ^ 3 * B ^ 3) * (a.x * b.x + a.y * b.y + a.z * b.z) := by field_simp; ring
  have e' : (a.x - b.x) ^ 2 + (a.y - b.y) ^ 2 + (a.z - b.z) ^ 2 =
      (a.x ^ 2 + a.y ^ 2 + a.z ^ 2) + (b.x ^ 2 + b.y ^ 2 + b.z ^ 2) - 2 * (a.x * b.x + a.y * b.y + a.z * b.z) := by ring
  rw [e, e', ← h1, ← h2]
  generalize a.x * b.x + a.y * b.y + a.z * b.z = d at *
  obtain ⟨w, hw⟩ : ∃ w, w = R ^ 3 / B ^ 2 := ⟨_, rfl⟩
  have hw0 : 0 < w := by rw [hw]; positivity
  have hwR : w ≤ R := by
    rw [hw, div_le_iff₀ (by positivity)]
    nlinarith [mul_le_mul hb hb hR.le pb.le]
  have hamgm : 3 * R ≤ 2 * B + w := by
    have : 0 ≤ (B - R) ^ 2 * (2 * B + R) / B ^ 2 := by positivity
    have e2 : (B - R) ^ 2 * (2 * B + R) / B ^ 2 = 2 * B + w - 3 * R := by rw [hw]; field_simp; ring
    linarith
  have hsq : (A - w) ^ 2 ≤ (2 * (B - A)) ^ 2 := sq_le_sq' (by linarith) (by linarith)
  have k : (2 / R ^ 3) ^ 2 * (A ^ 2 + B ^ 2 - 2 * d) - (1 / R ^ 6 * A ^ 2 + 1 / B ^ 6 * B ^ 2 - 2 / (R ^ 3 * B ^ 3) * d) =
      ((2 * (B - A)) ^ 2 - (A - w) ^ 2) / R ^ 6 + (A * B - d) * (8 / R ^ 6 - 2 / (R ^ 3 * B ^ 3)) := by
    rw [hw]; field_simp; ring
  have c : 2 / (R ^ 3 * B ^ 3) ≤ 8 / R ^ 6 := by
    rw [div_le_div_iff₀ (by positivity) (by positivity)]
    have h6 : R ^ 6 = R ^ 3 * R ^ 3 := by ring
    have h7 : R ^ 3 * R ^ 3 ≤ R ^ 3 * B ^ 3 := by gcongr
    have h8 : 0 ≤ R ^ 3 * R ^ 3 := by positivity
    rw [h6]
    linarith
  have t1 : 0 ≤ ((2 * (B - A)) ^ 2 - (A - w) ^ 2) / R ^ 6 := div_nonneg (by linarith) (by positivity)
  have t2 : 0 ≤ (A * B - d) * (8 / R ^ 6 - 2 / (R ^ 3 * B ^ 3)) := mul_nonneg (by linarith) (by linarith)
  linarith

/-- The field of a ball, up to the factor, at any two places. -/
theorem ball_diff {R : ℝ} (hR : 0 < R) (a b : V3 ℝ) :
    ((1 / max a.len R ^ 3) • a - (1 / max b.len R ^ 3) • b).len ≤ 2 / R ^ 3 * (a - b).len := by
  have out : ∀ {v : V3 ℝ}, R ≤ v.len → v ≠ 0 := fun {v} h e => by
    rw [e, len_eq_zero.2 rfl] at h
    linarith
  rcases le_total a.len R with ha | ha <;> rcases le_total b.len R with hb | hb
  · rw [max_eq_right ha, max_eq_right hb]
    have e : (1 / R ^ 3) • a - (1 / R ^ 3) • b = (1 / R ^ 3) • (a - b) := by module
    rw [e, len_smul, abs_of_pos (by positivity)]
    exact mul_le_mul_of_nonneg_right (div_le_div_of_nonneg_right (by norm_num) (by positivity)) (len_nonneg _)
  · rw [max_eq_right ha, max_eq_left hb]
    exact ball_mixed hR ha hb
  · rw [max_eq_left ha, max_eq_right hb, ← len_neg, neg_sub, ← len_neg (a - b), neg_sub]
    exact ball_mixed hR hb ha
  · rw [max_eq_left ha, max_eq_left hb]
    refine (newton_diff (out ha) (out hb)).trans ?_
    rw [mul_comm]
    refine mul_le_mul_of_nonneg_right ?_ (len_nonneg _)
    have h1 : 1 / (a.len ^ 2 * b.len) ≤ 1 / R ^ 3 := by
      refine one_div_le_one_div_of_le (by positivity) ?_
      rw [show R ^ 3 = R ^ 2 * R by ring]
      gcongr
    have h2 : 1 / (a.len * b.len ^ 2) ≤ 1 / R ^ 3 := by
      refine one_div_le_one_div_of_le (by positivity) ?_
      rw [show R ^ 3 = R * R ^ 2 by ring]
      have := hR.trans_le ha
      gcongr
    calc _ ≤ 1 / R ^ 3 + 1 / R ^ 3 := add_le_add h1 h2
      _ = _ := by ring

end Verif.V3
