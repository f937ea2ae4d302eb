import Verif.Lemmas.Elastic

/-! # The stress of surface forces (helper lemmas) -/

namespace Verif.Elastic

open Real

set_option linter.unusedSimpArgs false

theorem relations {p : V3 ℝ} (h : 0 < p.len - p.z) :
    U p * p.len = 1 ∧ W p * (p.len - p.z) = 1 ∧ p.len ^ 2 = p.x ^ 2 + p.y ^ 2 + p.z ^ 2 :=
  ⟨inv_mul_cancel₀ (len_pos_of h).ne', inv_mul_cancel₀ h.ne', V3.len_sq p⟩

theorem stress_smul (lam mu k m : ℝ) (J S : M3 ℝ) (hk : k = 1 / (4 * π * mu)) (hmu : mu ≠ 0) (hl : lam + mu ≠ 0) (hm : m = mu / (lam + mu))
    (h : stress (1 - m) m J = (2 * m) • S) :
    stress lam mu (k • J) = (1 / (2 * π)) • S := by
  have e1 : lam = (lam + mu) * (1 - m) := by rw [hm]; field_simp; ring
  have e2 : mu = (lam + mu) * m := by rw [hm]; field_simp
  have e3 : stress lam mu (k • J) = (k * (lam + mu)) • stress (1 - m) m J := by
    ext <;> simp only [stress, V3.smul_x, V3.smul_y, V3.smul_z, smul_eq_mul]
    · linear_combination k * (J.x.x + J.y.y + J.z.z) * e1 + 2 * k * J.x.x * e2
    · linear_combination k * (J.x.y + J.y.x) * e2
    · linear_combination k * (J.x.z + J.z.x) * e2
    · linear_combination k * (J.y.x + J.x.y) * e2
    · linear_combination k * (J.x.x + J.y.y + J.z.z) * e1 + 2 * k * J.y.y * e2
    · linear_combination k * (J.y.z + J.z.y) * e2
    · linear_combination k * (J.z.x + J.x.z) * e2
    · linear_combination k * (J.z.y + J.y.z) * e2
    · linear_combination k * (J.x.x + J.y.y + J.z.z) * e1 + 2 * k * J.z.z * e2
  rw [e3, h]
  have e4 : k * (lam + mu) * (2 * m) = 1 / (2 * π) := by
    rw [hk, hm]; field_simp; norm_num
  rw [← e4]
  ext <;> simp <;> ring

/-- The stress of a unit force along `x`, up to the factor `1/(2π)`. -/
noncomputable def stressX (m : ℝ) (p : V3 ℝ) : M3 ℝ :=
  ⟨⟨-3 * p.x ^ 3 * U p ^ 5 + m * p.x * U p * W p ^ 2 - m * p.x * p.y ^ 2 * U p ^ 3 * W p ^ 2 - 2 * m * p.x * p.y ^ 2 * U p ^ 2 * W p ^
       3,
     -3 * p.x ^ 2 * p.y * U p ^ 5 - m * p.y * U p * W p ^ 2 + m * p.x ^ 2 * p.y * U p ^ 3 * W p ^ 2 + 2 * m * p.x ^ 2 * p.y * U p ^ 2 *
       W p ^ 3,
     -3 * p.x ^ 2 * p.z * U p ^ 5⟩,
   ⟨-3 * p.x ^ 2 * p.y * U p ^ 5 - m * p.y * U p * W p ^ 2 + m * p.x ^ 2 * p.y * U p ^ 3 * W p ^ 2 + 2 * m * p.x ^ 2 * p.y * U p ^ 2 *
       W p ^ 3,
     -3 * p.x * p.y ^ 2 * U p ^ 5 + 3 * m * p.x * U p * W p ^ 2 - m * p.x ^ 3 * U p ^ 3 * W p ^ 2 - 2 * m * p.x ^ 3 * U p ^ 2 * W p ^ 3,
     -3 * p.x * p.y * p.z * U p ^ 5⟩,
   ⟨-3 * p.x ^ 2 * p.z * U p ^ 5,
     -3 * p.x * p.y * p.z * U p ^ 5,
     -3 * p.x * p.z ^ 2 * U p ^ 5⟩⟩

theorem stress_jacX (m : ℝ) {p : V3 ℝ} (h : 0 < p.len - p.z) : stress (1 - m) m (jacX m p) = (2 * m) • stressX m p := by
  obtain ⟨r1, r2, r3⟩ := relations h
  ext <;> simp only [stress, jacX, stressX, V3.smul_x, V3.smul_y, V3.smul_z, smul_eq_mul] <;>
    generalize U p = u at * <;> generalize W p = w at * <;> generalize p.len = R at * <;> clear h <;> grind

theorem hasDiv_stressX_x (m : ℝ) {p : V3 ℝ} (h : 0 < p.len - p.z) : HasDiv (fun q => (stressX m q).x) 0 p := by
  obtain ⟨r1, r2, r3⟩ := relations h
  have hx := hasGrad_x p
  have hy := hasGrad_y p
  have hz := hasGrad_z p
  have hU := hasGrad_U h
  have hW := hasGrad_W h
  refine ⟨⟨_, _, _⟩, ⟨
      (((((((hasGrad_const (3 : ℝ) p).neg).mul (hx.pow 3)).mul (hU.pow 5)).add ((((hasGrad_const m p).mul hx).mul hU).mul (hW.pow
        2))).sub (((((hasGrad_const m p).mul hx).mul (hy.pow 2)).mul (hU.pow 3)).mul (hW.pow 2))).sub ((((((hasGrad_const (2 : ℝ)
        p).mul (hasGrad_const m p)).mul hx).mul (hy.pow 2)).mul (hU.pow 2)).mul (hW.pow 3))),
      ((((((((hasGrad_const (3 : ℝ) p).neg).mul (hx.pow 2)).mul hy).mul (hU.pow 5)).sub ((((hasGrad_const m p).mul hy).mul hU).mul
        (hW.pow 2))).add (((((hasGrad_const m p).mul (hx.pow 2)).mul hy).mul (hU.pow 3)).mul (hW.pow 2))).add ((((((hasGrad_const (2 :
        ℝ) p).mul (hasGrad_const m p)).mul (hx.pow 2)).mul hy).mul (hU.pow 2)).mul (hW.pow 3))),
      (((((hasGrad_const (3 : ℝ) p).neg).mul (hx.pow 2)).mul hz).mul (hU.pow 5))⟩, ?_⟩
  simp only [M3.trace, V3.add_x, V3.sub_x, V3.neg_x, V3.map_x, V3.zero_x, V3.add_y, V3.sub_y, V3.neg_y, V3.map_y, V3.zero_y,
    V3.add_z, V3.sub_z, V3.neg_z, V3.map_z, V3.zero_z]
  clear hx hy hz hU hW h
  generalize U p = u at *
  generalize W p = w at *
  generalize p.len = R at *
  push_cast
  grind

theorem hasDiv_stressX_y (m : ℝ) {p : V3 ℝ} (h : 0 < p.len - p.z) : HasDiv (fun q => (stressX m q).y) 0 p := by
  obtain ⟨r1, r2, r3⟩ := relations h
  have hx := hasGrad_x p
  have hy := hasGrad_y p
  have hz := hasGrad_z p
  have hU := hasGrad_U h
  have hW := hasGrad_W h
  refine ⟨⟨_, _, _⟩, ⟨
      ((((((((hasGrad_const (3 : ℝ) p).neg).mul (hx.pow 2)).mul hy).mul (hU.pow 5)).sub ((((hasGrad_const m p).mul hy).mul hU).mul
        (hW.pow 2))).add (((((hasGrad_const m p).mul (hx.pow 2)).mul hy).mul (hU.pow 3)).mul (hW.pow 2))).add ((((((hasGrad_const (2 :
        ℝ) p).mul (hasGrad_const m p)).mul (hx.pow 2)).mul hy).mul (hU.pow 2)).mul (hW.pow 3))),
      ((((((((hasGrad_const (3 : ℝ) p).neg).mul hx).mul (hy.pow 2)).mul (hU.pow 5)).add (((((hasGrad_const (3 : ℝ) p).mul
        (hasGrad_const m p)).mul hx).mul hU).mul (hW.pow 2))).sub ((((hasGrad_const m p).mul (hx.pow 3)).mul (hU.pow 3)).mul (hW.pow
        2))).sub (((((hasGrad_const (2 : ℝ) p).mul (hasGrad_const m p)).mul (hx.pow 3)).mul (hU.pow 2)).mul (hW.pow 3))),
      ((((((hasGrad_const (3 : ℝ) p).neg).mul hx).mul hy).mul hz).mul (hU.pow 5))⟩, ?_⟩
  simp only [M3.trace, V3.add_x, V3.sub_x, V3.neg_x, V3.map_x, V3.zero_x, V3.add_y, V3.sub_y, V3.neg_y, V3.map_y, V3.zero_y,
    V3.add_z, V3.sub_z, V3.neg_z, V3.map_z, V3.zero_z]
  clear hx hy hz hU hW h
  generalize U p = u at *
  generalize W p = w at *
  generalize p.len = R at *
  push_cast
  grind

theorem hasDiv_stressX_z (m : ℝ) {p : V3 ℝ} (h : 0 < p.len - p.z) : HasDiv (fun q => (stressX m q).z) 0 p := by
  obtain ⟨r1, r2, r3⟩ := relations h
  have hx := hasGrad_x p
  have hy := hasGrad_y p
  have hz := hasGrad_z p
  have hU := hasGrad_U h
  refine ⟨⟨_, _, _⟩, ⟨
      (((((hasGrad_const (3 : ℝ) p).neg).mul (hx.pow 2)).mul hz).mul (hU.pow 5)),
      ((((((hasGrad_const (3 : ℝ) p).neg).mul hx).mul hy).mul hz).mul (hU.pow 5)),
      (((((hasGrad_const (3 : ℝ) p).neg).mul hx).mul (hz.pow 2)).mul (hU.pow 5))⟩, ?_⟩
  simp only [M3.trace, V3.add_x, V3.sub_x, V3.neg_x, V3.map_x, V3.zero_x, V3.add_y, V3.sub_y, V3.neg_y, V3.map_y, V3.zero_y,
    V3.add_z, V3.sub_z, V3.neg_z, V3.map_z, V3.zero_z]
  clear hx hy hz hU h
  generalize U p = u at *
  generalize W p = w at *
  generalize p.len = R at *
  push_cast
  grind

/-- The stress of a unit force along `y`, up to the factor `1/(2π)`. -/
noncomputable def stressY (m : ℝ) (p : V3 ℝ) : M3 ℝ :=
  ⟨⟨-3 * p.x ^ 2 * p.y * U p ^ 5 + 3 * m * p.y * U p * W p ^ 2 - m * p.y ^ 3 * U p ^ 3 * W p ^ 2 - 2 * m * p.y ^ 3 * U p ^ 2 * W p ^ 3,
     -3 * p.x * p.y ^ 2 * U p ^ 5 - m * p.x * U p * W p ^ 2 + m * p.x * p.y ^ 2 * U p ^ 3 * W p ^ 2 + 2 * m * p.x * p.y ^ 2 * U p ^ 2 *
       W p ^ 3,
     -3 * p.x * p.y * p.z * U p ^ 5⟩,
   ⟨-3 * p.x * p.y ^ 2 * U p ^ 5 - m * p.x * U p * W p ^ 2 + m * p.x * p.y ^ 2 * U p ^ 3 * W p ^ 2 + 2 * m * p.x * p.y ^ 2 * U p ^ 2 *
       W p ^ 3,
     -3 * p.y ^ 3 * U p ^ 5 + m * p.y * U p * W p ^ 2 - m * p.x ^ 2 * p.y * U p ^ 3 * W p ^ 2 - 2 * m * p.x ^ 2 * p.y * U p ^ 2 * W p ^
       3,
     -3 * p.y ^ 2 * p.z * U p ^ 5⟩,
   ⟨-3 * p.x * p.y * p.z * U p ^ 5,
     -3 * p.y ^ 2 * p.z * U p ^ 5,
     -3 * p.y * p.z ^ 2 * U p ^ 5⟩⟩

theorem stress_jacY (m : ℝ) {p : V3 ℝ} (h : 0 < p.len - p.z) : stress (1 - m) m (jacY m p) = (2 * m) • stressY m p := by
  obtain ⟨r1, r2, r3⟩ := relations h
  ext <;> simp only [stress, jacY, stressY, V3.smul_x, V3.smul_y, V3.smul_z, smul_eq_mul] <;>
    generalize U p = u at * <;> generalize W p = w at * <;> generalize p.len = R at * <;> clear h <;> grind

theorem hasDiv_stressY_x (m : ℝ) {p : V3 ℝ} (h : 0 < p.len - p.z) : HasDiv (fun q => (stressY m q).x) 0 p := by
  obtain ⟨r1, r2, r3⟩ := relations h
  have hx := hasGrad_x p
  have hy := hasGrad_y p
  have hz := hasGrad_z p
  have hU := hasGrad_U h
  have hW := hasGrad_W h
  refine ⟨⟨_, _, _⟩, ⟨
      ((((((((hasGrad_const (3 : ℝ) p).neg).mul (hx.pow 2)).mul hy).mul (hU.pow 5)).add (((((hasGrad_const (3 : ℝ) p).mul
        (hasGrad_const m p)).mul hy).mul hU).mul (hW.pow 2))).sub ((((hasGrad_const m p).mul (hy.pow 3)).mul (hU.pow 3)).mul (hW.pow
        2))).sub (((((hasGrad_const (2 : ℝ) p).mul (hasGrad_const m p)).mul (hy.pow 3)).mul (hU.pow 2)).mul (hW.pow 3))),
      ((((((((hasGrad_const (3 : ℝ) p).neg).mul hx).mul (hy.pow 2)).mul (hU.pow 5)).sub ((((hasGrad_const m p).mul hx).mul hU).mul
        (hW.pow 2))).add (((((hasGrad_const m p).mul hx).mul (hy.pow 2)).mul (hU.pow 3)).mul (hW.pow 2))).add ((((((hasGrad_const (2 :
        ℝ) p).mul (hasGrad_const m p)).mul hx).mul (hy.pow 2)).mul (hU.pow 2)).mul (hW.pow 3))),
      ((((((hasGrad_const (3 : ℝ) p).neg).mul hx).mul hy).mul hz).mul (hU.pow 5))⟩, ?_⟩
  simp only [M3.trace, V3.add_x, V3.sub_x, V3.neg_x, V3.map_x, V3.zero_x, V3.add_y, V3.sub_y, V3.neg_y, V3.map_y, V3.zero_y,
    V3.add_z, V3.sub_z, V3.neg_z, V3.map_z, V3.zero_z]
  clear hx hy hz hU hW h
  generalize U p = u at *
  generalize W p = w at *
  generalize p.len = R at *
  push_cast
  grind

theorem hasDiv_stressY_y (m : ℝ) {p : V3 ℝ} (h : 0 < p.len - p.z) : HasDiv (fun q => (stressY m q).y) 0 p := by
  obtain ⟨r1, r2, r3⟩ := relations h
  have hx := hasGrad_x p
  have hy := hasGrad_y p
  have hz := hasGrad_z p
  have hU := hasGrad_U h
  have hW := hasGrad_W h
  refine ⟨⟨_, _, _⟩, ⟨
      ((((((((hasGrad_const (3 : ℝ) p).neg).mul hx).mul (hy.pow 2)).mul (hU.pow 5)).sub ((((hasGrad_const m p).mul hx).mul hU).mul
        (hW.pow 2))).add (((((hasGrad_const m p).mul hx).mul (hy.pow 2)).mul (hU.pow 3)).mul (hW.pow 2))).add ((((((hasGrad_const (2 :
        ℝ) p).mul (hasGrad_const m p)).mul hx).mul (hy.pow 2)).mul (hU.pow 2)).mul (hW.pow 3))),
      (((((((hasGrad_const (3 : ℝ) p).neg).mul (hy.pow 3)).mul (hU.pow 5)).add ((((hasGrad_const m p).mul hy).mul hU).mul (hW.pow
        2))).sub (((((hasGrad_const m p).mul (hx.pow 2)).mul hy).mul (hU.pow 3)).mul (hW.pow 2))).sub ((((((hasGrad_const (2 : ℝ)
        p).mul (hasGrad_const m p)).mul (hx.pow 2)).mul hy).mul (hU.pow 2)).mul (hW.pow 3))),
      (((((hasGrad_const (3 : ℝ) p).neg).mul (hy.pow 2)).mul hz).mul (hU.pow 5))⟩, ?_⟩
  simp only [M3.trace, V3.add_x, V3.sub_x, V3.neg_x, V3.map_x, V3.zero_x, V3.add_y, V3.sub_y, V3.neg_y, V3.map_y, V3.zero_y,
    V3.add_z, V3.sub_z, V3.neg_z, V3.map_z, V3.zero_z]
  clear hx hy hz hU hW h
  generalize U p = u at *
  generalize W p = w at *
  generalize p.len = R at *
  push_cast
  grind

theorem hasDiv_stressY_z (m : ℝ) {p : V3 ℝ} (h : 0 < p.len - p.z) : HasDiv (fun q => (stressY m q).z) 0 p := by
  obtain ⟨r1, r2, r3⟩ := relations h
  have hx := hasGrad_x p
  have hy := hasGrad_y p
  have hz := hasGrad_z p
  have hU := hasGrad_U h
  refine ⟨⟨_, _, _⟩, ⟨
      ((((((hasGrad_const (3 : ℝ) p).neg).mul hx).mul hy).mul hz).mul (hU.pow 5)),
      (((((hasGrad_const (3 : ℝ) p).neg).mul (hy.pow 2)).mul hz).mul (hU.pow 5)),
      (((((hasGrad_const (3 : ℝ) p).neg).mul hy).mul (hz.pow 2)).mul (hU.pow 5))⟩, ?_⟩
  simp only [M3.trace, V3.add_x, V3.sub_x, V3.neg_x, V3.map_x, V3.zero_x, V3.add_y, V3.sub_y, V3.neg_y, V3.map_y, V3.zero_y,
    V3.add_z, V3.sub_z, V3.neg_z, V3.map_z, V3.zero_z]
  clear hx hy hz hU h
  generalize U p = u at *
  generalize W p = w at *
  generalize p.len = R at *
  push_cast
  grind

/-- The stress of a unit force along `z`, up to the factor `1/(2π)`. -/
noncomputable def stressZ (m : ℝ) (p : V3 ℝ) : M3 ℝ :=
  ⟨⟨-3 * p.x ^ 2 * p.z * U p ^ 5 - m * U p * W p + m * p.y ^ 2 * U p ^ 3 * W p + m * p.y ^ 2 * U p ^ 2 * W p ^ 2,
     -3 * p.x * p.y * p.z * U p ^ 5 - m * p.x * p.y * U p ^ 3 * W p - m * p.x * p.y * U p ^ 2 * W p ^ 2,
     -3 * p.x * p.z ^ 2 * U p ^ 5⟩,
   ⟨-3 * p.x * p.y * p.z * U p ^ 5 - m * p.x * p.y * U p ^ 3 * W p - m * p.x * p.y * U p ^ 2 * W p ^ 2,
     -3 * p.y ^ 2 * p.z * U p ^ 5 - m * U p * W p + m * p.x ^ 2 * U p ^ 3 * W p + m * p.x ^ 2 * U p ^ 2 * W p ^ 2,
     -3 * p.y * p.z ^ 2 * U p ^ 5⟩,
   ⟨-3 * p.x * p.z ^ 2 * U p ^ 5,
     -3 * p.y * p.z ^ 2 * U p ^ 5,
     -3 * p.z ^ 3 * U p ^ 5⟩⟩

theorem stress_jacZ (m : ℝ) {p : V3 ℝ} (h : 0 < p.len - p.z) : stress (1 - m) m (jacZ m p) = (2 * m) • stressZ m p := by
  obtain ⟨r1, r2, r3⟩ := relations h
  ext <;> simp only [stress, jacZ, stressZ, V3.smul_x, V3.smul_y, V3.smul_z, smul_eq_mul] <;>
    generalize U p = u at * <;> generalize W p = w at * <;> generalize p.len = R at * <;> clear h <;> grind

theorem hasDiv_stressZ_x (m : ℝ) {p : V3 ℝ} (h : 0 < p.len - p.z) : HasDiv (fun q => (stressZ m q).x) 0 p := by
  obtain ⟨r1, r2, r3⟩ := relations h
  have hx := hasGrad_x p
  have hy := hasGrad_y p
  have hz := hasGrad_z p
  have hU := hasGrad_U h
  have hW := hasGrad_W h
  refine ⟨⟨_, _, _⟩, ⟨
      ((((((((hasGrad_const (3 : ℝ) p).neg).mul (hx.pow 2)).mul hz).mul (hU.pow 5)).sub (((hasGrad_const m p).mul hU).mul hW)).add
        ((((hasGrad_const m p).mul (hy.pow 2)).mul (hU.pow 3)).mul hW)).add ((((hasGrad_const m p).mul (hy.pow 2)).mul (hU.pow 2)).mul
        (hW.pow 2))),
      ((((((((hasGrad_const (3 : ℝ) p).neg).mul hx).mul hy).mul hz).mul (hU.pow 5)).sub (((((hasGrad_const m p).mul hx).mul hy).mul
        (hU.pow 3)).mul hW)).sub (((((hasGrad_const m p).mul hx).mul hy).mul (hU.pow 2)).mul (hW.pow 2))),
      (((((hasGrad_const (3 : ℝ) p).neg).mul hx).mul (hz.pow 2)).mul (hU.pow 5))⟩, ?_⟩
  simp only [M3.trace, V3.add_x, V3.sub_x, V3.neg_x, V3.map_x, V3.zero_x, V3.add_y, V3.sub_y, V3.neg_y, V3.map_y, V3.zero_y,
    V3.add_z, V3.sub_z, V3.neg_z, V3.map_z, V3.zero_z]
  clear hx hy hz hU hW h
  generalize U p = u at *
  generalize W p = w at *
  generalize p.len = R at *
  push_cast
  grind

theorem hasDiv_stressZ_y (m : ℝ) {p : V3 ℝ} (h : 0 < p.len - p.z) : HasDiv (fun q => (stressZ m q).y) 0 p := by
  obtain ⟨r1, r2, r3⟩ := relations h
  have hx := hasGrad_x p
  have hy := hasGrad_y p
  have hz := hasGrad_z p
  have hU := hasGrad_U h
  have hW := hasGrad_W h
  refine ⟨⟨_, _, _⟩, ⟨
      ((((((((hasGrad_const (3 : ℝ) p).neg).mul hx).mul hy).mul hz).mul (hU.pow 5)).sub (((((hasGrad_const m p).mul hx).mul hy).mul
        (hU.pow 3)).mul hW)).sub (((((hasGrad_const m p).mul hx).mul hy).mul (hU.pow 2)).mul (hW.pow 2))),
      ((((((((hasGrad_const (3 : ℝ) p).neg).mul (hy.pow 2)).mul hz).mul (hU.pow 5)).sub (((hasGrad_const m p).mul hU).mul hW)).add
        ((((hasGrad_const m p).mul (hx.pow 2)).mul (hU.pow 3)).mul hW)).add ((((hasGrad_const m p).mul (hx.pow 2)).mul (hU.pow 2)).mul
        (hW.pow 2))),
      (((((hasGrad_const (3 : ℝ) p).neg).mul hy).mul (hz.pow 2)).mul (hU.pow 5))⟩, ?_⟩
  simp only [M3.trace, V3.add_x, V3.sub_x, V3.neg_x, V3.map_x, V3.zero_x, V3.add_y, V3.sub_y, V3.neg_y, V3.map_y, V3.zero_y,
    V3.add_z, V3.sub_z, V3.neg_z, V3.map_z, V3.zero_z]
  clear hx hy hz hU hW h
  generalize U p = u at *
  generalize W p = w at *
  generalize p.len = R at *
  push_cast
  grind

theorem hasDiv_stressZ_z (m : ℝ) {p : V3 ℝ} (h : 0 < p.len - p.z) : HasDiv (fun q => (stressZ m q).z) 0 p := by
  obtain ⟨r1, r2, r3⟩ := relations h
  have hx := hasGrad_x p
  have hy := hasGrad_y p
  have hz := hasGrad_z p
  have hU := hasGrad_U h
  refine ⟨⟨_, _, _⟩, ⟨
      (((((hasGrad_const (3 : ℝ) p).neg).mul hx).mul (hz.pow 2)).mul (hU.pow 5)),
      (((((hasGrad_const (3 : ℝ) p).neg).mul hy).mul (hz.pow 2)).mul (hU.pow 5)),
      ((((hasGrad_const (3 : ℝ) p).neg).mul (hz.pow 3)).mul (hU.pow 5))⟩, ?_⟩
  simp only [M3.trace, V3.add_x, V3.sub_x, V3.neg_x, V3.map_x, V3.zero_x, V3.add_y, V3.sub_y, V3.neg_y, V3.map_y, V3.zero_y,
    V3.add_z, V3.sub_z, V3.neg_z, V3.map_z, V3.zero_z]
  clear hx hy hz hU h
  generalize U p = u at *
  generalize W p = w at *
  generalize p.len = R at *
  push_cast
  grind

end Verif.Elastic
