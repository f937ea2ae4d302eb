import Verif.Lemmas.Rotation

/-! # How the kernels `1/|d|`, `d/|d|³` and `3 d dᵀ/|d|⁵ - I/|d|³` change when `d` moves a little -/

namespace Verif.FarField

open V3

theorem abs_x_le (v : V3 ℝ) : |v.x| ≤ v.len := by
  rw [← Real.sqrt_sq_eq_abs]; exact Real.sqrt_le_sqrt (by nlinarith [sq_nonneg v.y, sq_nonneg v.z])
theorem abs_y_le (v : V3 ℝ) : |v.y| ≤ v.len := by
  rw [← Real.sqrt_sq_eq_abs]; exact Real.sqrt_le_sqrt (by nlinarith [sq_nonneg v.x, sq_nonneg v.z])
theorem abs_z_le (v : V3 ℝ) : |v.z| ≤ v.len := by
  rw [← Real.sqrt_sq_eq_abs]; exact Real.sqrt_le_sqrt (by nlinarith [sq_nonneg v.x, sq_nonneg v.y])

theorem abs_len_sub_le (a b : V3 ℝ) : |a.len - b.len| ≤ (a - b).len := by
  rw [abs_le]
  constructor
  · have := len_add_le a (-(a - b))
    rw [len_neg, show a + -(a - b) = b by abel] at this
    linarith
  · have := len_add_le b (a - b)
    rw [show b + (a - b) = a by abel] at this
    linarith

variable {a b : V3 ℝ} {m δ : ℝ}

/-- Two displacements at least `m` long that differ by at most `δ`. -/
structure Near (a b : V3 ℝ) (m δ : ℝ) : Prop where
  pos : 0 < m
  left : m ≤ a.len
  right : m ≤ b.len
  diff : (a - b).len ≤ δ

namespace Near

theorem apos (h : Near a b m δ) : 0 < a.len := h.pos.trans_le h.left
theorem bpos (h : Near a b m δ) : 0 < b.len := h.pos.trans_le h.right
theorem dnn (h : Near a b m δ) : 0 ≤ δ := (len_nonneg _).trans h.diff

theorem inv_a (h : Near a b m δ) : 1 / a.len ≤ 1 / m := one_div_le_one_div_of_le h.pos h.left
theorem inv_b (h : Near a b m δ) : 1 / b.len ≤ 1 / m := one_div_le_one_div_of_le h.pos h.right

theorem inv_sub (h : Near a b m δ) : |1 / a.len - 1 / b.len| ≤ δ * (1 / a.len) * (1 / b.len) := by
  have ha := h.apos
  have hb := h.bpos
  have e : 1 / a.len - 1 / b.len = (b.len - a.len) * (1 / a.len) * (1 / b.len) := by field_simp
  rw [e, abs_mul, abs_mul, abs_of_pos (one_div_pos.2 ha), abs_of_pos (one_div_pos.2 hb), abs_sub_comm]
  have := (abs_len_sub_le a b).trans h.diff
  gcongr

theorem inv_sub' (h : Near a b m δ) : |1 / a.len - 1 / b.len| ≤ δ * (1 / m) ^ 2 := by
  have ha := one_div_pos.2 h.apos
  have hb := one_div_pos.2 h.bpos
  have hm := one_div_pos.2 h.pos
  refine h.inv_sub.trans ?_
  rw [mul_assoc, sq]
  exact mul_le_mul_of_nonneg_left (mul_le_mul h.inv_a h.inv_b hb.le hm.le) h.dnn

theorem inv_sq_sub (h : Near a b m δ) : |(1 / a.len) ^ 2 - (1 / b.len) ^ 2| ≤ 2 * δ * (1 / m) ^ 3 := by
  have ha := one_div_pos.2 h.apos
  have hb := one_div_pos.2 h.bpos
  have e : (1 / a.len) ^ 2 - (1 / b.len) ^ 2 = (1 / a.len - 1 / b.len) * (1 / a.len + 1 / b.len) := by ring
  rw [e, abs_mul, abs_of_pos (by positivity : 0 < 1 / a.len + 1 / b.len)]
  calc _ ≤ δ * (1 / m) ^ 2 * (1 / m + 1 / m) :=
        mul_le_mul h.inv_sub' (add_le_add h.inv_a h.inv_b) (by positivity) (mul_nonneg h.dnn (by positivity))
    _ = _ := by ring

theorem inv_cube_sub (h : Near a b m δ) : |(1 / a.len) ^ 3 - (1 / b.len) ^ 3| ≤ 3 * δ * (1 / m) ^ 4 := by
  have ha := one_div_pos.2 h.apos
  have hb := one_div_pos.2 h.bpos
  have hm := one_div_pos.2 h.pos
  have e : (1 / a.len) ^ 3 - (1 / b.len) ^ 3 =
      (1 / a.len - 1 / b.len) * ((1 / a.len) ^ 2 + 1 / a.len * (1 / b.len) + (1 / b.len) ^ 2) := by ring
  rw [e, abs_mul, abs_of_pos (by positivity : 0 < (1 / a.len) ^ 2 + 1 / a.len * (1 / b.len) + (1 / b.len) ^ 2)]
  have h1 : (1 / a.len) ^ 2 + 1 / a.len * (1 / b.len) + (1 / b.len) ^ 2 ≤ 3 * (1 / m) ^ 2 := by
    have h2 := pow_le_pow_left₀ ha.le h.inv_a 2
    have h3 := pow_le_pow_left₀ hb.le h.inv_b 2
    have h4 := mul_le_mul h.inv_a h.inv_b hb.le hm.le
    nlinarith
  calc _ ≤ δ * (1 / m) ^ 2 * (3 * (1 / m) ^ 2) := mul_le_mul h.inv_sub' h1 (by positivity) (mul_nonneg h.dnn (by positivity))
    _ = _ := by ring

/-- A component of the unit vector. -/
theorem unit_sub (h : Near a b m δ) {u v : ℝ} (hu : |u| ≤ a.len) (huv : |u - v| ≤ δ) :
    |u * (1 / a.len) - v * (1 / b.len)| ≤ 2 * δ * (1 / m) := by
  have ha := one_div_pos.2 h.apos
  have hb := one_div_pos.2 h.bpos
  have e : u * (1 / a.len) - v * (1 / b.len) = (u - v) * (1 / b.len) + u * (1 / a.len - 1 / b.len) := by ring
  have h1 : |(u - v) * (1 / b.len)| ≤ δ * (1 / m) := by
    rw [abs_mul, abs_of_pos hb]
    exact mul_le_mul huv h.inv_b hb.le h.dnn
  have h2 : |u * (1 / a.len - 1 / b.len)| ≤ δ * (1 / m) := by
    rw [abs_mul]
    calc |u| * |1 / a.len - 1 / b.len| ≤ a.len * (δ * (1 / a.len) * (1 / b.len)) := mul_le_mul hu h.inv_sub (abs_nonneg _) (len_nonneg _)
      _ = δ * (1 / b.len) := by field_simp [h.apos.ne']
      _ ≤ δ * (1 / m) := mul_le_mul_of_nonneg_left h.inv_b h.dnn
  rw [e]
  refine (abs_add_le _ _).trans ?_
  linarith

theorem unit_le (h : Near a b m δ) {u : ℝ} (hu : |u| ≤ a.len) : |u * (1 / a.len)| ≤ 1 := by
  rw [abs_mul, abs_of_pos (one_div_pos.2 h.apos), mul_one_div, div_le_one h.apos]
  exact hu

theorem symm (h : Near a b m δ) : Near b a m δ :=
  ⟨h.pos, h.right, h.left, by rw [← neg_sub, len_neg]; exact h.diff⟩

/-- A component of `d/|d|³`. -/
theorem newton_sub (h : Near a b m δ) {u v : ℝ} (hu : |u| ≤ a.len) (hv : |v| ≤ b.len) (huv : |u - v| ≤ δ) :
    |u / a.len ^ 3 - v / b.len ^ 3| ≤ 4 * δ / m ^ 3 := by
  have ha := one_div_pos.2 h.apos
  have hm := one_div_pos.2 h.pos
  have e : u / a.len ^ 3 - v / b.len ^ 3 = (u * (1 / a.len) - v * (1 / b.len)) * (1 / a.len) ^ 2 +
      v * (1 / b.len) * ((1 / a.len) ^ 2 - (1 / b.len) ^ 2) := by
    have := h.apos.ne'
    have := h.bpos.ne'
    field_simp
    ring
  have h1 : |(u * (1 / a.len) - v * (1 / b.len)) * (1 / a.len) ^ 2| ≤ 2 * δ * (1 / m) * (1 / m) ^ 2 := by
    rw [abs_mul, abs_of_pos (by positivity : 0 < (1 / a.len) ^ 2)]
    exact mul_le_mul (h.unit_sub hu huv) (pow_le_pow_left₀ ha.le h.inv_a 2) (by positivity) (by have := h.dnn; positivity)
  have h2 : |v * (1 / b.len) * ((1 / a.len) ^ 2 - (1 / b.len) ^ 2)| ≤ 1 * (2 * δ * (1 / m) ^ 3) := by
    rw [abs_mul]
    exact mul_le_mul (h.symm.unit_le hv) h.inv_sq_sub (abs_nonneg _) zero_le_one
  rw [e]
  refine (abs_add_le _ _).trans ((add_le_add h1 h2).trans (le_of_eq ?_))
  field_simp
  ring

/-- An entry of `3 d dᵀ/|d|⁵`. -/
theorem outer_sub (h : Near a b m δ) {u v s t : ℝ} (hu : |u| ≤ a.len) (hv : |v| ≤ b.len) (huv : |u - v| ≤ δ)
    (hs : |s| ≤ a.len) (ht : |t| ≤ b.len) (hst : |s - t| ≤ δ) :
    |3 * u * s / a.len ^ 5 - 3 * v * t / b.len ^ 5| ≤ 21 * δ / m ^ 4 := by
  have ha := one_div_pos.2 h.apos
  have hm := one_div_pos.2 h.pos
  have e : 3 * u * s / a.len ^ 5 - 3 * v * t / b.len ^ 5 =
      3 * (((u * (1 / a.len) - v * (1 / b.len)) * (s * (1 / a.len)) + v * (1 / b.len) * (s * (1 / a.len) - t * (1 / b.len))) *
        (1 / a.len) ^ 3 + v * (1 / b.len) * (t * (1 / b.len)) * ((1 / a.len) ^ 3 - (1 / b.len) ^ 3)) := by
    have := h.apos.ne'
    have := h.bpos.ne'
    field_simp
    ring
  have hd := h.dnn
  have h1 : |(u * (1 / a.len) - v * (1 / b.len)) * (s * (1 / a.len))| ≤ 2 * δ * (1 / m) * 1 := by
    rw [abs_mul]
    exact mul_le_mul (h.unit_sub hu huv) (h.unit_le hs) (abs_nonneg _) (by positivity)
  have h2 : |v * (1 / b.len) * (s * (1 / a.len) - t * (1 / b.len))| ≤ 1 * (2 * δ * (1 / m)) := by
    rw [abs_mul]
    exact mul_le_mul (h.symm.unit_le hv) (h.unit_sub hs hst) (abs_nonneg _) zero_le_one
  have h3 := (abs_add_le _ _).trans (add_le_add h1 h2)
  have h4 : |((u * (1 / a.len) - v * (1 / b.len)) * (s * (1 / a.len)) + v * (1 / b.len) * (s * (1 / a.len) - t * (1 / b.len))) *
      (1 / a.len) ^ 3| ≤ (2 * δ * (1 / m) * 1 + 1 * (2 * δ * (1 / m))) * (1 / m) ^ 3 := by
    rw [abs_mul, abs_of_pos (by positivity : 0 < (1 / a.len) ^ 3)]
    exact mul_le_mul h3 (pow_le_pow_left₀ ha.le h.inv_a 3) (by positivity) (by positivity)
  have h5 : |v * (1 / b.len) * (t * (1 / b.len)) * ((1 / a.len) ^ 3 - (1 / b.len) ^ 3)| ≤ 1 * 1 * (3 * δ * (1 / m) ^ 4) := by
    rw [abs_mul, abs_mul]
    exact mul_le_mul (mul_le_mul (h.symm.unit_le hv) (h.symm.unit_le ht) (abs_nonneg _) zero_le_one) h.inv_cube_sub (abs_nonneg _)
      (by norm_num)
  rw [e, abs_mul, abs_of_pos (by norm_num : (0 : ℝ) < 3)]
  have h6 := (abs_add_le _ _).trans (add_le_add h4 h5)
  refine (mul_le_mul_of_nonneg_left h6 (by norm_num : (0 : ℝ) ≤ 3)).trans (le_of_eq ?_)
  field_simp
  ring

theorem cube_sub (h : Near a b m δ) : |1 / a.len ^ 3 - 1 / b.len ^ 3| ≤ 3 * δ / m ^ 4 := by
  have := h.inv_cube_sub
  have e : 3 * δ * (1 / m) ^ 4 = 3 * δ / m ^ 4 := by field_simp
  rw [← e]
  simpa only [one_div, inv_pow] using this

/-- `1/|d|` up to second order. -/
theorem second_order (h : Near a b m δ) : |1 / a.len - 1 / b.len + b.dot (a - b) / b.len ^ 3| ≤ 2 * δ ^ 2 / m ^ 3 := by
  have ha := h.apos
  have hb := h.bpos
  have hd := h.dnn
  have hdot : b.dot (a - b) = (a.len ^ 2 - b.len ^ 2 - (a - b).len ^ 2) / 2 := by
    rw [len_sq, len_sq, len_sq]
    simp only [dot, sub_x, sub_y, sub_z]
    ring
  have e : 1 / a.len - 1 / b.len + b.dot (a - b) / b.len ^ 3 =
      (a.len - b.len) ^ 2 * (1 / a.len * (1 / b.len) ^ 2 + (1 / b.len) ^ 3 / 2) - (a - b).len ^ 2 * (1 / b.len) ^ 3 / 2 := by
    rw [hdot]
    generalize (a - b).len = q
    generalize a.len = A at *
    generalize b.len = B at *
    field_simp
    ring
  have hA := one_div_pos.2 ha
  have hB := one_div_pos.2 hb
  have hm := one_div_pos.2 h.pos
  have hsq : (a.len - b.len) ^ 2 ≤ δ ^ 2 := by
    rw [← sq_abs]
    exact pow_le_pow_left₀ (abs_nonneg _) ((abs_len_sub_le a b).trans h.diff) 2
  have hq : (a - b).len ^ 2 ≤ δ ^ 2 := pow_le_pow_left₀ (len_nonneg _) h.diff 2
  have c1 : 1 / a.len * (1 / b.len) ^ 2 ≤ 1 / m * (1 / m) ^ 2 :=
    mul_le_mul h.inv_a (pow_le_pow_left₀ hB.le h.inv_b 2) (by positivity) hm.le
  have c2 : (1 / b.len) ^ 3 ≤ (1 / m) ^ 3 := pow_le_pow_left₀ hB.le h.inv_b 3
  have t1 : (a.len - b.len) ^ 2 * (1 / a.len * (1 / b.len) ^ 2 + (1 / b.len) ^ 3 / 2) ≤ δ ^ 2 * (1 / m * (1 / m) ^ 2 + (1 / m) ^ 3 / 2) :=
    mul_le_mul hsq (by linarith) (by positivity) (by positivity)
  have t2 : (a - b).len ^ 2 * (1 / b.len) ^ 3 ≤ δ ^ 2 * (1 / m) ^ 3 := mul_le_mul hq c2 (by positivity) (by positivity)
  have n1 : 0 ≤ (a.len - b.len) ^ 2 * (1 / a.len * (1 / b.len) ^ 2 + (1 / b.len) ^ 3 / 2) := by positivity
  have n2 : 0 ≤ (a - b).len ^ 2 * (1 / b.len) ^ 3 := by positivity
  have e2 : 2 * δ ^ 2 / m ^ 3 = 2 * (δ ^ 2 * (1 / m) ^ 3) := by field_simp
  have e3 : δ ^ 2 * (1 / m * (1 / m) ^ 2 + (1 / m) ^ 3 / 2) = 3 / 2 * (δ ^ 2 * (1 / m) ^ 3) := by ring
  rw [e, abs_le, e2]
  have n3 : 0 ≤ δ ^ 2 * (1 / m) ^ 3 := by positivity
  constructor <;> linarith

end Near

end Verif.FarField
