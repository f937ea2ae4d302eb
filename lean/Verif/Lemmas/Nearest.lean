import Verif.Spec.Nearest

/-!
# Rounding to 53 digits
-/

namespace Verif

theorem roundEven_cases (y : ℝ) : (roundEven y : ℝ) = ⌊y⌋ ∧ Int.fract y ≤ 1 / 2 ∨ (roundEven y : ℝ) = ⌊y⌋ + 1 ∧ 1 / 2 ≤ Int.fract y := by
  unfold roundEven
  split_ifs with h1 h2 h3
  · exact .inl ⟨rfl, h1.le⟩
  · exact .inr ⟨by push_cast; rfl, h2.le⟩
  · exact .inl ⟨rfl, not_lt.1 h2⟩
  · exact .inr ⟨by push_cast; rfl, not_lt.1 h1⟩

theorem roundEven_near (y : ℝ) : |(roundEven y : ℝ) - y| ≤ 1 / 2 := by
  have := Int.floor_add_fract y
  have h0 := Int.fract_nonneg y
  have h1 := Int.fract_lt_one y
  rw [abs_le]
  rcases roundEven_cases y with ⟨e, h⟩ | ⟨e, h⟩ <;> rw [e] <;> constructor <;> linarith

theorem roundEven_eq {y : ℝ} {n : ℤ} (h : |y - n| < 1 / 2) : roundEven y = n := by
  have h1 := roundEven_near y
  have : |((roundEven y - n : ℤ) : ℝ)| < 1 := by
    push_cast
    calc |(roundEven y : ℝ) - n| = |((roundEven y : ℝ) - y) + (y - n)| := by ring_nf
      _ ≤ |(roundEven y : ℝ) - y| + |y - n| := abs_add_le _ _
      _ < 1 := by linarith
  rw [← Int.cast_abs] at this
  have h2 : |roundEven y - n| < 1 := by exact_mod_cast this
  have := abs_lt.1 h2
  omega

theorem roundEven_int (n : ℤ) : roundEven n = n := roundEven_eq (by simp)

theorem roundEven_half {y : ℝ} {n : ℤ} (h : y = n + 1 / 2) : roundEven y = if Even n then n else n + 1 := by
  have hf : ⌊y⌋ = n := Int.floor_eq_iff.2 ⟨by linarith, by linarith⟩
  have hr : Int.fract y = 1 / 2 := by rw [← Int.self_sub_floor, hf, h]; ring
  unfold roundEven
  rw [hr, hf]
  simp

theorem half_or_near (y : ℝ) : (∃ n : ℤ, y = n + 1 / 2) ∨ ∃ n : ℤ, |y - n| < 1 / 2 := by
  have h := Int.floor_add_fract y
  have h0 := Int.fract_nonneg y
  have h1 := Int.fract_lt_one y
  rcases lt_trichotomy (Int.fract y) (1 / 2) with hl | he | hg
  · exact .inr ⟨⌊y⌋, by rw [abs_lt]; constructor <;> linarith⟩
  · exact .inl ⟨⌊y⌋, by linarith⟩
  · exact .inr ⟨⌊y⌋ + 1, by push_cast; rw [abs_lt]; constructor <;> linarith⟩

theorem roundEven_neg (y : ℝ) : roundEven (-y) = -roundEven y := by
  rcases half_or_near y with ⟨n, hn⟩ | ⟨n, hn⟩
  · have h2 : -y = ((-n - 1 : ℤ) : ℝ) + 1 / 2 := by push_cast; linarith
    rw [roundEven_half hn, roundEven_half h2]
    by_cases he : Even n
    · rw [if_pos he, if_neg (by rw [Int.even_sub_one, not_not]; exact even_neg.2 he)]
      ring
    · rw [if_neg he, if_pos (by rw [Int.even_sub_one]; exact fun k => he (even_neg.1 k))]
      ring
  · rw [roundEven_eq hn, roundEven_eq (n := -n)]
    push_cast
    rw [show -y - -(n : ℝ) = -(y - n) by ring, abs_neg]
    exact hn

theorem roundEven_mono : Monotone roundEven := fun a b hab => by
  rcases half_or_near a with ⟨n, hn⟩ | ⟨n, hn⟩
  · rcases hab.eq_or_lt with rfl | hlt
    · exact le_rfl
    have h1 : roundEven a ≤ n + 1 := by rw [roundEven_half hn]; split_ifs <;> omega
    have h2 := abs_le.1 (roundEven_near b)
    have : (n : ℝ) < roundEven b := by linarith
    have : n < roundEven b := by exact_mod_cast this
    omega
  · rw [roundEven_eq hn]
    by_contra hlt
    push Not at hlt
    have h1 := abs_lt.1 hn
    have h2 := abs_le.1 (roundEven_near b)
    have h3 : roundEven b + 1 ≤ n := hlt
    have h4 : (roundEven b : ℝ) + 1 ≤ n := by exact_mod_cast h3
    linarith

theorem ulp_pos (x : ℝ) : 0 < ulp x := zpow_pos (by norm_num) _

theorem ulp_neg (x : ℝ) : ulp (-x) = ulp x := by rw [ulp, ulp, abs_neg]

theorem nearest_neg (x : ℝ) : nearest (-x) = -nearest x := by
  rw [nearest, nearest, ulp_neg, neg_div, roundEven_neg]
  push_cast
  ring

theorem nearest_zero : nearest 0 = 0 := by
  have := roundEven_int 0
  rw [Int.cast_zero] at this
  rw [nearest, zero_div, this]
  simp

theorem ulp_le {x : ℝ} (hx : x ≠ 0) : 2 ^ 52 * ulp x ≤ |x| := by
  have h := Int.zpow_log_le_self (b := 2) (r := |x|) (by norm_num) (abs_pos.2 hx)
  rw [ulp, zpow_sub₀ (by norm_num)]
  push_cast at h
  have : (2 : ℝ) ^ 52 * (2 ^ Int.log 2 |x| / 2 ^ (52 : ℤ)) = 2 ^ Int.log 2 |x| := by
    rw [show ((2 : ℝ) ^ (52 : ℤ)) = 2 ^ 52 by norm_cast]
    field_simp
  rw [this]
  exact h

theorem lt_ulp (x : ℝ) : |x| < 2 ^ 53 * ulp x := by
  have h := Int.lt_zpow_succ_log_self (b := 2) (by norm_num) |x|
  rw [ulp, zpow_sub₀ (by norm_num)]
  push_cast at h
  rw [zpow_add_one₀ (by norm_num)] at h
  have : (2 : ℝ) ^ 53 * (2 ^ Int.log 2 |x| / 2 ^ (52 : ℤ)) = 2 ^ Int.log 2 |x| * 2 := by
    rw [show ((2 : ℝ) ^ (52 : ℤ)) = 2 ^ 52 by norm_cast]
    field_simp
  rw [this]
  exact h

theorem nearest_err (x : ℝ) : |nearest x - x| ≤ 1 / 2 ^ 53 * |x| := by
  rcases eq_or_ne x 0 with rfl | hx
  · simp [nearest_zero]
  have hu := ulp_pos x
  have h1 := roundEven_near (x / ulp x)
  have e : nearest x - x = ((roundEven (x / ulp x) : ℝ) - x / ulp x) * ulp x := by
    rw [nearest, sub_mul, div_mul_cancel₀ _ hu.ne']
  rw [e, abs_mul, abs_of_pos hu]
  have h2 := ulp_le hx
  calc |(roundEven (x / ulp x) : ℝ) - x / ulp x| * ulp x ≤ 1 / 2 * ulp x := by gcongr
    _ = 1 / 2 ^ 53 * (2 ^ 52 * ulp x) := by ring
    _ ≤ 1 / 2 ^ 53 * |x| := by gcongr

theorem nearest_nonneg {x : ℝ} (h : 0 ≤ x) : 0 ≤ nearest x := by
  have := roundEven_mono (show (0 : ℝ) ≤ x / ulp x from div_nonneg h (ulp_pos x).le)
  have h0 := roundEven_int 0
  rw [Int.cast_zero] at h0
  rw [h0] at this
  exact mul_nonneg (by exact_mod_cast this) (ulp_pos x).le

theorem nearest_mono_pos {x y : ℝ} (hx : 0 < x) (hxy : x ≤ y) : nearest x ≤ nearest y := by
  have hy := hx.trans_le hxy
  have hl : Int.log 2 x ≤ Int.log 2 y := Int.log_mono_right hx hxy
  rcases hl.eq_or_lt with he | hlt
  · have hu : ulp x = ulp y := by rw [ulp, ulp, abs_of_pos hx, abs_of_pos hy, he]
    rw [nearest, nearest, hu]
    have := roundEven_mono (show x / ulp y ≤ y / ulp y from div_le_div_of_nonneg_right hxy (ulp_pos y).le)
    exact mul_le_mul_of_nonneg_right (by exact_mod_cast this) (ulp_pos y).le
  · have hu : 2 * ulp x ≤ ulp y := by
      rw [ulp, ulp, abs_of_pos hx, abs_of_pos hy, mul_comm, ← zpow_add_one₀ (by norm_num)]
      exact zpow_le_zpow_right₀ (by norm_num) (by omega)
    have h1 : nearest x ≤ 2 ^ 53 * ulp x := by
      have hlt := lt_ulp x
      rw [abs_of_pos hx] at hlt
      have := roundEven_mono (show x / ulp x ≤ ((2 ^ 53 : ℤ) : ℝ) by
        push_cast
        exact (div_le_iff₀ (ulp_pos x)).2 (by norm_num at hlt ⊢; exact hlt.le))
      rw [roundEven_int] at this
      have h : (roundEven (x / ulp x) : ℝ) ≤ 2 ^ 53 := by exact_mod_cast this
      exact mul_le_mul_of_nonneg_right h (ulp_pos x).le
    have h2 : 2 ^ 52 * ulp y ≤ nearest y := by
      have hle := ulp_le hy.ne'
      rw [abs_of_pos hy] at hle
      have := roundEven_mono (show ((2 ^ 52 : ℤ) : ℝ) ≤ y / ulp y by
        push_cast
        exact (le_div_iff₀ (ulp_pos y)).2 (by norm_num at hle ⊢; exact hle))
      rw [roundEven_int] at this
      have h : (2 : ℝ) ^ 52 ≤ roundEven (y / ulp y) := by exact_mod_cast this
      exact mul_le_mul_of_nonneg_right h (ulp_pos y).le
    linarith

theorem nearest_mono : Monotone nearest := fun x y hxy => by
  rcases lt_trichotomy x 0 with hx | rfl | hx
  · rcases le_or_gt 0 y with hy | hy
    · have := nearest_nonneg (x := -x) (by linarith)
      rw [nearest_neg] at this
      linarith [nearest_nonneg hy]
    · have := nearest_mono_pos (x := -y) (y := -x) (by linarith) (by linarith)
      rw [nearest_neg, nearest_neg] at this
      linarith
  · rw [nearest_zero]
    exact nearest_nonneg hxy
  · exact nearest_mono_pos hx hxy

theorem ulp_eq {x : ℝ} (e : ℤ) (lo : 2 ^ (e + 52) ≤ x) (hi : x < 2 ^ (e + 53)) : ulp x = 2 ^ e := by
  have hx : 0 < x := (zpow_pos (by norm_num) _).trans_le lo
  have hlog : Int.log 2 |x| = e + 52 := by
    rw [abs_of_pos hx]
    apply le_antisymm
    · have := (Int.lt_zpow_iff_log_lt (b := 2) (x := e + 53) (by norm_num) hx).1 (by push_cast; exact hi)
      omega
    · exact (Int.zpow_le_iff_le_log (b := 2) (by norm_num) hx).1 (by push_cast; exact lo)
  rw [ulp, hlog]
  congr 1
  ring

/-- Rounding a given number. -/
theorem nearest_eq {x : ℝ} (m e : ℤ) (lo : 2 ^ (e + 52) ≤ x) (hi : x < 2 ^ (e + 53)) (h : |x - m * 2 ^ e| < 2 ^ e / 2) :
    nearest x = m * 2 ^ e := by
  have he : (0 : ℝ) < 2 ^ e := zpow_pos (by norm_num) _
  rw [nearest, ulp_eq e lo hi, roundEven_eq (n := m)]
  rw [show x / 2 ^ e - m = (x - m * 2 ^ e) / 2 ^ e by field_simp, abs_div, abs_of_pos he, div_lt_iff₀ he]
  linarith

/-- Rounding a number halfway between two. -/
theorem nearest_tie {x : ℝ} (m e : ℤ) (lo : 2 ^ (e + 52) ≤ x) (hi : x < 2 ^ (e + 53)) (h : x = (m + 1 / 2) * 2 ^ e) :
    nearest x = ((if Even m then m else m + 1 : ℤ) : ℝ) * 2 ^ e := by
  have he : (0 : ℝ) < 2 ^ e := zpow_pos (by norm_num) _
  rw [nearest, ulp_eq e lo hi, roundEven_half (n := m)]
  rw [h, mul_div_cancel_right₀ _ he.ne']

theorem rounds_nearest (order : Fin 3) : Rounds (Ops.nearest order) nearest where
  add _ _ := rfl
  sub _ _ := rfl
  mul _ _ := rfl
  div _ _ := rfl
  sqrt _ := rfl
  const _ := rfl
  pow_nonneg _ n h := nearest_nonneg (pow_nonneg h n)
  odd := nearest_neg
  mono := nearest_mono

/-- Rounding to nearest is an arithmetic with the relative error 2⁻⁵³. -/
noncomputable def Arith.nearest (order : Fin 3) : Arith (1 / 2 ^ 53) where
  toOps := Ops.nearest order
  add_err _ _ := nearest_err _
  sub_err _ _ := nearest_err _
  mul_err _ _ := nearest_err _
  div_err _ _ _ := nearest_err _
  sqrt_err _ _ := nearest_err _
  pow_err _ _ := nearest_err _
  exp_err _ := nearest_err _
  erf_err _ := nearest_err _
  const_err _ := nearest_err _

namespace Rounds

variable {F : Ops} {rnd : ℝ → ℝ} (h : Rounds F rnd)
include h

theorem zero : rnd 0 = 0 := by
  have := h.odd 0
  rw [neg_zero] at this
  linarith

theorem nonneg {x : ℝ} (hx : 0 ≤ x) : 0 ≤ rnd x := by
  have := h.mono hx
  rwa [h.zero] at this

theorem nonpos {x : ℝ} (hx : x ≤ 0) : rnd x ≤ 0 := by
  have := h.mono hx
  rwa [h.zero] at this

theorem sign (e : ℤˣ) (x : ℝ) : rnd (((e : ℤ) : ℝ) * x) = ((e : ℤ) : ℝ) * rnd x := by
  rcases Int.units_eq_one_or e with rfl | rfl
  · simp
  · simp [h.odd]

end Rounds

theorem sign_sq (e : ℤˣ) : (((e : ℤ) : ℝ)) * ((e : ℤ) : ℝ) = 1 := by
  rcases Int.units_eq_one_or e with rfl | rfl <;> simp

end Verif
