import Verif.Lemmas.LoopIntegrals
import Mathlib.Analysis.SpecialFunctions.Integrals.Basic

/-! # The integrals around a loop close to its axis (helper lemmas) -/

namespace Verif.NearAxis

open Real MeasureTheory intervalIntegral

/-! ### Series of the inverse distance -/

theorem root_range {y : ℝ} (hy : |y| ≤ 1 / 100) : 99 / 100 ≤ √(1 - y) ∧ √(1 - y) ≤ 101 / 100 ∧ √(1 - y) ^ 2 = 1 - y := by
  have := abs_le.1 hy
  refine ⟨le_sqrt_of_sq_le (by norm_num; linarith), sqrt_le_iff.2 ⟨by norm_num, by norm_num; linarith⟩, sq_sqrt (by linarith)⟩

theorem inv_cube {y : ℝ} (hy : |y| ≤ 1 / 100) :
    |1 / √(1 - y) ^ 3 - (1 + 3 / 2 * y + 15 / 8 * y ^ 2 + 35 / 16 * y ^ 3 + 315 / 128 * y ^ 4)| ≤ 4 * |y| ^ 5 := by
  obtain ⟨h1, h2, h3⟩ := root_range hy
  generalize √(1 - y) = r at *
  have hr : 0 < r := by linarith
  have ey : y = (1 - r) * (1 + r) := by linear_combination h3
  have p : ∀ k : ℕ, k ≤ 6 → r ^ k ≤ 107 / 100 := by
    intro k hk
    calc r ^ k ≤ (101 / 100 : ℝ) ^ k := pow_le_pow_left₀ hr.le h2 k
      _ ≤ (101 / 100 : ℝ) ^ 6 := pow_le_pow_right₀ (by norm_num) hk
      _ ≤ 107 / 100 := by norm_num
  have hQ : 1 + 5 * r + 15 * r ^ 2 + 3325 / 128 * r ^ 3 + 3185 / 128 * r ^ 4 + 1575 / 128 * r ^ 5 + 315 / 128 * r ^ 6 ≤ 93 := by
    have := p 1 (by norm_num)
    rw [pow_one] at this
    linarith [p 2 (by norm_num), p 3 (by norm_num), p 4 (by norm_num), p 5 (by norm_num), p 6 (by norm_num)]
  have hd : (30 : ℝ) ≤ r ^ 3 * (1 + r) ^ 5 := by
    have a := pow_le_pow_left₀ (by norm_num) h1 3
    have b := pow_le_pow_left₀ (by norm_num) (show (199 / 100 : ℝ) ≤ 1 + r by linarith) 5
    calc (30 : ℝ) ≤ (99 / 100) ^ 3 * (199 / 100) ^ 5 := by norm_num
      _ ≤ _ := mul_le_mul a b (by positivity) (by positivity)
  have e : 1 / r ^ 3 - (1 + 3 / 2 * y + 15 / 8 * y ^ 2 + 35 / 16 * y ^ 3 + 315 / 128 * y ^ 4) = y ^ 5 *
      ((1 + 5 * r + 15 * r ^ 2 + 3325 / 128 * r ^ 3 + 3185 / 128 * r ^ 4 + 1575 / 128 * r ^ 5 + 315 / 128 * r ^ 6) / (r ^ 3 * (1 + r) ^ 5)) := by
    rw [ey]
    have : 1 + r ≠ 0 := by positivity
    field_simp
    ring
  rw [e, abs_mul, abs_pow, mul_comm 4, abs_of_nonneg (a := _ / _) (by positivity)]
  refine mul_le_mul_of_nonneg_left ?_ (by positivity)
  rw [div_le_iff₀ (by positivity)]
  linarith

theorem inv_one {y : ℝ} (hy : |y| ≤ 1 / 100) : |1 / √(1 - y) - (1 + 1 / 2 * y + 3 / 8 * y ^ 2)| ≤ |y| ^ 3 := by
  obtain ⟨h1, h2, h3⟩ := root_range hy
  generalize √(1 - y) = r at *
  have hr : 0 < r := by linarith
  have ey : y = (1 - r) * (1 + r) := by linear_combination h3
  have e : 1 / r - (1 + 1 / 2 * y + 3 / 8 * y ^ 2) = y ^ 3 * ((1 + 9 / 8 * r + 3 / 8 * r ^ 2) / (r * (1 + r) ^ 3)) := by
    rw [ey]
    have : 1 + r ≠ 0 := by positivity
    field_simp
    ring
  rw [e, abs_mul, abs_pow, abs_of_nonneg (a := _ / _) (by positivity)]
  refine mul_le_of_le_one_right (by positivity) ?_
  rw [div_le_one (by positivity)]
  nlinarith [pow_pos hr 2, pow_pos hr 3, pow_pos hr 4]

/-! ### Moments of the cosine -/

theorem moments : (∫ t in (0 : ℝ)..(2 * π), cos t) = 0 ∧ (∫ t in (0 : ℝ)..(2 * π), cos t ^ 2) = π ∧ (∫ t in (0 : ℝ)..(2 * π), cos t ^ 3) = 0 ∧
    (∫ t in (0 : ℝ)..(2 * π), cos t ^ 4) = 3 / 4 * π ∧ (∫ t in (0 : ℝ)..(2 * π), cos t ^ 5) = 0 := by
  have h1 : (∫ t in (0 : ℝ)..(2 * π), cos t) = 0 := by simp
  have h2 : (∫ t in (0 : ℝ)..(2 * π), cos t ^ 2) = π := by rw [integral_cos_sq]; simp
  have h3 : (∫ t in (0 : ℝ)..(2 * π), cos t ^ 3) = 0 := by
    have := integral_cos_pow (a := 0) (b := 2 * π) (n := 1)
    simp_rw [pow_one, h1] at this
    rw [this]
    simp
  have h4 : (∫ t in (0 : ℝ)..(2 * π), cos t ^ 4) = 3 / 4 * π := by
    have := integral_cos_pow (a := 0) (b := 2 * π) (n := 2)
    rw [h2] at this
    rw [this]
    simp
    ring
  have h5 : (∫ t in (0 : ℝ)..(2 * π), cos t ^ 5) = 0 := by
    have := integral_cos_pow (a := 0) (b := 2 * π) (n := 3)
    rw [h3] at this
    rw [this]
    simp
  exact ⟨h1, h2, h3, h4, h5⟩

theorem continuous_root {w : ℝ} (hw : |w| ≤ 1 / 100) (k : ℕ) : Continuous fun t => cos t / √(1 - w * cos t) ^ k := by
  refine continuous_cos.div (by fun_prop) fun t => ?_
  have : |w * cos t| ≤ 1 / 100 := by
    rw [abs_mul]
    exact (mul_le_of_le_one_right (abs_nonneg _) (abs_cos_le_one t)).trans hw
  have := (root_range this).1
  exact (pow_pos (by linarith) k).ne'

theorem small (w t : ℝ) : |w * cos t| ≤ |w| := by
  rw [abs_mul]
  exact mul_le_of_le_one_right (abs_nonneg _) (abs_cos_le_one t)

theorem integral_cube {w : ℝ} (hw : |w| ≤ 1 / 100) :
    |(∫ t in (0 : ℝ)..(2 * π), cos t / √(1 - w * cos t) ^ 3) - (3 / 2 * π * w + 105 / 64 * π * w ^ 3)| ≤ 8 * π * |w| ^ 5 := by
  obtain ⟨m1, m2, m3, m4, m5⟩ := moments
  have poly : ∫ t in (0 : ℝ)..(2 * π), (cos t + 3 / 2 * w * cos t ^ 2 + 15 / 8 * w ^ 2 * cos t ^ 3 + 35 / 16 * w ^ 3 * cos t ^ 4 +
      315 / 128 * w ^ 4 * cos t ^ 5) = 3 / 2 * π * w + 105 / 64 * π * w ^ 3 := by
    rw [intervalIntegral.integral_add, intervalIntegral.integral_add, intervalIntegral.integral_add, intervalIntegral.integral_add]
    · simp only [intervalIntegral.integral_const_mul, m1, m2, m3, m4, m5]
      ring
    all_goals exact Continuous.intervalIntegrable (by fun_prop) _ _
  rw [← poly, ← intervalIntegral.integral_sub ((continuous_root hw 3).intervalIntegrable _ _) (Continuous.intervalIntegrable (by fun_prop) _ _)]
  have h := intervalIntegral.norm_integral_le_of_norm_le_const (a := 0) (b := 2 * π) (C := 4 * |w| ^ 5)
    (f := fun t => cos t / √(1 - w * cos t) ^ 3 - (cos t + 3 / 2 * w * cos t ^ 2 + 15 / 8 * w ^ 2 * cos t ^ 3 + 35 / 16 * w ^ 3 * cos t ^ 4 +
      315 / 128 * w ^ 4 * cos t ^ 5)) fun t _ => by
    have k := inv_cube ((small w t).trans hw)
    have e : cos t / √(1 - w * cos t) ^ 3 - (cos t + 3 / 2 * w * cos t ^ 2 + 15 / 8 * w ^ 2 * cos t ^ 3 + 35 / 16 * w ^ 3 * cos t ^ 4 +
        315 / 128 * w ^ 4 * cos t ^ 5) = cos t * (1 / √(1 - w * cos t) ^ 3 - (1 + 3 / 2 * (w * cos t) + 15 / 8 * (w * cos t) ^ 2 +
        35 / 16 * (w * cos t) ^ 3 + 315 / 128 * (w * cos t) ^ 4)) := by ring
    rw [e, norm_mul, norm_eq_abs, norm_eq_abs]
    refine (mul_le_of_le_one_left (abs_nonneg _) (abs_cos_le_one t)).trans (k.trans ?_)
    have := pow_le_pow_left₀ (abs_nonneg _) (small w t) 5
    linarith
  rw [norm_eq_abs, sub_zero, abs_of_pos two_pi_pos] at h
  linarith

theorem integral_one {w : ℝ} (hw : |w| ≤ 1 / 100) :
    |(∫ t in (0 : ℝ)..(2 * π), cos t / √(1 - w * cos t)) - 1 / 2 * π * w| ≤ 2 * π * |w| ^ 3 := by
  obtain ⟨m1, m2, m3, -, -⟩ := moments
  have poly : ∫ t in (0 : ℝ)..(2 * π), (cos t + 1 / 2 * w * cos t ^ 2 + 3 / 8 * w ^ 2 * cos t ^ 3) = 1 / 2 * π * w := by
    rw [intervalIntegral.integral_add, intervalIntegral.integral_add]
    · simp only [intervalIntegral.integral_const_mul, m1, m2, m3]
      ring
    all_goals exact Continuous.intervalIntegrable (by fun_prop) _ _
  have c := continuous_root hw 1
  simp only [pow_one] at c
  rw [← poly, ← intervalIntegral.integral_sub (c.intervalIntegrable _ _) (Continuous.intervalIntegrable (by fun_prop) _ _)]
  have h := intervalIntegral.norm_integral_le_of_norm_le_const (a := 0) (b := 2 * π) (C := |w| ^ 3)
    (f := fun t => cos t / √(1 - w * cos t) - (cos t + 1 / 2 * w * cos t ^ 2 + 3 / 8 * w ^ 2 * cos t ^ 3)) fun t _ => by
    have k := inv_one ((small w t).trans hw)
    have e : cos t / √(1 - w * cos t) - (cos t + 1 / 2 * w * cos t ^ 2 + 3 / 8 * w ^ 2 * cos t ^ 3) =
        cos t * (1 / √(1 - w * cos t) - (1 + 1 / 2 * (w * cos t) + 3 / 8 * (w * cos t) ^ 2)) := by ring
    rw [e, norm_mul, norm_eq_abs, norm_eq_abs]
    exact (mul_le_of_le_one_left (abs_nonneg _) (abs_cos_le_one t)).trans (k.trans (pow_le_pow_left₀ (abs_nonneg _) (small w t) 3))
  rw [norm_eq_abs, sub_zero, abs_of_pos two_pi_pos] at h
  linarith

/-! ### The fields -/

theorem pow_bounds {s e : ℝ} (hs : 1 ≤ s) (he : s ^ 2 = 1 + e) :
    |1 / s ^ 5 - (1 - 5 / 2 * e)| ≤ 5 * e ^ 2 ∧ |1 / s ^ 9 - 1| ≤ 5 * e ∧ |1 / s ^ 3 - 1| ≤ 2 * e := by
  have h0 : 0 < s := by linarith
  have ee : e = (s - 1) * (s + 1) := by linear_combination -he
  have p : ∀ k n : ℕ, k ≤ n → s ^ k ≤ s ^ n := fun k n h => pow_le_pow_right₀ hs h
  have d : 0 ≤ s - 1 := by linarith
  refine ⟨?_, ?_, ?_⟩
  · have e1 : 1 / s ^ 5 - (1 - 5 / 2 * e) = e ^ 2 * ((1 + 2 * s + 3 * s ^ 2 + 4 * s ^ 3 + 5 * s ^ 4 + 5 / 2 * s ^ 5) / (s ^ 5 * (s + 1) ^ 2)) := by
      rw [ee]; field_simp; ring
    rw [e1, abs_mul, abs_of_nonneg (sq_nonneg e), mul_comm 5 (e ^ 2), abs_of_nonneg (a := _ / _) (by positivity)]
    refine mul_le_mul_of_nonneg_left ?_ (sq_nonneg e)
    rw [div_le_iff₀ (by positivity)]
    have h4 : (4 : ℝ) ≤ (s + 1) ^ 2 := by nlinarith
    have h5 := mul_le_mul_of_nonneg_left h4 (pow_pos h0 5).le
    have := p 0 5 (by norm_num)
    have := p 1 5 (by norm_num)
    rw [pow_one] at this
    rw [pow_zero] at *
    linarith [p 2 5 (by norm_num), p 3 5 (by norm_num), p 4 5 (by norm_num)]
  · have e1 : 1 / s ^ 9 - 1 = -(e * ((1 + s + s ^ 2 + s ^ 3 + s ^ 4 + s ^ 5 + s ^ 6 + s ^ 7 + s ^ 8) / (s ^ 9 * (s + 1)))) := by
      rw [ee]; field_simp; ring
    have he0 : 0 ≤ e := by rw [ee]; positivity
    rw [e1, abs_neg, abs_mul, abs_of_nonneg he0, mul_comm 5, abs_of_nonneg (a := _ / _) (by positivity)]
    refine mul_le_mul_of_nonneg_left ?_ he0
    rw [div_le_iff₀ (by positivity)]
    have h5 := mul_le_mul_of_nonneg_left (show (2 : ℝ) ≤ s + 1 by linarith) (pow_pos h0 9).le
    have := p 0 9 (by norm_num)
    have := p 1 9 (by norm_num)
    rw [pow_one] at this
    rw [pow_zero] at *
    linarith [p 2 9 (by norm_num), p 3 9 (by norm_num), p 4 9 (by norm_num), p 5 9 (by norm_num), p 6 9 (by norm_num), p 7 9 (by norm_num), p 8 9 (by norm_num)]
  · have e1 : 1 / s ^ 3 - 1 = -(e * ((1 + s + s ^ 2) / (s ^ 3 * (s + 1)))) := by
      rw [ee]; field_simp; ring
    have he0 : 0 ≤ e := by rw [ee]; positivity
    rw [e1, abs_neg, abs_mul, abs_of_nonneg he0, mul_comm 2, abs_of_nonneg (a := _ / _) (by positivity)]
    refine mul_le_mul_of_nonneg_left ?_ he0
    rw [div_le_iff₀ (by positivity)]
    have h5 := mul_le_mul_of_nonneg_left (show (2 : ℝ) ≤ s + 1 by linarith) (pow_pos h0 3).le
    have := p 0 3 (by norm_num)
    have := p 1 3 (by norm_num)
    rw [pow_one] at this
    rw [pow_zero] at *
    linarith [p 2 3 (by norm_num)]

/-- Close to the axis: with `T = √(a² + z²)` and `e = ρ²/T²`. -/
structure Near (a rho z T s e : ℝ) : Prop where
  ha : 0 < a
  hr : 0 < rho
  hT : 0 < T
  sq : T ^ 2 = a ^ 2 + z ^ 2
  hs : 1 ≤ s
  hse : s ^ 2 = 1 + e
  he : rho ^ 2 = e * T ^ 2
  small : e ≤ 1e-6

theorem exists_near {a rho z : ℝ} (ha : 0 < a) (hr : 0 < rho) (h : rho ^ 2 ≤ 1e-6 * (a ^ 2 + z ^ 2)) :
    ∃ s, Near a rho z (√(a ^ 2 + z ^ 2)) s (rho ^ 2 / (a ^ 2 + z ^ 2)) := by
  have hp : 0 < a ^ 2 + z ^ 2 := by positivity
  have he : 0 ≤ rho ^ 2 / (a ^ 2 + z ^ 2) := by positivity
  refine ⟨√(1 + rho ^ 2 / (a ^ 2 + z ^ 2)), ha, hr, sqrt_pos.2 hp, sq_sqrt hp.le, ?_, sq_sqrt (by linarith), ?_, ?_⟩
  · exact le_sqrt_of_sq_le (by linarith)
  · rw [sq_sqrt hp.le]; field_simp
  · rw [div_le_iff₀ hp]; exact h

section
variable {a rho z T s e : ℝ}

theorem Near.wire (n : Near a rho z T s e) (c : ℝ) : √(wireDistSq a rho z c) = T * s * √(1 - 2 * a * rho / (T * s) ^ 2 * c) := by
  have hs := n.hs
  have h : 0 < T * s := mul_pos n.hT (by linarith)
  have e1 : wireDistSq a rho z c = (T * s) ^ 2 * (1 - 2 * a * rho / (T * s) ^ 2 * c) := by
    have : (T * s) ^ 2 = a ^ 2 + rho ^ 2 + z ^ 2 := by rw [mul_pow, n.hse, mul_add, mul_one, n.sq]; linarith [n.he, n.sq, mul_comm e (T ^ 2), congrArg (e * ·) n.sq]
    rw [wireDistSq, mul_sub, mul_one, ← mul_assoc, mul_div_cancel₀ _ (pow_pos h 2).ne', this]
  rw [e1, sqrt_mul (sq_nonneg _), sqrt_sq h.le]

theorem Near.le (n : Near a rho z T s e) : 0 ≤ e ∧ a ≤ T ∧ |z| ≤ T ∧ rho ≤ T / 1000 ∧ 0 ≤ 2 * a * rho / (T * s) ^ 2 ∧ 2 * a * rho / (T * s) ^ 2 ≤ 1 / 100 := by
  have hs := n.hs
  have hT := n.hT
  have ha := n.ha
  have hr := n.hr
  have h : 0 < T * s := mul_pos n.hT (by linarith)
  have he : 0 ≤ e := by nlinarith [n.hse]
  have h1 : a ≤ T := le_of_sq_le_sq (by rw [n.sq]; nlinarith) hT.le
  have h3 : rho ≤ T / 1000 := le_of_sq_le_sq (by
    rw [n.he]
    have := mul_le_mul_of_nonneg_right n.small (sq_nonneg T)
    linarith) (by positivity)
  refine ⟨he, h1, abs_le_of_sq_le_sq (by rw [n.sq]; nlinarith) hT.le, h3, by positivity, ?_⟩
  rw [div_le_iff₀ (by positivity)]
  have : T * T ≤ (T * s) ^ 2 := by
    rw [mul_pow, n.hse]
    nlinarith [sq_nonneg T]
  nlinarith [mul_le_mul h1 h3 hr.le hT.le]

theorem series_end (k : ℝ) {u : ℝ} (hu0 : 0 ≤ u) (hu1 : u ≤ 1) (he : 0 ≤ e) (b5 : |1 / s ^ 5 - (1 - 5 / 2 * e)| ≤ 5 * e ^ 2) (b9 : |1 / s ^ 9 - 1| ≤ 5 * e) :
    |k * (3 / 4 * (1 / s ^ 5) + 105 / 32 * u * e * (1 / s ^ 9)) - k * (3 / 4 * (1 - 5 / 2 * e) + 105 / 32 * u * e)| ≤ |k| * (21 * e ^ 2) := by
  rw [← mul_sub, abs_mul]
  refine mul_le_mul_of_nonneg_left ?_ (abs_nonneg k)
  have : 3 / 4 * (1 / s ^ 5) + 105 / 32 * u * e * (1 / s ^ 9) - (3 / 4 * (1 - 5 / 2 * e) + 105 / 32 * u * e) =
      3 / 4 * (1 / s ^ 5 - (1 - 5 / 2 * e)) + 105 / 32 * u * e * (1 / s ^ 9 - 1) := by ring
  rw [this]
  refine (abs_add_le _ _).trans ?_
  rw [abs_mul, abs_mul, abs_of_pos (show (0 : ℝ) < 3 / 4 by norm_num), abs_of_nonneg (show 0 ≤ 105 / 32 * u * e by positivity)]
  have h3 : 105 / 32 * u * e * |1 / s ^ 9 - 1| ≤ 105 / 32 * 1 * e * (5 * e) := by gcongr
  linarith [mul_nonneg he he, sq e]

/-- The radial flux density close to the axis. -/
theorem Near.radial (n : Near a rho z T s e) :
    |loopBr a rho z - 3 * π * a ^ 2 * z * (rho / (4 * T ^ 5) + rho ^ 3 * (15 * a ^ 2 - 20 * z ^ 2) / (32 * T ^ 9))| ≤
      120 * e ^ 2 * (3 * π * a ^ 2 * |z| * rho / (4 * T ^ 5)) := by
  obtain ⟨he, haT, hzT, hrT, hw0, hw⟩ := n.le
  have hs := n.hs
  have hT := n.hT
  have ha := n.ha
  have hr := n.hr
  have hs0 : 0 < s := by linarith
  have hne : (a - rho) ^ 2 + z ^ 2 ≠ 0 := by
    intro h0
    have h1 : a - rho = 0 := by nlinarith [sq_nonneg (a - rho), sq_nonneg z]
    have h2 : z = 0 := by nlinarith [sq_nonneg (a - rho), sq_nonneg z]
    have h3 : T ^ 2 = a ^ 2 := by rw [n.sq, h2]; ring
    have h4 : T = a := by nlinarith
    linarith
  have hI := integral_cube (w := 2 * a * rho / (T * s) ^ 2) (by rw [abs_of_nonneg hw0]; exact hw)
  have hB := (loop_integrals ha hr hne).2.1
  simp only [n.wire, mul_pow (T * s), div_mul_eq_div_div_swap] at hB
  rw [intervalIntegral.integral_div] at hB
  rw [abs_of_nonneg hw0] at hI
  generalize (∫ t in (0 : ℝ)..(2 * π), cos t / √(1 - 2 * a * rho / (T * s) ^ 2 * cos t) ^ 3) = J at hI hB
  obtain ⟨b5, b9, -⟩ := pow_bounds hs n.hse
  set k := π * a ^ 2 * z * rho / T ^ 5 with hk
  set u := a ^ 2 / T ^ 2 with hu
  have hu1 : u ≤ 1 := by rw [hu, div_le_one (by positivity)]; nlinarith
  have hu0 : 0 ≤ u := by positivity
  have habs : |k| = π * a ^ 2 * |z| * rho / T ^ 5 := by
    rw [hk, show π * a ^ 2 * z * rho / T ^ 5 = π * a ^ 2 * rho / T ^ 5 * z by ring, abs_mul, abs_of_pos (show 0 < π * a ^ 2 * rho / T ^ 5 by positivity)]
    ring
  have r3 : rho ^ 3 = rho * (e * T ^ 2) := by rw [← n.he]; ring
  have z2 : 15 * a ^ 2 - 20 * z ^ 2 = 35 * a ^ 2 - 20 * T ^ 2 := by rw [n.sq]; ring
  have hcode : 3 * π * a ^ 2 * z * (rho / (4 * T ^ 5) + rho ^ 3 * (15 * a ^ 2 - 20 * z ^ 2) / (32 * T ^ 9)) =
      k * (3 / 4 * (1 - 5 / 2 * e) + 105 / 32 * u * e) := by
    rw [r3, z2, hk, hu]
    field_simp
    ring
  have hmain : loopBr a rho z - k * (3 / 4 * (1 / s ^ 5) + 105 / 32 * u * e * (1 / s ^ 9)) =
      a * z / (4 * (T * s) ^ 3) * (J - (3 / 2 * π * (2 * a * rho / (T * s) ^ 2) + 105 / 64 * π * (2 * a * rho / (T * s) ^ 2) ^ 3)) := by
    rw [← hB, hk, hu]
    have : (2 * a * rho / (T * s) ^ 2) ^ 3 = 8 * a ^ 3 * (rho * (e * T ^ 2)) / (T * s) ^ 6 := by rw [div_pow, mul_pow, mul_pow, r3]; ring
    rw [this]
    field_simp
    ring
  have herr : |a * z / (4 * (T * s) ^ 3)| * (8 * π * (2 * a * rho / (T * s) ^ 2) ^ 5) ≤ |k| * (64 * e ^ 2) := by
    have r5 : rho ^ 5 = rho * (e * T ^ 2) ^ 2 := by rw [← n.he]; ring
    have e1 : |a * z / (4 * (T * s) ^ 3)| * (8 * π * (2 * a * rho / (T * s) ^ 2) ^ 5) = |k| * (64 * e ^ 2 * u ^ 2 * (1 / s ^ 13)) := by
      rw [habs, show a * z / (4 * (T * s) ^ 3) = a / (4 * (T * s) ^ 3) * z by ring, abs_mul,
        abs_of_pos (show 0 < a / (4 * (T * s) ^ 3) by positivity), hu, div_pow, mul_pow, mul_pow, r5]
      field_simp
      ring
    rw [e1]
    refine mul_le_mul_of_nonneg_left ?_ (abs_nonneg k)
    have h1 : u ^ 2 ≤ 1 := by nlinarith
    have h2 : 1 / s ^ 13 ≤ 1 := (div_le_one (by positivity)).2 (one_le_pow₀ hs)
    have h3 : u ^ 2 * (1 / s ^ 13) ≤ 1 := by nlinarith [sq_nonneg u, show 0 < 1 / s ^ 13 by positivity]
    calc 64 * e ^ 2 * u ^ 2 * (1 / s ^ 13) = 64 * e ^ 2 * (u ^ 2 * (1 / s ^ 13)) := by ring
      _ ≤ 64 * e ^ 2 * 1 := mul_le_mul_of_nonneg_left h3 (by positivity)
      _ = _ := mul_one _
  have h1 : |loopBr a rho z - k * (3 / 4 * (1 / s ^ 5) + 105 / 32 * u * e * (1 / s ^ 9))| ≤ |k| * (64 * e ^ 2) := by
    rw [hmain, abs_mul]
    exact (mul_le_mul_of_nonneg_left hI (abs_nonneg _)).trans herr
  have h2 := series_end k hu0 hu1 he b5 b9
  have hkk : 3 * π * a ^ 2 * |z| * rho / (4 * T ^ 5) = 3 / 4 * |k| := by
    rw [habs]
    ring
  rw [hcode, hkk]
  have := abs_sub_le (loopBr a rho z) (k * (3 / 4 * (1 / s ^ 5) + 105 / 32 * u * e * (1 / s ^ 9))) (k * (3 / 4 * (1 - 5 / 2 * e) + 105 / 32 * u * e))
  have h3 := mul_nonneg (abs_nonneg k) (sq_nonneg e)
  linarith

/-- The same, relative to the value itself. -/
theorem Near.relative (n : Near a rho z T s e) :
    |loopBr a rho z - 3 * π * a ^ 2 * z * (rho / (4 * T ^ 5) + rho ^ 3 * (15 * a ^ 2 - 20 * z ^ 2) / (32 * T ^ 9))| ≤ 150 * e ^ 2 * |loopBr a rho z| := by
  have h := n.radial
  obtain ⟨he, haT, -, -, -, -⟩ := n.le
  have hT := n.hT
  have ha := n.ha
  have hr := n.hr
  set k := 3 * π * a ^ 2 * |z| * rho / (4 * T ^ 5) with hk
  have hk0 : 0 ≤ k := by positivity
  have r3 : rho ^ 3 = rho * (e * T ^ 2) := by rw [← n.he]; ring
  have z2 : 15 * a ^ 2 - 20 * z ^ 2 = 35 * a ^ 2 - 20 * T ^ 2 := by rw [n.sq]; ring
  have hc : |3 * π * a ^ 2 * z * (rho / (4 * T ^ 5) + rho ^ 3 * (15 * a ^ 2 - 20 * z ^ 2) / (32 * T ^ 9))| ≥ 9 / 10 * k := by
    have e1 : 3 * π * a ^ 2 * z * (rho / (4 * T ^ 5) + rho ^ 3 * (15 * a ^ 2 - 20 * z ^ 2) / (32 * T ^ 9)) =
        3 * π * a ^ 2 * rho / (4 * T ^ 5) * (1 - 5 / 2 * e + 35 / 8 * (a ^ 2 / T ^ 2) * e) * z := by
      rw [r3, z2]
      field_simp
      ring
    have h1 : 9 / 10 ≤ 1 - 5 / 2 * e + 35 / 8 * (a ^ 2 / T ^ 2) * e := by
      have := n.small
      have : 0 ≤ 35 / 8 * (a ^ 2 / T ^ 2) * e := by positivity
      linarith
    rw [e1, abs_mul, abs_mul, abs_of_pos (show 0 < 3 * π * a ^ 2 * rho / (4 * T ^ 5) by positivity), abs_of_pos (by linarith), hk]
    have := mul_le_mul_of_nonneg_left h1 (show 0 ≤ 3 * π * a ^ 2 * rho / (4 * T ^ 5) * |z| by positivity)
    calc 9 / 10 * (3 * π * a ^ 2 * |z| * rho / (4 * T ^ 5)) = 3 * π * a ^ 2 * rho / (4 * T ^ 5) * |z| * (9 / 10) := by ring
      _ ≤ _ := this
      _ = _ := by ring
  have hl : 8 / 10 * k ≤ |loopBr a rho z| := by
    have := abs_sub_abs_le_abs_sub (3 * π * a ^ 2 * z * (rho / (4 * T ^ 5) + rho ^ 3 * (15 * a ^ 2 - 20 * z ^ 2) / (32 * T ^ 9))) (loopBr a rho z)
    rw [abs_sub_comm] at this
    have h2 : 120 * e ^ 2 * k ≤ 1 / 10 * k := by
      refine mul_le_mul_of_nonneg_right ?_ hk0
      nlinarith [n.small]
    linarith
  refine h.trans ?_
  have := mul_le_mul_of_nonneg_left hl (sq_nonneg e)
  linarith

/-- The vector potential close to the axis. -/
theorem Near.azimuthal (n : Near a rho z T s e) : |loopA a rho z - π * a ^ 2 * rho / (4 * T ^ 3)| ≤ 18 * e * (π * a ^ 2 * rho / (4 * T ^ 3)) := by
  obtain ⟨he, haT, hzT, hrT, hw0, hw⟩ := n.le
  have hs := n.hs
  have hT := n.hT
  have ha := n.ha
  have hr := n.hr
  have hs0 : 0 < s := by linarith
  have hne : (a - rho) ^ 2 + z ^ 2 ≠ 0 := by
    intro h0
    have h1 : a - rho = 0 := by nlinarith [sq_nonneg (a - rho), sq_nonneg z]
    have h2 : z = 0 := by nlinarith [sq_nonneg (a - rho), sq_nonneg z]
    have h3 : T ^ 2 = a ^ 2 := by rw [n.sq, h2]; ring
    have h4 : T = a := by nlinarith
    linarith
  have hI := integral_one (w := 2 * a * rho / (T * s) ^ 2) (by rw [abs_of_nonneg hw0]; exact hw)
  have hA := (loop_integrals ha hr hne).1
  simp only [n.wire, div_mul_eq_div_div_swap _ (T * s) (√_)] at hA
  rw [intervalIntegral.integral_div] at hA
  rw [abs_of_nonneg hw0] at hI
  generalize (∫ t in (0 : ℝ)..(2 * π), cos t / √(1 - 2 * a * rho / (T * s) ^ 2 * cos t)) = J at hI hA
  obtain ⟨-, -, b3⟩ := pow_bounds hs n.hse
  set k := π * a ^ 2 * rho / (4 * T ^ 3) with hk
  have hk0 : 0 ≤ k := by positivity
  set u := a ^ 2 / T ^ 2 with hu
  have hu1 : u ≤ 1 := by rw [hu, div_le_one (by positivity)]; nlinarith
  have hu0 : 0 ≤ u := by positivity
  have r3 : rho ^ 3 = rho * (e * T ^ 2) := by rw [← n.he]; ring
  have hmain : loopA a rho z - k * (1 / s ^ 3) = a / (4 * (T * s)) * (J - 1 / 2 * π * (2 * a * rho / (T * s) ^ 2)) := by
    rw [← hA, hk]
    field_simp
  have herr : a / (4 * (T * s)) * (2 * π * (2 * a * rho / (T * s) ^ 2) ^ 3) ≤ k * (16 * e) := by
    have e1 : a / (4 * (T * s)) * (2 * π * (2 * a * rho / (T * s) ^ 2) ^ 3) = k * (16 * e * (u * (1 / s ^ 7))) := by
      rw [hk, hu, div_pow, mul_pow, mul_pow, r3]
      field_simp
      ring
    rw [e1]
    refine mul_le_mul_of_nonneg_left ?_ hk0
    have h2 : 1 / s ^ 7 ≤ 1 := (div_le_one (by positivity)).2 (one_le_pow₀ hs)
    have h3 : u * (1 / s ^ 7) ≤ 1 := by nlinarith [show 0 < 1 / s ^ 7 by positivity]
    exact mul_le_of_le_one_right (by positivity) h3
  have h1 : |loopA a rho z - k * (1 / s ^ 3)| ≤ k * (16 * e) := by
    rw [hmain, abs_mul, abs_of_pos (show 0 < a / (4 * (T * s)) by positivity)]
    exact (mul_le_mul_of_nonneg_left hI (by positivity)).trans herr
  have h2 : |k * (1 / s ^ 3) - k| ≤ k * (2 * e) := by
    rw [show k * (1 / s ^ 3) - k = k * (1 / s ^ 3 - 1) by ring, abs_mul, abs_of_nonneg hk0]
    exact mul_le_mul_of_nonneg_left b3 hk0
  have := abs_sub_le (loopA a rho z) (k * (1 / s ^ 3)) k
  linarith

end

end Verif.NearAxis
