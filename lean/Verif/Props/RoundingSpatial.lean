import Verif.Lemmas.RoundedSums
import Verif.Lemmas.RoundedPieces
import Verif.Lemmas.Arctan2
import Verif.Model.RoundedSpatial
import Mathlib.Analysis.Real.Pi.Bounds
import Mathlib.Analysis.SpecialFunctions.Trigonometric.DerivHyp
import Mathlib.Tactic.Module

/-!
# C162: conversions of coordinates lose a few units in the last place

Relative to the distance from the origin or from the axis, and for vectors relative to their length, also close to the axes.
-/

namespace Verif

/-- Errors of `a` and of `b` roundings together are less than that of `a + b`. -/
theorem gamma_add {u a b : ℝ} (hu : 0 ≤ u) (ha : 0 ≤ a) (hb : 0 ≤ b) (h : (a + b) * u < 1) :
    a * u / (1 - a * u) + b * u / (1 - b * u) ≤ (a + b) * u / (1 - (a + b) * u) := by
  have h1 := mul_nonneg ha hu
  have h2 := mul_nonneg hb hu
  have e1 : a * u / (1 - a * u) ≤ a * u / (1 - (a + b) * u) := div_le_div_of_nonneg_left h1 (by linarith) (by linarith)
  have e2 : b * u / (1 - b * u) ≤ b * u / (1 - (a + b) * u) := div_le_div_of_nonneg_left h2 (by linarith) (by linarith)
  calc _ ≤ a * u / (1 - (a + b) * u) + b * u / (1 - (a + b) * u) := add_le_add e1 e2
    _ = _ := by ring

theorem gamma_ge {u a : ℝ} (hu : 0 ≤ u) (ha : 0 ≤ a) (h : a * u < 1) : a * u ≤ a * u / (1 - a * u) := by
  have h1 := mul_nonneg ha hu
  rw [le_div_iff₀ (by linarith)]
  nlinarith

theorem gamma_mono {u a b : ℝ} (hu : 0 ≤ u) (ha : 0 ≤ a) (hab : a ≤ b) (h : b * u < 1) : a * u / (1 - a * u) ≤ b * u / (1 - b * u) := by
  have h1 := mul_nonneg ha hu
  have h2 := mul_le_mul_of_nonneg_right hab hu
  exact div_le_div₀ (by linarith) h2 (by linarith) (by linarith)

theorem AccurateTo.trans {M u a b x y z : ℝ} (hu : 0 ≤ u) (ha : 0 ≤ a) (hb : 0 ≤ b) (h : (a + b) * u < 1) (hM : 0 ≤ M)
    (h1 : AccurateTo M u a x y) (h2 : AccurateTo M u b y z) : AccurateTo M u (a + b) x z := by
  unfold AccurateTo at *
  calc |z - x| = |(z - y) + (y - x)| := by ring_nf
    _ ≤ |z - y| + |y - x| := abs_add_le _ _
    _ ≤ b * u / (1 - b * u) * M + a * u / (1 - a * u) * M := add_le_add h2 h1
    _ = (a * u / (1 - a * u) + b * u / (1 - b * u)) * M := by ring
    _ ≤ _ := mul_le_mul_of_nonneg_right (gamma_add hu ha hb h) hM

theorem AccurateTo.mono {M u a b x y : ℝ} (hu : 0 ≤ u) (ha : 0 ≤ a) (hab : a ≤ b) (h : b * u < 1) (hM : 0 ≤ M)
    (h1 : AccurateTo M u a x y) : AccurateTo M u b x y :=
  le_trans h1 (mul_le_mul_of_nonneg_right (gamma_mono hu ha hab h) hM)

theorem Near.accurateTo {M u n x y : ℝ} (hu : 0 ≤ u) (hn : 1 ≤ n) (hnu : n * u < 1) (hx : |x| ≤ M) (h : Near u n x y) : AccurateTo M u n x y := by
  refine le_trans (h.accurate hu hn hnu) (mul_le_mul_of_nonneg_left hx ?_)
  have : 0 ≤ n * u := mul_nonneg (by linarith) hu
  exact div_nonneg this (by linarith)

/-- An error in absolute terms. -/
theorem AccurateTo.of_abs {M u n x y : ℝ} (hu : 0 ≤ u) (hn : 0 ≤ n) (hnu : n * u < 1) (hM : 0 ≤ M) (h : |y - x| ≤ n * u * M) : AccurateTo M u n x y :=
  h.trans (mul_le_mul_of_nonneg_right (gamma_ge hu hn hnu) hM)

theorem AccurateTo.mul_left {M u n x y : ℝ} (r : ℝ) (h : AccurateTo M u n x y) : AccurateTo (|r| * M) u n (r * x) (r * y) := by
  unfold AccurateTo at *
  rw [← mul_sub, abs_mul]
  calc |r| * |y - x| ≤ |r| * (n * u / (1 - n * u) * M) := mul_le_mul_of_nonneg_left h (abs_nonneg r)
    _ = _ := by ring

namespace Rounded

open Spatial

variable {u : ℝ} (F : Arith u) (K : TrigOps)

/-- With exact operations these are the modelled conversions. -/
theorem spatial_exact_operations (g v : V3 ℝ) :
    cylToCart Arith.exact TrigOps.exact g = Spatial.cylToCart g ∧ cylToCartVec Arith.exact TrigOps.exact g v = Spatial.cylToCartVec g v ∧
    cartToCyl Arith.exact TrigOps.exact g = Spatial.cartToCyl g ∧ cartToCylVec Arith.exact TrigOps.exact g v = Spatial.cartToCylVec g v ∧
    sphToCart Arith.exact TrigOps.exact g = Spatial.sphToCart g ∧ cartToSph Arith.exact TrigOps.exact g = Spatial.cartToSph g := by
  refine ⟨rfl, rfl, rfl, rfl, rfl, ?_⟩
  have h2 : ∀ a : ℝ, a * a = a ^ 2 := fun a => (pow_two a).symm
  have h : norm Arith.exact g = g.len := by
    show Real.sqrt _ = Real.sqrt _
    congr 1
    show g.x * g.x + g.y * g.y + g.z * g.z = _
    ring
  ext
  · exact h
  · rfl
  · show Spatial.arctan2 (Real.sqrt (g.x * g.x + g.y * g.y)) g.z = Spatial.arctan2 (Real.sqrt (g.x ^ 2 + g.y ^ 2)) g.z
    rw [h2, h2]

variable {K} (hK : K.Within u) (hu : 0 ≤ u)
include hK hu

theorem near_cos (hu1 : u < 1) (a : ℝ) : Near u 1 (Real.cos a) (K.cos a) := Near.of_err hu hu1 (hK.cos_err a)
theorem near_sin (hu1 : u < 1) (a : ℝ) : Near u 1 (Real.sin a) (K.sin a) := Near.of_err hu hu1 (hK.sin_err a)

/-- The computed angle is off by at most `π u`. -/
theorem angle_err (y x : ℝ) : |K.arctan2 y x - arctan2 y x| ≤ Real.pi * u := by
  refine (hK.arctan2_err y x).trans ?_
  have : |arctan2 y x| ≤ Real.pi := abs_le.2 ⟨(arctan2_mem y x).1.le, (arctan2_mem y x).2⟩
  nlinarith

theorem cos_angle (h : 63 / 20 * u < 1) (y x : ℝ) : AccurateTo 1 u (63 / 20) (Real.cos (arctan2 y x)) (Real.cos (K.arctan2 y x)) := by
  refine AccurateTo.of_abs hu (by norm_num) h zero_le_one ?_
  have h1 := angle_err hK hu y x
  have h2 : |Real.cos (K.arctan2 y x) - Real.cos (arctan2 y x)| ≤ |K.arctan2 y x - arctan2 y x| := Real.abs_cos_sub_cos_le _ _
  have := Real.pi_lt_d2
  nlinarith

theorem sin_angle (h : 63 / 20 * u < 1) (y x : ℝ) : AccurateTo 1 u (63 / 20) (Real.sin (arctan2 y x)) (Real.sin (K.arctan2 y x)) := by
  refine AccurateTo.of_abs hu (by norm_num) h zero_le_one ?_
  have h1 := angle_err hK hu y x
  have h2 : |Real.sin (K.arctan2 y x) - Real.sin (arctan2 y x)| ≤ |K.arctan2 y x - arctan2 y x| := Real.abs_sin_sub_sin_le _ _
  have := Real.pi_lt_d2
  nlinarith

omit hK in
/-- A factor in the distance from the axis changes sine and cosine of the angle with the axis by no more than that factor. -/
theorem fac_angle (hu1 : u < 1) {n rho t : ℝ} (hn : 0 ≤ n) (hr : 0 ≤ rho) (ht : Fac u n t) (z : ℝ) :
    Near u n (Real.sin (arctan2 rho z)) (Real.sin (arctan2 (rho * t) z)) ∧ Near u n (Real.cos (arctan2 rho z)) (Real.cos (arctan2 (rho * t) z)) := by
  have h01 : (0 : ℝ) < 1 - u := by linarith
  have hq := Real.rpow_pos_of_pos h01 n
  have hq1 : (1 - u) ^ n ≤ 1 := Real.rpow_le_one h01.le (by linarith) hn
  have hinv : (1 - u) ^ (-n) = ((1 - u) ^ n)⁻¹ := Real.rpow_neg h01.le n
  have t1 : (1 - u) ^ n ≤ t := ht.1
  have t2 : t ≤ (1 - u) ^ (-n) := ht.2
  unfold Near
  rw [hinv] at t2 ⊢
  set q := (1 - u) ^ n with hqd
  have htp : 0 < t := hq.trans_le t1
  have htq : t * q ≤ 1 := by
    have := mul_le_mul_of_nonneg_right t2 hq.le
    rwa [inv_mul_cancel₀ hq.ne'] at this
  have hq1' : 1 ≤ q⁻¹ := (one_le_inv₀ hq).2 hq1
  rcases hr.lt_or_eq with hr | rfl
  · have e1 := sqrt_mul_cos_arctan2 rho z
    have e2 := sqrt_mul_sin_arctan2 rho z
    have e3 := sqrt_mul_cos_arctan2 (rho * t) z
    have e4 := sqrt_mul_sin_arctan2 (rho * t) z
    have hS : 0 < √(z ^ 2 + rho ^ 2) := Real.sqrt_pos.2 (by positivity)
    have hS' : 0 < √(z ^ 2 + (rho * t) ^ 2) := Real.sqrt_pos.2 (by positivity)
    have s1 : √(z ^ 2 + rho ^ 2) ^ 2 = z ^ 2 + rho ^ 2 := Real.sq_sqrt (by positivity)
    have s2 : √(z ^ 2 + (rho * t) ^ 2) ^ 2 = z ^ 2 + (rho * t) ^ 2 := Real.sq_sqrt (by positivity)
    set S := √(z ^ 2 + rho ^ 2) with hSd
    set S' := √(z ^ 2 + (rho * t) ^ 2) with hSd'
    have q2 : q ^ 2 ≤ 1 := pow_le_one₀ hq.le hq1
    have qt2 : q ^ 2 ≤ t ^ 2 := pow_le_pow_left₀ hq.le t1 2
    have tq2 : t ^ 2 * q ^ 2 ≤ 1 := by rw [← mul_pow]; exact pow_le_one₀ (by positivity) htq
    have z2 := sq_nonneg z
    have r2 := sq_nonneg rho
    have rt2 := sq_nonneg (rho * t)
    have a1 : q * S' ≤ t * S := by
      refine (pow_le_pow_iff_left₀ (by positivity) (by positivity) two_ne_zero).1 ?_
      rw [mul_pow, mul_pow, s1, s2]
      nlinarith [mul_nonneg z2 (sub_nonneg.2 qt2), mul_nonneg rt2 (sub_nonneg.2 q2)]
    have a2 : q * (t * S) ≤ S' := by
      refine (pow_le_pow_iff_left₀ (by positivity) (by positivity) two_ne_zero).1 ?_
      rw [mul_pow, mul_pow, s1, s2]
      nlinarith [mul_nonneg z2 (sub_nonneg.2 tq2), mul_nonneg rt2 (sub_nonneg.2 q2)]
    have a3 : q * S' ≤ S := by
      refine (pow_le_pow_iff_left₀ (by positivity) (by positivity) two_ne_zero).1 ?_
      rw [mul_pow, s1, s2]
      nlinarith [mul_nonneg z2 (sub_nonneg.2 q2), mul_nonneg r2 (sub_nonneg.2 tq2)]
    have a4 : q * S ≤ S' := by
      refine (pow_le_pow_iff_left₀ (by positivity) (by positivity) two_ne_zero).1 ?_
      rw [mul_pow, s1, s2]
      nlinarith [mul_nonneg z2 (sub_nonneg.2 q2), mul_nonneg r2 (sub_nonneg.2 qt2)]
    constructor
    · refine ⟨t * S / S', by rw [le_div_iff₀ hS']; exact a1, ?_, ?_⟩
      · rw [div_le_iff₀ hS', ← div_eq_inv_mul, le_div_iff₀ hq]; linarith
      · rw [mul_div_assoc', eq_div_iff hS'.ne']
        linear_combination e4 - t * e2
    · refine ⟨S / S', by rw [le_div_iff₀ hS']; exact a3, ?_, ?_⟩
      · rw [div_le_iff₀ hS', ← div_eq_inv_mul, le_div_iff₀ hq]; linarith
      · rw [mul_div_assoc', eq_div_iff hS'.ne']
        linear_combination e3 - e1
  · rw [zero_mul]
    exact ⟨⟨1, hq1, hq1', by ring⟩, ⟨1, hq1, hq1', by ring⟩⟩

omit hK in
theorem near_hypot (hu1 : u < 1) (x y : ℝ) : Near u 2 (√(x ^ 2 + y ^ 2)) (F.sqrt (F.add (F.pow x 2) (F.pow y 2))) ∧
    Near u 2 (√(x ^ 2 + y ^ 2)) (F.sqrt (F.add (F.mul x x) (F.mul y y))) := by
  have hx2 : x ^ 2 = x * x := pow_two x
  have hy2 : y ^ 2 = y * y := pow_two y
  constructor
  · exact (F.near_sqrt hu hu1 (by positivity) (F.near_add hu hu1 (sq_nonneg x) (sq_nonneg y) (Near.of_err hu hu1 (F.pow_err x 2))
      (Near.of_err hu hu1 (F.pow_err y 2)))).mono hu hu1 (by norm_num)
  · exact (F.near_sqrt hu hu1 (by positivity) (F.near_add hu hu1 (sq_nonneg x) (sq_nonneg y) (Near.of_err hu hu1 (by rw [hx2]; exact F.mul_err x x))
      (Near.of_err hu hu1 (by rw [hy2]; exact F.mul_err y y)))).mono hu hu1 (by norm_num)

/-- **C162.** Cartesian coordinates from cylindrical ones: two roundings in each. -/
theorem cylToCart_accurate (h : 2 * u < 1) (g : V3 ℝ) :
    Accurate u 2 (Spatial.cylToCart g).x (cylToCart F K g).x ∧ Accurate u 2 (Spatial.cylToCart g).y (cylToCart F K g).y ∧
    (cylToCart F K g).z = (Spatial.cylToCart g).z := by
  have hu1 : u < 1 := by linarith
  exact ⟨((F.near_mul hu hu1 (Near.refl _) (near_cos hK hu hu1 _)).mono hu hu1 (by norm_num)).accurate hu (by norm_num) h,
    ((F.near_mul hu hu1 (Near.refl _) (near_sin hK hu hu1 _)).mono hu hu1 (by norm_num)).accurate hu (by norm_num) h, rfl⟩

/-- **C162.** Cylindrical and spherical coordinates: distances to two and two and a half roundings, the azimuth to one; sine and cosine of the angle with
the vertical axis to seven, relative to one. -/
theorem toCurvilinear_accurate (h : 7 * u < 1) (g : V3 ℝ) :
    Accurate u 2 (Spatial.cartToCyl g).x (cartToCyl F K g).x ∧ Accurate u 1 (Spatial.cartToCyl g).y (cartToCyl F K g).y ∧
    (cartToCyl F K g).z = (Spatial.cartToCyl g).z ∧
    Accurate u (5 / 2) (Spatial.cartToSph g).x (cartToSph F K g).x ∧ Accurate u 1 (Spatial.cartToSph g).y (cartToSph F K g).y ∧
    AccurateTo 1 u 7 (Real.cos (Spatial.cartToSph g).z) (Real.cos (cartToSph F K g).z) ∧
    AccurateTo 1 u 7 (Real.sin (Spatial.cartToSph g).z) (Real.sin (cartToSph F K g).z) := by
  have hu1 : u < 1 := by linarith
  have ha : Near u 1 (arctan2 g.y g.x) (K.arctan2 g.y g.x) := Near.of_err hu hu1 (hK.arctan2_err _ _)
  obtain ⟨h1, h2⟩ := near_hypot F hu hu1 g.x g.y
  have h3 : Near u (5 / 2) g.len (norm F g) := (near_norm F hu hu1 (Near.refl _) (Near.refl _) (Near.refl _)).mono hu hu1 (by norm_num)
  obtain ⟨t, ht, he⟩ := h2.fac
  obtain ⟨f1, f2⟩ := fac_angle hu hu1 (by norm_num) (Real.sqrt_nonneg _) ht g.z
  refine ⟨h1.accurate hu (by norm_num) (by linarith), ha.accurate hu (by norm_num) (by linarith), rfl,
    h3.accurate hu (by norm_num) (by linarith), ha.accurate hu (by norm_num) (by linarith), ?_, ?_⟩
  · have e := cos_angle hK hu (by linarith) (F.sqrt (F.add (F.mul g.x g.x) (F.mul g.y g.y))) g.z
    rw [he] at e
    have e2 := f2.accurateTo hu (by norm_num) (by linarith) (Real.abs_cos_le_one _)
    refine ((e2.trans hu (by norm_num) (by norm_num) (by linarith) zero_le_one e).mono hu (by norm_num) (by norm_num) h zero_le_one)
      |> fun q => ?_
    simpa only [cartToSph, Spatial.cartToSph, he] using q
  · have e := sin_angle hK hu (by linarith) (F.sqrt (F.add (F.mul g.x g.x) (F.mul g.y g.y))) g.z
    rw [he] at e
    have e2 := f1.accurateTo hu (by norm_num) (by linarith) (Real.abs_sin_le_one _)
    refine ((e2.trans hu (by norm_num) (by norm_num) (by linarith) zero_le_one e).mono hu (by norm_num) (by norm_num) h zero_le_one)
      |> fun q => ?_
    simpa only [cartToSph, Spatial.cartToSph, he] using q

/-- **C162.** To cylindrical coordinates and back: eight roundings of the distance from the axis. -/
theorem cylinder_and_back (h : 8 * u < 1) (g : V3 ℝ) :
    AccurateTo (√(g.x ^ 2 + g.y ^ 2)) u 8 g.x (cylToCart F K (cartToCyl F K g)).x ∧
    AccurateTo (√(g.x ^ 2 + g.y ^ 2)) u 8 g.y (cylToCart F K (cartToCyl F K g)).y ∧
    (cylToCart F K (cartToCyl F K g)).z = g.z := by
  have hu1 : u < 1 := by linarith
  obtain ⟨h1, -⟩ := near_hypot F hu hu1 g.x g.y
  have hR := Real.sqrt_nonneg (g.x ^ 2 + g.y ^ 2)
  have ec := sqrt_mul_cos_arctan2 g.y g.x
  have es := sqrt_mul_sin_arctan2 g.y g.x
  have c1 := (cos_angle hK hu (by linarith) g.y g.x).mul_left (√(g.x ^ 2 + g.y ^ 2))
  have s1 := (sin_angle hK hu (by linarith) g.y g.x).mul_left (√(g.x ^ 2 + g.y ^ 2))
  rw [ec, mul_one, abs_of_nonneg hR] at c1
  rw [es, mul_one, abs_of_nonneg hR] at s1
  have key : ∀ f f' : ℝ, |f| ≤ 1 → Near u 1 f f' → AccurateTo (√(g.x ^ 2 + g.y ^ 2)) u 4 (√(g.x ^ 2 + g.y ^ 2) * f)
      (F.mul (F.sqrt (F.add (F.pow g.x 2) (F.pow g.y 2))) f') := by
    intro f f' hf hn
    refine ((F.near_mul hu hu1 h1 hn).mono hu hu1 (by norm_num)).accurateTo hu (by norm_num) (by linarith) ?_
    rw [abs_mul, abs_of_nonneg hR]
    exact mul_le_of_le_one_right hR hf
  refine ⟨?_, ?_, rfl⟩
  · exact (c1.trans hu (by norm_num) (by norm_num) (by linarith) hR (key _ _ (Real.abs_cos_le_one _) (near_cos hK hu hu1 _))).mono hu (by norm_num)
      (by norm_num) h hR
  · exact (s1.trans hu (by norm_num) (by norm_num) (by linarith) hR (key _ _ (Real.abs_sin_le_one _) (near_sin hK hu hu1 _))).mono hu (by norm_num)
      (by norm_num) h hR

/-- **C162.** To spherical coordinates and back: seventeen roundings of the distance from the origin. -/
theorem sphere_and_back (h : 17 * u < 1) (g : V3 ℝ) : V3.AccurateTo g.len u 17 g (sphToCart F K (cartToSph F K g)) := by
  have hu1 : u < 1 := by linarith
  obtain ⟨-, -, -, -, -, hc, hs⟩ := toCurvilinear_accurate F hK hu (by linarith) g
  have hL := V3.len_nonneg g
  have h3 : Near u (5 / 2) g.len (norm F g) := (near_norm F hu hu1 (Near.refl _) (Near.refl _) (Near.refl _)).mono hu hu1 (by norm_num)
  have hrho := Real.sqrt_nonneg (g.x ^ 2 + g.y ^ 2)
  have el : √(g.z ^ 2 + √(g.x ^ 2 + g.y ^ 2) ^ 2) = g.len := by
    rw [Real.sq_sqrt (by positivity), V3.len]
    congr 1
    ring
  have ez := sqrt_mul_cos_arctan2 (√(g.x ^ 2 + g.y ^ 2)) g.z
  have er := sqrt_mul_sin_arctan2 (√(g.x ^ 2 + g.y ^ 2)) g.z
  rw [el] at ez er
  have ec := sqrt_mul_cos_arctan2 g.y g.x
  have es := sqrt_mul_sin_arctan2 g.y g.x
  have c1 := hc.mul_left g.len
  have s1 := hs.mul_left g.len
  have hz0 : g.len * Real.cos (Spatial.cartToSph g).z = g.z := ez
  have hr0 : g.len * Real.sin (Spatial.cartToSph g).z = √(g.x ^ 2 + g.y ^ 2) := er
  rw [hz0, mul_one, abs_of_nonneg hL] at c1
  rw [hr0, mul_one, abs_of_nonneg hL] at s1
  have hrl : √(g.x ^ 2 + g.y ^ 2) ≤ g.len := by
    rw [V3.len]; exact Real.sqrt_le_sqrt (by nlinarith [sq_nonneg g.z])
  set th := (cartToSph F K g).z with hth
  have horiz : ∀ f f0 f' w : ℝ, |f| ≤ 1 → |f0| ≤ 1 → AccurateTo 1 u (63 / 20) f0 f → Near u 1 f f' → √(g.x ^ 2 + g.y ^ 2) * f0 = w →
      AccurateTo g.len u 17 w (F.mul (F.mul (norm F g) (K.sin th)) f') := by
    intro f f0 f' w hf hf0 hff hn hw
    have a1 := hff.mul_left (√(g.x ^ 2 + g.y ^ 2))
    rw [hw, mul_one, abs_of_nonneg hrho] at a1
    have a1' : AccurateTo g.len u (63 / 20) w (√(g.x ^ 2 + g.y ^ 2) * f) := by
      refine le_trans a1 (mul_le_mul_of_nonneg_left hrl ?_)
      have : 0 ≤ 63 / 20 * u := by positivity
      exact div_nonneg this (by linarith)
    have a2 : AccurateTo g.len u 7 (√(g.x ^ 2 + g.y ^ 2) * f) (g.len * Real.sin th * f) := by
      unfold AccurateTo at s1 ⊢
      rw [← sub_mul, abs_mul]
      exact (mul_le_of_le_one_right (abs_nonneg _) hf).trans s1
    have a3 : AccurateTo g.len u (13 / 2) (g.len * Real.sin th * f) (F.mul (F.mul (norm F g) (K.sin th)) f') := by
      refine ((F.near_mul hu hu1 (F.near_mul hu hu1 h3 (near_sin hK hu hu1 th)) hn).mono hu hu1 (by norm_num)).accurateTo hu (by norm_num)
        (by linarith) ?_
      rw [abs_mul, abs_mul, abs_of_nonneg hL]
      have := mul_le_of_le_one_right hL (Real.abs_sin_le_one th)
      exact (mul_le_of_le_one_right (by positivity) hf).trans this
    exact ((a1'.trans hu (by norm_num) (by norm_num) (by linarith) hL a2).trans hu (by norm_num) (by norm_num) (by linarith) hL a3).mono hu
      (by norm_num) (by norm_num) h hL
  refine ⟨?_, ?_, ?_⟩
  · exact horiz _ _ _ _ (Real.abs_cos_le_one _) (Real.abs_cos_le_one _) (cos_angle hK hu (by linarith) g.y g.x) (near_cos hK hu hu1 _) ec
  · exact horiz _ _ _ _ (Real.abs_sin_le_one _) (Real.abs_sin_le_one _) (sin_angle hK hu (by linarith) g.y g.x) (near_sin hK hu hu1 _) es
  · have a3 : AccurateTo g.len u (9 / 2) (g.len * Real.cos th) (F.mul (norm F g) (K.cos th)) := by
      refine ((F.near_mul hu hu1 h3 (near_cos hK hu hu1 th)).mono hu hu1 (by norm_num)).accurateTo hu (by norm_num) (by linarith) ?_
      rw [abs_mul, abs_of_nonneg hL]
      exact mul_le_of_le_one_right hL (Real.abs_cos_le_one th)
    exact (c1.trans hu (by norm_num) (by norm_num) (by linarith) hL a3).mono hu (by norm_num) (by norm_num) h hL

/-! ## Vectors -/

omit hK in
/-- Two products of a component of a vector and a sine or cosine, added. -/
theorem two_terms (hu1 : u < 1) (h : 3 * u < 1) {a b p q p' q' L : ℝ} (hp : Near u 2 (a * p) p') (hq : Near u 2 (b * q) q')
    (hL : |a * p| + |b * q| ≤ L) : AccurateTo L u 3 (a * p + b * q) (F.add p' q') := by
  obtain ⟨t, ht, rfl⟩ := hp.fac
  obtain ⟨s, hs, rfl⟩ := hq.fac
  obtain ⟨d, hd, e⟩ := add_fac F hu hu1 (x := a * p * t) (y := b * q * s)
  have h1 := ((ht.mul hu1 hd).mono hu hu1 (show (2 : ℝ) + 1 ≤ 3 by norm_num)).close hu (by norm_num) h
  have h2 := ((hs.mul hu1 hd).mono hu hu1 (show (2 : ℝ) + 1 ≤ 3 by norm_num)).close hu (by norm_num) h
  unfold AccurateTo
  rw [e, show (a * p * t + b * q * s) * d - (a * p + b * q) = a * p * (t * d - 1) + b * q * (s * d - 1) by ring]
  have hg : 0 ≤ 3 * u / (1 - 3 * u) := (abs_nonneg _).trans h1
  calc |a * p * (t * d - 1) + b * q * (s * d - 1)| ≤ |a * p| * |t * d - 1| + |b * q| * |s * d - 1| := by
        rw [← abs_mul, ← abs_mul]; exact abs_add_le _ _
    _ ≤ |a * p| * (3 * u / (1 - 3 * u)) + |b * q| * (3 * u / (1 - 3 * u)) :=
        add_le_add (mul_le_mul_of_nonneg_left h1 (abs_nonneg _)) (mul_le_mul_of_nonneg_left h2 (abs_nonneg _))
    _ = 3 * u / (1 - 3 * u) * (|a * p| + |b * q|) := by ring
    _ ≤ _ := mul_le_mul_of_nonneg_left hL hg

omit hK hu in
theorem cauchy2 {a b p q : ℝ} (h : p ^ 2 + q ^ 2 = 1) : |a * p| + |b * q| ≤ √(a ^ 2 + b ^ 2) := by
  refine Real.le_sqrt_of_sq_le ?_
  have : (|a * p| + |b * q|) ^ 2 = a ^ 2 * p ^ 2 + b ^ 2 * q ^ 2 + 2 * (|a| * |q|) * (|b| * |p|) := by
    rw [abs_mul, abs_mul, add_sq, mul_pow, mul_pow, sq_abs, sq_abs, sq_abs, sq_abs]
    ring
  rw [this]
  have h2 : (|a| * |q|) ^ 2 = a ^ 2 * q ^ 2 := by rw [mul_pow, sq_abs, sq_abs]
  have h3 : (|b| * |p|) ^ 2 = b ^ 2 * p ^ 2 := by rw [mul_pow, sq_abs, sq_abs]
  nlinarith [sq_nonneg (|a| * |q| - |b| * |p|)]

/-- **C162.** The components of a vector in cylindrical coordinates: seven roundings of its horizontal part, wherever the point is. -/
theorem cartToCylVec_accurate (h : 8 * u < 1) (g v : V3 ℝ) :
    AccurateTo (√(v.x ^ 2 + v.y ^ 2)) u 8 (Spatial.cartToCylVec g v).x (cartToCylVec F K g v).x ∧
    AccurateTo (√(v.x ^ 2 + v.y ^ 2)) u 8 (Spatial.cartToCylVec g v).y (cartToCylVec F K g v).y ∧
    (cartToCylVec F K g v).z = (Spatial.cartToCylVec g v).z := by
  have hu1 : u < 1 := by linarith
  have hV := Real.sqrt_nonneg (v.x ^ 2 + v.y ^ 2)
  set th := K.arctan2 g.y g.x with hth
  set t0 := arctan2 g.y g.x with ht0
  have hd : |th - t0| ≤ 63 / 20 * u := by
    have h1 := angle_err hK hu g.y g.x
    have := Real.pi_lt_d2
    nlinarith
  have rot : ∀ s : ℝ, AccurateTo (√(v.x ^ 2 + v.y ^ 2)) u (63 / 20) (v.x * Real.cos (t0 + s) + v.y * Real.sin (t0 + s))
      (v.x * Real.cos (th + s) + v.y * Real.sin (th + s)) := by
    intro s
    refine AccurateTo.of_abs hu (by norm_num) (by linarith) hV ?_
    set R := √(v.x ^ 2 + v.y ^ 2) with hR
    have e1 := sqrt_mul_cos_arctan2 v.y v.x
    have e2 := sqrt_mul_sin_arctan2 v.y v.x
    have conv : ∀ a : ℝ, v.x * Real.cos a + v.y * Real.sin a = R * Real.cos (a - arctan2 v.y v.x) := by
      intro a
      rw [Real.cos_sub, hR]
      linear_combination -Real.cos a * e1 - Real.sin a * e2
    rw [conv, conv, ← mul_sub, abs_mul, abs_of_nonneg hV, mul_comm]
    refine mul_le_mul_of_nonneg_right ((Real.abs_cos_sub_cos_le _ _).trans ?_) hV
    rwa [show th + s - arctan2 v.y v.x - (t0 + s - arctan2 v.y v.x) = th - t0 by ring]
  have r0 := rot 0
  have r1 := rot (Real.pi / 2)
  simp only [add_zero] at r0
  simp only [Real.cos_add_pi_div_two, Real.sin_add_pi_div_two] at r1
  have nc := near_cos hK hu hu1 th
  have ns := near_sin hK hu hu1 th
  have m : ∀ a p p' : ℝ, Near u 1 p p' → Near u 2 (a * p) (F.mul p' a) := by
    intro a p p' hp
    rw [mul_comm a p]
    exact (F.near_mul hu hu1 hp (Near.refl a)).mono hu hu1 (by norm_num)
  refine ⟨?_, ?_, rfl⟩
  · have t := two_terms F hu hu1 (by linarith) (m v.x _ _ nc) (m v.y _ _ ns) (cauchy2 (by linarith [Real.sin_sq_add_cos_sq th]))
    have := (r0.trans hu (by norm_num) (by norm_num) (by linarith) hV t).mono hu (by norm_num) (by norm_num) h hV
    simpa only [Spatial.cartToCylVec, cartToCylVec, ← ht0, ← hth, mul_comm] using this
  · have t := two_terms F hu hu1 (by linarith) (m v.x _ _ ns.neg) (m v.y _ _ nc) (cauchy2 (by rw [neg_sq]; linarith [Real.sin_sq_add_cos_sq th]))
    have := (r1.trans hu (by norm_num) (by norm_num) (by linarith) hV t).mono hu (by norm_num) (by norm_num) h hV
    have e : (Spatial.cartToCylVec g v).y = v.x * -Real.sin t0 + v.y * Real.cos t0 := by simp only [Spatial.cartToCylVec, ← ht0]; ring
    rw [e]
    exact this

/-- **C162.** The Cartesian components of a vector from the cylindrical ones: three roundings of its horizontal part. -/
theorem cylToCartVec_accurate (h : 3 * u < 1) (g v : V3 ℝ) :
    AccurateTo (√(v.x ^ 2 + v.y ^ 2)) u 3 (Spatial.cylToCartVec g v).x (cylToCartVec F K g v).x ∧
    AccurateTo (√(v.x ^ 2 + v.y ^ 2)) u 3 (Spatial.cylToCartVec g v).y (cylToCartVec F K g v).y ∧
    (cylToCartVec F K g v).z = (Spatial.cylToCartVec g v).z := by
  have hu1 : u < 1 := by linarith
  have nc := near_cos hK hu hu1 g.y
  have ns := near_sin hK hu hu1 g.y
  have m : ∀ a p p' : ℝ, Near u 1 p p' → Near u 2 (a * p) (F.mul a p') := fun a p p' hp =>
    (F.near_mul hu hu1 (Near.refl a) hp).mono hu hu1 (by norm_num)
  refine ⟨?_, two_terms F hu hu1 h (m v.x _ _ ns) (m v.y _ _ nc) (cauchy2 (Real.sin_sq_add_cos_sq _)), rfl⟩
  obtain ⟨t, s, ht, hs, e⟩ := sub_fac F hu hu1 (m v.x _ _ nc) (m v.y _ _ ns)
  have h1 := (ht.mono hu hu1 (show (2 : ℝ) + 1 ≤ 3 by norm_num)).close hu (by norm_num) h
  have h2 := (hs.mono hu hu1 (show (2 : ℝ) + 1 ≤ 3 by norm_num)).close hu (by norm_num) h
  have hg : 0 ≤ 3 * u / (1 - 3 * u) := (abs_nonneg _).trans h1
  unfold AccurateTo
  simp only [cylToCartVec, Spatial.cylToCartVec]
  rw [e, show v.x * Real.cos g.y * t - v.y * Real.sin g.y * s - (v.x * Real.cos g.y - v.y * Real.sin g.y) =
    v.x * Real.cos g.y * (t - 1) - v.y * Real.sin g.y * (s - 1) by ring]
  calc _ ≤ |v.x * Real.cos g.y| * |t - 1| + |v.y * Real.sin g.y| * |s - 1| := by
        rw [← abs_mul, ← abs_mul]; exact abs_sub _ _
    _ ≤ |v.x * Real.cos g.y| * (3 * u / (1 - 3 * u)) + |v.y * Real.sin g.y| * (3 * u / (1 - 3 * u)) :=
        add_le_add (mul_le_mul_of_nonneg_left h1 (abs_nonneg _)) (mul_le_mul_of_nonneg_left h2 (abs_nonneg _))
    _ = 3 * u / (1 - 3 * u) * (|v.x * Real.cos g.y| + |v.y * Real.sin g.y|) := by ring
    _ ≤ _ := mul_le_mul_of_nonneg_left (cauchy2 (by linarith [Real.sin_sq_add_cos_sq g.y])) hg

omit hK hu in
/-- Exact operations are within any error; so are operations that are all off by the factor `1 + u`. -/
example : TrigOps.exact.Within 0 ∧
    (⟨fun a => Real.sin a * (1 + 1 / 1024), fun a => Real.cos a * (1 + 1 / 1024), fun y x => Spatial.arctan2 y x * (1 - 1 / 1024)⟩ : TrigOps).Within
      (1 / 1024) := by
  refine ⟨⟨by simp [TrigOps.exact], by simp [TrigOps.exact], by simp [TrigOps.exact]⟩, ⟨fun a => ?_, fun a => ?_, fun y x => ?_⟩⟩
  · rw [show Real.sin a * (1 + 1 / 1024) - Real.sin a = 1 / 1024 * Real.sin a by ring, abs_mul]; norm_num
  · rw [show Real.cos a * (1 + 1 / 1024) - Real.cos a = 1 / 1024 * Real.cos a by ring, abs_mul]; norm_num
  · rw [show Spatial.arctan2 y x * (1 - 1 / 1024) - Spatial.arctan2 y x = -(1 / 1024) * Spatial.arctan2 y x by ring, abs_mul]; norm_num

end Rounded

end Verif
