import Mathlib.MeasureTheory.Integral.DominatedConvergence
import Mathlib.MeasureTheory.Integral.IntervalIntegral.Basic
import Mathlib.MeasureTheory.Function.Floor
import Mathlib.Analysis.SpecialFunctions.Trigonometric.Bounds
import Mathlib.Analysis.SpecialFunctions.Trigonometric.Sinc
import Mathlib.Topology.Algebra.Order.Floor
import Mathlib.MeasureTheory.Function.SpecialFunctions.Basic

/-! # Integrals along inscribed polygons (helper lemmas for C124) -/

namespace Verif.Polygon

open Real MeasureTheory Set Filter Topology intervalIntegral

/-- A point of the edge from angle `b` to angle `b + w`, as a fraction `t` of the way; `f` is `cos` or `sin`. -/
noncomputable def chord (f : ℝ → ℝ) (b w t : ℝ) : ℝ := f b + t * (f (b + w) - f b)

/-- The position on the unit polygon of `n` edges at the fraction `s` of the way around. -/
noncomputable def pos (f : ℝ → ℝ) (n : ℕ) (s : ℝ) : ℝ := chord f (2 * π * ⌊n * s⌋ / n) (2 * π / n) (Int.fract (n * s))

/-- The velocity there. -/
noncomputable def vel (f : ℝ → ℝ) (n : ℕ) (s : ℝ) : ℝ := n * (f (2 * π * ⌊n * s⌋ / n + 2 * π / n) - f (2 * π * ⌊n * s⌋ / n))

theorem measurable_pos {f : ℝ → ℝ} (hf : Measurable f) (n : ℕ) : Measurable (pos f n) := by
  unfold pos chord
  have h1 : Measurable fun s : ℝ => ((⌊n * s⌋ : ℤ) : ℝ) := (measurable_from_top (f := fun z : ℤ => (z : ℝ))).comp (Int.measurable_floor.comp (measurable_const_mul (n : ℝ)))
  have h2 : Measurable fun s : ℝ => Int.fract (n * s) := Measurable.fract (by fun_prop)
  fun_prop

theorem measurable_vel {f : ℝ → ℝ} (hf : Measurable f) (n : ℕ) : Measurable (vel f n) := by
  unfold vel
  have h1 : Measurable fun s : ℝ => ((⌊n * s⌋ : ℤ) : ℝ) := (measurable_from_top (f := fun z : ℤ => (z : ℝ))).comp (Int.measurable_floor.comp (measurable_const_mul (n : ℝ)))
  fun_prop

/-- The polygon is close to the circle. -/
theorem abs_pos_sub {f : ℝ → ℝ} (hf : ∀ x y, |f x - f y| ≤ |x - y|) {n : ℕ} (hn : 0 < n) (s : ℝ) : |pos f n s - f (2 * π * s)| ≤ 2 * (2 * π / n) := by
  have hn' : (0 : ℝ) < n := by exact_mod_cast hn
  have h0 := Int.fract_nonneg (n * s)
  have h1 := (Int.fract_lt_one (n * s)).le
  have hs : 2 * π * s = 2 * π * ⌊n * s⌋ / n + Int.fract (n * s) * (2 * π / n) := by
    have := Int.floor_add_fract (n * s)
    have : 2 * π * s = 2 * π * (⌊n * s⌋ + Int.fract (n * s)) / n := by rw [this]; field_simp
    rw [this]; ring
  have hw : 0 < 2 * π / n := by positivity
  rw [hs, pos, chord]
  generalize Int.fract (n * s) = t at *
  generalize 2 * π * ⌊n * s⌋ / n = b at *
  generalize 2 * π / n = w at *
  have a1 : |f b - f (b + t * w)| ≤ w := by
    refine (hf _ _).trans ?_
    rw [show b - (b + t * w) = -(t * w) by ring, abs_neg, abs_of_nonneg (by positivity)]
    nlinarith
  have a2 : |f (b + w) - f b| ≤ w := by
    refine (hf _ _).trans ?_
    rw [show b + w - b = w by ring, abs_of_pos hw]
  calc |f b + t * (f (b + w) - f b) - f (b + t * w)| = |(f b - f (b + t * w)) + t * (f (b + w) - f b)| := by ring_nf
    _ ≤ |f b - f (b + t * w)| + |t * (f (b + w) - f b)| := abs_add_le _ _
    _ ≤ w + 1 * w := by
      gcongr
      rw [abs_mul, abs_of_nonneg h0]
      gcongr
    _ = 2 * w := by ring

theorem tendsto_pos {f : ℝ → ℝ} (hf : ∀ x y, |f x - f y| ≤ |x - y|) (s : ℝ) : Tendsto (fun n => pos f n s) atTop (𝓝 (f (2 * π * s))) := by
  have h : Tendsto (fun n : ℕ => 2 * (2 * π / (n : ℝ))) atTop (𝓝 0) := by
    simpa using (tendsto_const_div_atTop_nhds_zero_nat (2 * π)).const_mul 2
  rw [tendsto_iff_norm_sub_tendsto_zero]
  refine squeeze_zero' (Eventually.of_forall fun _ => norm_nonneg _) ?_ h
  filter_upwards [eventually_gt_atTop 0] with n hn
  exact abs_pos_sub hf hn s

theorem abs_vel {f : ℝ → ℝ} (hf : ∀ x y, |f x - f y| ≤ |x - y|) (n : ℕ) (s : ℝ) : |vel f n s| ≤ 2 * π := by
  rcases Nat.eq_zero_or_pos n with h | h
  · subst h; simp [vel]; positivity
  have hn' : (0 : ℝ) < n := by exact_mod_cast h
  rw [vel, abs_mul, abs_of_pos hn']
  have := hf (2 * π * ⌊n * s⌋ / n + 2 * π / n) (2 * π * ⌊n * s⌋ / n)
  rw [add_sub_cancel_left, abs_of_pos (show 0 < 2 * π / (n : ℝ) by positivity)] at this
  calc (n : ℝ) * _ ≤ n * (2 * π / n) := by gcongr
    _ = 2 * π := by field_simp

theorem tendsto_angle (s : ℝ) : Tendsto (fun n : ℕ => 2 * π * ⌊n * s⌋ / n + π / n) atTop (𝓝 (2 * π * s)) := by
  have h1 : Tendsto (fun n : ℕ => (⌊n * s⌋ : ℝ) / n) atTop (𝓝 s) := by
    have h : Tendsto (fun n : ℕ => s - Int.fract (n * s) / (n : ℝ)) atTop (𝓝 (s - 0)) := by
      refine Tendsto.const_sub _ ?_
      refine squeeze_zero (fun n => div_nonneg (Int.fract_nonneg _) n.cast_nonneg) (fun n => ?_) (tendsto_const_div_atTop_nhds_zero_nat 1)
      exact div_le_div_of_nonneg_right (Int.fract_lt_one _).le n.cast_nonneg
    rw [sub_zero] at h
    refine h.congr' ?_
    filter_upwards [eventually_gt_atTop 0] with n hn
    have hn' : (n : ℝ) ≠ 0 := by exact_mod_cast hn.ne'
    rw [Int.fract]
    field_simp
    ring
  have h2 := (h1.const_mul (2 * π)).add (tendsto_const_div_atTop_nhds_zero_nat π)
  rw [add_zero] at h2
  exact h2.congr fun n => by ring

theorem tendsto_sin_scaled : Tendsto (fun n : ℕ => (n : ℝ) * sin (π / n)) atTop (𝓝 π) := by
  have h1 : Tendsto (fun n : ℕ => π / (n : ℝ)) atTop (𝓝 0) := tendsto_const_div_atTop_nhds_zero_nat π
  have h2 := (continuous_sinc.tendsto 0).comp h1
  rw [sinc_zero] at h2
  have h3 := h2.const_mul π
  rw [mul_one] at h3
  refine h3.congr' ?_
  filter_upwards [eventually_gt_atTop 0] with n hn
  have hn' : (0 : ℝ) < n := by exact_mod_cast hn
  simp only [Function.comp]
  rw [sinc_of_ne_zero (by positivity)]
  field_simp

theorem tendsto_vel_cos (s : ℝ) : Tendsto (fun n => vel cos n s) atTop (𝓝 (-(2 * π * sin (2 * π * s)))) := by
  have h := (tendsto_sin_scaled.mul ((continuous_sin.tendsto _).comp (tendsto_angle s))).const_mul (-2)
  rw [show -2 * (π * sin (2 * π * s)) = -(2 * π * sin (2 * π * s)) by ring] at h
  refine h.congr fun n => ?_
  simp only [Function.comp, vel]
  rw [cos_sub_cos, show (2 * π * ⌊n * s⌋ / n + 2 * π / n + 2 * π * ⌊n * s⌋ / n) / 2 = 2 * π * ⌊n * s⌋ / n + π / n by ring,
    show (2 * π * ⌊n * s⌋ / n + 2 * π / n - 2 * π * ⌊n * s⌋ / n) / 2 = π / n by ring]
  ring

theorem tendsto_vel_sin (s : ℝ) : Tendsto (fun n => vel sin n s) atTop (𝓝 (2 * π * cos (2 * π * s))) := by
  have h := (tendsto_sin_scaled.mul ((continuous_cos.tendsto _).comp (tendsto_angle s))).const_mul 2
  rw [show 2 * (π * cos (2 * π * s)) = 2 * π * cos (2 * π * s) by ring] at h
  refine h.congr fun n => ?_
  simp only [Function.comp, vel]
  rw [sin_sub_sin, show (2 * π * ⌊n * s⌋ / n + 2 * π / n + 2 * π * ⌊n * s⌋ / n) / 2 = 2 * π * ⌊n * s⌋ / n + π / n by ring,
    show (2 * π * ⌊n * s⌋ / n + 2 * π / n - 2 * π * ⌊n * s⌋ / n) / 2 = π / n by ring]
  ring

theorem cos_lipschitz (x y : ℝ) : |cos x - cos y| ≤ |x - y| := by
  rw [cos_sub_cos, abs_mul, abs_mul, abs_neg, abs_two]
  have h1 := abs_sin_le_one ((x + y) / 2)
  have h2 := abs_sin_le_abs (x := (x - y) / 2)
  rw [abs_div, abs_two] at h2
  nlinarith [abs_nonneg (sin ((x - y) / 2)), abs_nonneg (sin ((x + y) / 2))]

theorem sin_lipschitz (x y : ℝ) : |sin x - sin y| ≤ |x - y| := by
  rw [sin_sub_sin, abs_mul, abs_mul, abs_two]
  have h1 := abs_cos_le_one ((x + y) / 2)
  have h2 := abs_sin_le_abs (x := (x - y) / 2)
  rw [abs_div, abs_two] at h2
  nlinarith [abs_nonneg (sin ((x - y) / 2)), abs_nonneg (cos ((x + y) / 2))]

/-- The integral along the polygon is the sum over its edges. -/
theorem integral_edges {κ : ℝ → ℝ → ℝ → ℝ → ℝ} (hk : ∀ x y u v c : ℝ, κ x y (c * u) (c * v) = c * κ x y u v) {n : ℕ} (hn : 0 < n)
    (hi : ∀ k : ℕ, k < n → IntervalIntegrable (fun t => κ (chord cos (2 * π * k / n) (2 * π / n) t) (chord sin (2 * π * k / n) (2 * π / n) t)
      (cos (2 * π * k / n + 2 * π / n) - cos (2 * π * k / n)) (sin (2 * π * k / n + 2 * π / n) - sin (2 * π * k / n))) volume 0 1) :
    ∫ s in (0 : ℝ)..1, κ (pos cos n s) (pos sin n s) (vel cos n s) (vel sin n s) =
      ∑ k ∈ Finset.range n, ∫ t in (0 : ℝ)..1, κ (chord cos (2 * π * k / n) (2 * π / n) t) (chord sin (2 * π * k / n) (2 * π / n) t)
        (cos (2 * π * k / n + 2 * π / n) - cos (2 * π * k / n)) (sin (2 * π * k / n + 2 * π / n) - sin (2 * π * k / n)) := by
  have hn' : (0 : ℝ) < n := by exact_mod_cast hn
  set g : ℕ → ℝ → ℝ := fun k t => κ (chord cos (2 * π * k / n) (2 * π / n) t) (chord sin (2 * π * k / n) (2 * π / n) t)
        (cos (2 * π * k / n + 2 * π / n) - cos (2 * π * k / n)) (sin (2 * π * k / n + 2 * π / n) - sin (2 * π * k / n)) with hg
  set F : ℝ → ℝ := fun s => κ (pos cos n s) (pos sin n s) (vel cos n s) (vel sin n s) with hF
  have piece : ∀ k : ℕ, ∀ s ∈ Ioo ((k : ℝ) / n) ((k + 1 : ℕ) / n), F s = n * g k (n * s - k) := by
    intro k s hs
    have h1 : (k : ℝ) < n * s := by have := (div_lt_iff₀ hn').1 hs.1; linarith
    have h2 : n * s < k + 1 := by have := (lt_div_iff₀ hn').1 hs.2; push_cast at this; linarith
    have hfl : ⌊(n : ℝ) * s⌋ = (k : ℤ) := Int.floor_eq_iff.2 ⟨by simpa using h1.le, by simpa using h2⟩
    simp only [hF, hg, pos, vel, Int.fract, hfl, Int.cast_natCast, hk]
  have pieceInt : ∀ k : ℕ, (∫ s in ((k : ℝ) / n)..((k + 1 : ℕ) / n), F s) = ∫ t in (0 : ℝ)..1, g k t := by
    intro k
    have hle : (k : ℝ) / n ≤ ((k + 1 : ℕ) : ℝ) / n := by push_cast; gcongr; linarith
    have e : (∫ s in ((k : ℝ) / n)..((k + 1 : ℕ) / n), F s) = ∫ s in ((k : ℝ) / n)..((k + 1 : ℕ) / n), n * g k (n * s - k) := by
      rw [integral_of_le hle, integral_of_le hle, ← integral_Ioc_eq_integral_Ioo.symm, ← integral_Ioc_eq_integral_Ioo.symm]
      exact setIntegral_congr_fun measurableSet_Ioo (piece k)
    rw [e, intervalIntegral.integral_const_mul, intervalIntegral.integral_comp_mul_sub (fun t => g k t) hn'.ne']
    push_cast
    rw [mul_div_cancel₀ _ hn'.ne', mul_div_cancel₀ _ hn'.ne', smul_eq_mul, sub_self, add_sub_cancel_left, ← mul_assoc, mul_inv_cancel₀ hn'.ne', one_mul]
  have pieceIi : ∀ k < n, IntervalIntegrable F volume ((k : ℝ) / n) ((k + 1 : ℕ) / n) := by
    intro k hkn
    have hle : (k : ℝ) / n ≤ ((k + 1 : ℕ) : ℝ) / n := by push_cast; gcongr; linarith
    have h1 := ((hi k hkn).comp_mul_left (c := n)).comp_sub_right ((k : ℝ) / n)
    rw [intervalIntegrable_iff_integrableOn_Ioo_of_le hle]
    have e0 : (0 : ℝ) / n + k / n = k / n := by ring
    have e1 : (1 : ℝ) / n + k / n = ((k + 1 : ℕ) : ℝ) / n := by push_cast; ring
    rw [e0, e1, intervalIntegrable_iff_integrableOn_Ioo_of_le hle] at h1
    have h2 : IntegrableOn (fun s => (n : ℝ) * g k (n * (s - (k : ℝ) / n))) (Ioo ((k : ℝ) / n) ((k + 1 : ℕ) / n)) := h1.const_mul (n : ℝ)
    refine h2.congr_fun (fun s hs => ?_) measurableSet_Ioo
    rw [piece k s hs]
    simp only
    rw [mul_sub, mul_div_cancel₀ _ hn'.ne']
  have h := intervalIntegral.sum_integral_adjacent_intervals pieceIi
  simp only [Nat.cast_zero, zero_div, div_self hn'.ne', pieceInt] at h
  exact h.symm

/-- If the integrand depends continuously on position and velocity, and is bounded, the integrals along the polygons tend to the one along the
circle. -/
theorem tendsto_polygon {κ : ℝ → ℝ → ℝ → ℝ → ℝ} (hm : Measurable fun w : ℝ × ℝ × ℝ × ℝ => κ w.1 w.2.1 w.2.2.1 w.2.2.2) {M : ℝ}
    {l : Filter ℕ} [l.IsCountablyGenerated] (hl : l ≤ atTop) (hM : ∀ᶠ n in l, ∀ s ∈ Icc (0 : ℝ) 1, |κ (pos cos n s) (pos sin n s) (vel cos n s) (vel sin n s)| ≤ M)
    (hc : ∀ s : ℝ, ContinuousAt (fun w : ℝ × ℝ × ℝ × ℝ => κ w.1 w.2.1 w.2.2.1 w.2.2.2)
      (cos (2 * π * s), sin (2 * π * s), -(2 * π * sin (2 * π * s)), 2 * π * cos (2 * π * s))) :
    Tendsto (fun n => ∫ s in (0 : ℝ)..1, κ (pos cos n s) (pos sin n s) (vel cos n s) (vel sin n s)) l
      (𝓝 (∫ s in (0 : ℝ)..1, κ (cos (2 * π * s)) (sin (2 * π * s)) (-(2 * π * sin (2 * π * s))) (2 * π * cos (2 * π * s)))) := by
  refine intervalIntegral.tendsto_integral_filter_of_dominated_convergence (fun _ => M) ?_ ?_ (by simp) ?_
  · refine Eventually.of_forall fun n => Measurable.aestronglyMeasurable ?_
    exact hm.comp ((measurable_pos measurable_cos n).prodMk ((measurable_pos measurable_sin n).prodMk
      ((measurable_vel measurable_cos n).prodMk (measurable_vel measurable_sin n))))
  · filter_upwards [hM] with n hn
    exact Eventually.of_forall fun s hs => hn s (by rw [uIoc_of_le zero_le_one] at hs; exact ⟨hs.1.le, hs.2⟩)
  · refine Eventually.of_forall fun s _ => ?_
    exact (hc s).tendsto.comp (Tendsto.mono_left ((tendsto_pos cos_lipschitz s).prodMk_nhds ((tendsto_pos sin_lipschitz s).prodMk_nhds
      ((tendsto_vel_cos s).prodMk_nhds (tendsto_vel_sin s)))) hl)

theorem abs_pos {f : ℝ → ℝ} (hf : ∀ x, |f x| ≤ 1) (n : ℕ) (s : ℝ) : |pos f n s| ≤ 1 := by
  have h0 := Int.fract_nonneg (n * s)
  have h1 := (Int.fract_lt_one (n * s)).le
  rw [pos, chord]
  generalize Int.fract (n * s) = t at *
  have a1 := abs_le.1 (hf (2 * π * ⌊n * s⌋ / n))
  have a2 := abs_le.1 (hf (2 * π * ⌊n * s⌋ / n + 2 * π / n))
  generalize f (2 * π * ⌊n * s⌋ / n) = u at *
  generalize f (2 * π * ⌊n * s⌋ / n + 2 * π / n) = v at *
  rw [abs_le]
  constructor <;> nlinarith

/-- The sums over the edges of the polygons of the integrals of `N / D ^ j`, with `N` linear in the velocity and `D` a distance that vanishes
nowhere on the circle, tend to the integral along the circle. -/
theorem tendsto_edges {N : ℝ → ℝ → ℝ → ℝ → ℝ} {D : ℝ → ℝ → ℝ} (hN : Continuous fun w : ℝ × ℝ × ℝ × ℝ => N w.1 w.2.1 w.2.2.1 w.2.2.2)
    (hD : Continuous fun w : ℝ × ℝ => D w.1 w.2) (hk : ∀ x y u v c : ℝ, N x y (c * u) (c * v) = c * N x y u v)
    (h0 : ∀ t, D (cos t) (sin t) ≠ 0) (hpos : ∀ x y, 0 ≤ D x y) {L : ℝ} (hL : ∀ x y x' y', |D x y - D x' y'| ≤ L * (|x - x'| + |y - y'|)) (hL0 : 0 ≤ L) (j : ℕ)
    {l : Filter ℕ} [l.IsCountablyGenerated] (hl : l ≤ atTop) (off : ∀ᶠ n : ℕ in l, ∀ k < n, ∀ t : ℝ, D (chord cos (2 * π * k / n) (2 * π / n) t) (chord sin (2 * π * k / n) (2 * π / n) t) ≠ 0) :
    Tendsto (fun n : ℕ => ∑ k ∈ Finset.range n, ∫ t in (0 : ℝ)..1,
        N (chord cos (2 * π * k / n) (2 * π / n) t) (chord sin (2 * π * k / n) (2 * π / n) t)
          (cos (2 * π * k / n + 2 * π / n) - cos (2 * π * k / n)) (sin (2 * π * k / n + 2 * π / n) - sin (2 * π * k / n)) /
        D (chord cos (2 * π * k / n) (2 * π / n) t) (chord sin (2 * π * k / n) (2 * π / n) t) ^ j) l
      (𝓝 (∫ t in (0 : ℝ)..(2 * π), N (cos t) (sin t) (-sin t) (cos t) / D (cos t) (sin t) ^ j)) := by
  set κ : ℝ → ℝ → ℝ → ℝ → ℝ := fun x y u v => N x y u v / D x y ^ j with hκ
  have hom : ∀ x y u v c : ℝ, κ x y (c * u) (c * v) = c * κ x y u v := fun x y u v c => by simp only [hκ, hk, mul_div_assoc]
  have hD' : Continuous fun w : ℝ × ℝ × ℝ × ℝ => D w.1 w.2.1 := hD.comp (f := fun w : ℝ × ℝ × ℝ × ℝ => (w.1, w.2.1)) (by fun_prop)
  -- the distance is bounded below
  obtain ⟨δ, hδ, hδ'⟩ : ∃ δ > 0, ∀ s ∈ Icc (0 : ℝ) 1, δ ≤ D (cos (2 * π * s)) (sin (2 * π * s)) := by
    have hc : ContinuousOn (fun s : ℝ => D (cos (2 * π * s)) (sin (2 * π * s))) (Icc 0 1) :=
      (hD.comp (f := fun s : ℝ => (cos (2 * π * s), sin (2 * π * s))) (by fun_prop)).continuousOn
    obtain ⟨s0, -, hs0⟩ := isCompact_Icc.exists_isMinOn (nonempty_Icc.2 zero_le_one) hc
    exact ⟨_, lt_of_le_of_ne (hpos _ _) (h0 _).symm, fun s hs => hs0 hs⟩
  have low : ∀ᶠ n : ℕ in atTop, ∀ s ∈ Icc (0 : ℝ) 1, δ / 2 ≤ D (pos cos n s) (pos sin n s) := by
    have h : Tendsto (fun n : ℕ => L * (2 * (2 * π / (n : ℝ)) + 2 * (2 * π / (n : ℝ)))) atTop (𝓝 0) := by
      simpa using (((tendsto_const_div_atTop_nhds_zero_nat (2 * π)).const_mul 2).add ((tendsto_const_div_atTop_nhds_zero_nat (2 * π)).const_mul 2)).const_mul L
    filter_upwards [h.eventually_lt_const (half_pos hδ), eventually_gt_atTop 0] with n h1 hn s hs
    have a := hL (pos cos n s) (pos sin n s) (cos (2 * π * s)) (sin (2 * π * s))
    have b1 := abs_pos_sub cos_lipschitz hn s
    have b2 := abs_pos_sub sin_lipschitz hn s
    have c := hδ' s hs
    have d : L * (|pos cos n s - cos (2 * π * s)| + |pos sin n s - sin (2 * π * s)|) ≤ L * (2 * (2 * π / (n : ℝ)) + 2 * (2 * π / (n : ℝ))) := by gcongr
    have e := (abs_le.1 a).1
    linarith
  -- the numerator is bounded
  obtain ⟨B, hB⟩ : ∃ B, ∀ w ∈ Icc (-1 : ℝ) 1 ×ˢ Icc (-1 : ℝ) 1 ×ˢ Icc (-(2 * π)) (2 * π) ×ˢ Icc (-(2 * π)) (2 * π), ‖N w.1 w.2.1 w.2.2.1 w.2.2.2‖ ≤ B :=
    (isCompact_Icc.prod (isCompact_Icc.prod (isCompact_Icc.prod isCompact_Icc))).exists_bound_of_continuousOn hN.continuousOn
  have hm : Measurable fun w : ℝ × ℝ × ℝ × ℝ => κ w.1 w.2.1 w.2.2.1 w.2.2.2 := hN.measurable.div (hD'.measurable.pow_const j)
  have main := tendsto_polygon (κ := κ) hm (M := B / (δ / 2) ^ j) hl ?_ ?_
  · have e : (∫ s in (0 : ℝ)..1, κ (cos (2 * π * s)) (sin (2 * π * s)) (-(2 * π * sin (2 * π * s))) (2 * π * cos (2 * π * s))) =
        ∫ t in (0 : ℝ)..(2 * π), N (cos t) (sin t) (-sin t) (cos t) / D (cos t) (sin t) ^ j := by
      have h2 : (2 * π : ℝ) ≠ 0 := by positivity
      have : ∀ s : ℝ, κ (cos (2 * π * s)) (sin (2 * π * s)) (-(2 * π * sin (2 * π * s))) (2 * π * cos (2 * π * s)) =
          2 * π * (fun t => κ (cos t) (sin t) (-sin t) (cos t)) (2 * π * s) := fun s => by
        rw [← mul_neg, hom]
      simp only [this]
      rw [intervalIntegral.integral_const_mul, intervalIntegral.integral_comp_mul_left (fun t => κ (cos t) (sin t) (-sin t) (cos t)) h2, smul_eq_mul,
        ← mul_assoc, mul_inv_cancel₀ h2, one_mul, mul_zero, mul_one]
    rw [e] at main
    refine main.congr' ?_
    filter_upwards [off, (eventually_gt_atTop 0).filter_mono hl] with n ho hn
    refine integral_edges hom hn fun k hkn => ContinuousOn.intervalIntegrable ?_
    refine ContinuousOn.div ?_ ?_ fun t _ => pow_ne_zero _ (ho k hkn t)
    · refine (hN.comp (f := fun t : ℝ => (chord cos (2 * π * k / n) (2 * π / n) t, chord sin (2 * π * k / n) (2 * π / n) t,
        cos (2 * π * k / n + 2 * π / n) - cos (2 * π * k / n), sin (2 * π * k / n + 2 * π / n) - sin (2 * π * k / n))) ?_).continuousOn
      unfold chord; fun_prop
    · refine ((hD.comp (f := fun t : ℝ => (chord cos (2 * π * k / n) (2 * π / n) t, chord sin (2 * π * k / n) (2 * π / n) t)) ?_).pow j).continuousOn
      unfold chord; fun_prop
  · filter_upwards [low.filter_mono hl] with n hlow s hs
    have h1 := abs_le.1 (abs_pos abs_cos_le_one n s)
    have h2 := abs_le.1 (abs_pos abs_sin_le_one n s)
    have h3 := abs_le.1 (abs_vel cos_lipschitz n s)
    have h4 := abs_le.1 (abs_vel sin_lipschitz n s)
    have hb := hB (pos cos n s, pos sin n s, vel cos n s, vel sin n s) ⟨h1, h2, h3, h4⟩
    rw [norm_eq_abs] at hb
    have hl' := hlow s hs
    have hB0 : 0 ≤ B := (abs_nonneg _).trans hb
    simp only [hκ]
    rw [abs_div, abs_of_nonneg (pow_nonneg (hpos _ _) j)]
    gcongr
  · intro s
    exact hN.continuousAt.div (hD'.continuousAt.pow j) (pow_ne_zero _ (h0 _))

end Verif.Polygon
