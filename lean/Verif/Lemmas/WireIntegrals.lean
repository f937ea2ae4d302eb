import Verif.Lemmas.LoopFields

/-! # The line integrals over a circular wire in closed form (helper lemmas) -/

namespace Verif.CircularWire

open Real MeasureTheory intervalIntegral Static Spatial

section frame
variable {e1 e2 n : V3 ℝ}

theorem IsFrame.cross23 (h : IsFrame e1 e2 n) : e2.cross n = e1 := by
  obtain ⟨h1, h2, h3, rfl⟩ := h
  simp only [V3.dot] at h1 h2 h3
  ext <;> simp
  · linear_combination e1.x * h2 - e2.x * h3
  · linear_combination e1.y * h2 - e2.y * h3
  · linear_combination e1.z * h2 - e2.z * h3

theorem IsFrame.cross31 (h : IsFrame e1 e2 n) : n.cross e1 = e2 := by
  obtain ⟨h1, h2, h3, rfl⟩ := h
  simp only [V3.dot] at h1 h2 h3
  ext <;> simp
  · linear_combination e2.x * h1 - e1.x * h3
  · linear_combination e2.y * h1 - e1.y * h3
  · linear_combination e2.z * h1 - e1.z * h3

theorem IsFrame.dots (h : IsFrame e1 e2 n) : e1.dot n = 0 ∧ e2.dot n = 0 ∧ n.dot n = 1 := by
  obtain ⟨h1, h2, h3, rfl⟩ := h
  refine ⟨by simp [V3.dot]; ring, by simp [V3.dot]; ring, ?_⟩
  rw [V3.cross_dot_self, h1, h2, h3]; norm_num

/-- Vector with coordinates `(x, y, z)` in the frame. -/
noncomputable def comb (e1 e2 n : V3 ℝ) (x y z : ℝ) : V3 ℝ := x • e1 + y • e2 + z • n

theorem IsFrame.expand (h : IsFrame e1 e2 n) (d : V3 ℝ) : d = comb e1 e2 n (e1.dot d) (e2.dot d) (n.dot d) := by
  obtain ⟨-, -, hn⟩ := h.dots
  have h23 := h.cross23
  have h31 := h.cross31
  have key : (n.dot n) • d = (d.dot (e2.cross n)) • e1 + (d.dot (n.cross e1)) • e2 + (d.dot n) • n := by
    rw [← h.2.2.2]
    ext <;> simp [V3.dot] <;> ring
  rw [hn, one_smul, h23, h31] at key
  rw [comb]
  simp only [V3.dot, mul_comm] at key ⊢
  exact key

theorem IsFrame.cross (h : IsFrame e1 e2 n) (x y z x' y' z' : ℝ) :
    (comb e1 e2 n x y z).cross (comb e1 e2 n x' y' z') = comb e1 e2 n (y * z' - z * y') (z * x' - x * z') (x * y' - y * x') := by
  have key : (comb e1 e2 n x y z).cross (comb e1 e2 n x' y' z') =
      (y * z' - z * y') • e2.cross n + (z * x' - x * z') • n.cross e1 + (x * y' - y * x') • e1.cross e2 := by
    ext <;> simp [comb] <;> ring
  rw [key, h.cross23, h.cross31, h.2.2.2, comb]

theorem IsFrame.len_sq (h : IsFrame e1 e2 n) (x y z : ℝ) : (comb e1 e2 n x y z).len ^ 2 = x ^ 2 + y ^ 2 + z ^ 2 := by
  obtain ⟨h13, h23, h33⟩ := h.dots
  obtain ⟨h11, h22, h12, -⟩ := h
  rw [← V3.dot_self]
  simp only [V3.dot] at *
  simp [comb]
  linear_combination x ^ 2 * h11 + y ^ 2 * h22 + z ^ 2 * h33 + 2 * x * y * h12 + 2 * x * z * h13 + 2 * y * z * h23

theorem IsFrame.len_n (h : IsFrame e1 e2 n) : n.len = 1 := by
  have := h.dots.2.2
  rw [V3.dot_self] at this
  have := V3.len_nonneg n
  nlinarith

theorem IsFrame.axisDist (h : IsFrame e1 e2 n) (d : V3 ℝ) : axisDist n d = √(e1.dot d ^ 2 + e2.dot d ^ 2) := by
  have h1 := h.len_sq (e1.dot d) (e2.dot d) (n.dot d)
  rw [← h.expand] at h1
  rw [Static.axisDist, h1]; congr 1; ring

end frame

section integrals

theorem circle_shift (p A B : ℝ) (F G : ℝ → ℝ) (hF : Continuous fun t => F (cos t)) (hG : Continuous fun t => G (cos t)) :
    ∫ t in (0 : ℝ)..(2 * π), (A * F (cos (t - p)) + B * (sin (t - p) * G (cos (t - p)))) =
      A * ∫ t in (0 : ℝ)..(2 * π), F (cos t) := by
  have hper : Function.Periodic (fun t => A * F (cos t) + B * (sin t * G (cos t))) (2 * π) := fun t => by
    simp only [cos_add_two_pi, sin_add_two_pi]
  have k1 : Continuous fun t => A * F (cos t) := continuous_const.mul hF
  have k2 : Continuous fun t => B * (sin t * G (cos t)) := continuous_const.mul (continuous_sin.mul hG)
  rw [integral_shift_circle _ hper p, intervalIntegral.integral_add (k1.intervalIntegrable _ _)
    (k2.intervalIntegrable _ _), intervalIntegral.integral_const_mul,
    intervalIntegral.integral_const_mul, integral_sin_circle, mul_zero, add_zero]

variable {e1 e2 n c q : V3 ℝ} {a : ℝ}

/-- The integrals `∮ dl/|q-s|` and `∮ dl × (q-s)/|q-s|³` in the frame of the point: everything odd in the relative angle drops
out. -/
theorem wire_integrals (h : IsFrame e1 e2 n) (ha : 0 ≤ a)
    (hne : (a - axisDist n (q - c)) ^ 2 + n.dot (q - c) ^ 2 ≠ 0) :
    ∃ u w : V3 ℝ, axisDist n (q - c) • u = n.cross (q - c) ∧ axisDist n (q - c) • w = (q - c) - n.dot (q - c) • n ∧
      n.dot w = 0 ∧
      potential c e1 e2 a q =
        (a * ∫ t in (0 : ℝ)..(2 * π), cos t / √(wireDistSq a (axisDist n (q - c)) (n.dot (q - c)) (cos t))) • u ∧
      flux c e1 e2 a q =
        (a * n.dot (q - c) *
          ∫ t in (0 : ℝ)..(2 * π), cos t / √(wireDistSq a (axisDist n (q - c)) (n.dot (q - c)) (cos t)) ^ 3) • w +
        (a * (a * (∫ t in (0 : ℝ)..(2 * π), 1 / √(wireDistSq a (axisDist n (q - c)) (n.dot (q - c)) (cos t)) ^ 3) -
          axisDist n (q - c) *
            ∫ t in (0 : ℝ)..(2 * π), cos t / √(wireDistSq a (axisDist n (q - c)) (n.dot (q - c)) (cos t)) ^ 3)) • n := by
  have hd : q - c = comb e1 e2 n (e1.dot (q - c)) (e2.dot (q - c)) (n.dot (q - c)) := h.expand _
  have hdist : ∀ t, q - point c e1 e2 a t = comb e1 e2 n (e1.dot (q - c) - a * cos t) (e2.dot (q - c) - a * sin t) (n.dot (q - c)) := by
    intro t
    have : q - point c e1 e2 a t = (q - c) - comb e1 e2 n (a * cos t) (a * sin t) 0 := by
      rw [point, comb]; module
    rw [this]
    conv_lhs => rw [hd]
    simp only [comb]; module
  have htan : ∀ t, tangent e1 e2 a t = comb e1 e2 n (-(a * sin t)) (a * cos t) 0 := by
    intro t; rw [tangent, comb]; module
  have hrho := h.axisDist (q - c)
  simp only [potential, flux, htan, hdist, h.cross]
  generalize e1.dot (q - c) = x at *
  generalize e2.dot (q - c) = y at *
  generalize n.dot (q - c) = z at *
  obtain ⟨hc, hs⟩ := polar_cos_sin x y
  rw [← hrho] at hc hs
  have hr0 := axisDist_nonneg n (q - c)
  generalize axisDist n (q - c) = rho at *
  generalize arctan2 y x = p at *
  have hlen : ∀ t, (comb e1 e2 n (x - a * cos t) (y - a * sin t) z).len = √(wireDistSq a rho z (cos (t - p))) := by
    intro t
    rw [← sqrt_sq (V3.len_nonneg (comb e1 e2 n (x - a * cos t) (y - a * sin t) z)), h.len_sq, wireDistSq, cos_sub]
    congr 1
    have h1 := sin_sq_add_cos_sq p
    have h2 := sin_sq_add_cos_sq t
    rw [← hc, ← hs]
    linear_combination rho ^ 2 * h1 + a ^ 2 * h2
  simp only [hlen]
  obtain ⟨c1, c3⟩ := continuous_wire (z := z) ha hr0 hne
  have c1' : Continuous fun t => cos t / √(wireDistSq a rho z (cos t)) :=
    (continuous_cos.mul c1).congr fun t => by simp [div_eq_mul_inv]
  have c3' : Continuous fun t => cos t / √(wireDistSq a rho z (cos t)) ^ 3 :=
    (continuous_cos.mul c3).congr fun t => by simp [div_eq_mul_inv]
  have ct : ∀ t, cos t = cos (t - p) * cos p - sin (t - p) * sin p := fun t => by rw [← cos_add]; congr 1; ring
  have st : ∀ t, sin t = sin (t - p) * cos p + cos (t - p) * sin p := fun t => by rw [← sin_add]; congr 1; ring
  refine ⟨comb e1 e2 n (-sin p) (cos p) 0, comb e1 e2 n (cos p) (sin p) 0, ?_, ?_, ?_, ?_, ?_⟩
  · have hnc : n = comb e1 e2 n 0 0 1 := by simp [comb]
    have : n.cross (q - c) = (comb e1 e2 n 0 0 1).cross (comb e1 e2 n x y z) := by rw [← hd, ← hnc]
    rw [this, h.cross, ← hc, ← hs]
    simp only [comb]; module
  · rw [hd, ← hc, ← hs]
    simp only [comb]; module
  · obtain ⟨h13, h23, -⟩ := h.dots
    simp only [V3.dot] at h13 h23
    simp [comb, V3.dot]
    linear_combination cos p * h13 + sin p * h23
  · have k : ∀ A B : ℝ, ∫ t in (0 : ℝ)..(2 * π), (-(a * sin t) * A + a * cos t * B) / √(wireDistSq a rho z (cos (t - p))) =
        a * (∫ t in (0 : ℝ)..(2 * π), cos t / √(wireDistSq a rho z (cos t))) * (-sin p * A + cos p * B) := by
      intro A B
      rw [mul_right_comm, ← circle_shift p (a * (-sin p * A + cos p * B)) (-a * (cos p * A + sin p * B)) (fun c => c / √(wireDistSq a rho z c))
        (fun c => 1 / √(wireDistSq a rho z c)) c1' c1]
      refine integral_congr fun t _ => ?_
      beta_reduce
      rw [st t, ct t]
      ring
    ext
    · simpa [integral, comb, mul_add] using k e1.x e2.x
    · simpa [integral, comb, mul_add] using k e1.y e2.y
    · simpa [integral, comb, mul_add] using k e1.z e2.z
  · have k : ∀ A B D : ℝ, ∫ t in (0 : ℝ)..(2 * π), (a * cos t * z * A + a * sin t * z * B +
          (-(a * sin t * (y - a * sin t)) - a * cos t * (x - a * cos t)) * D) / √(wireDistSq a rho z (cos (t - p))) ^ 3 =
        a * z * (∫ t in (0 : ℝ)..(2 * π), cos t / √(wireDistSq a rho z (cos t)) ^ 3) * (cos p * A + sin p * B) +
        a * (a * (∫ t in (0 : ℝ)..(2 * π), 1 / √(wireDistSq a rho z (cos t)) ^ 3) -
          rho * ∫ t in (0 : ℝ)..(2 * π), cos t / √(wireDistSq a rho z (cos t)) ^ 3) * D := by
      intro A B D
      have m1 := circle_shift p (a * z * (cos p * A + sin p * B) - a * rho * D) (a * z * (cos p * B - sin p * A))
        (fun c => c / √(wireDistSq a rho z c) ^ 3) (fun c => 1 / √(wireDistSq a rho z c) ^ 3) c3' c3
      have m2 := circle_shift p (a * a * D) 0 (fun c => 1 / √(wireDistSq a rho z c) ^ 3) (fun c => 1 / √(wireDistSq a rho z c) ^ 3) c3 c3
      have hcsub : Continuous fun t : ℝ => cos (t - p) / √(wireDistSq a rho z (cos (t - p))) ^ 3 := c3'.comp (continuous_id.sub continuous_const)
      have hcsub1 : Continuous fun t : ℝ => 1 / √(wireDistSq a rho z (cos (t - p))) ^ 3 := c3.comp (continuous_id.sub continuous_const)
      have l1 : Continuous fun t : ℝ => (a * z * (cos p * A + sin p * B) - a * rho * D) * (cos (t - p) / √(wireDistSq a rho z (cos (t - p))) ^ 3) +
          a * z * (cos p * B - sin p * A) * (sin (t - p) * (1 / √(wireDistSq a rho z (cos (t - p))) ^ 3)) :=
        (continuous_const.mul hcsub).add (continuous_const.mul ((continuous_sin.comp (continuous_id.sub continuous_const)).mul hcsub1))
      have l2 : Continuous fun t : ℝ => a * a * D * (1 / √(wireDistSq a rho z (cos (t - p))) ^ 3) +
          0 * (sin (t - p) * (1 / √(wireDistSq a rho z (cos (t - p))) ^ 3)) :=
        (continuous_const.mul hcsub1).add (continuous_const.mul ((continuous_sin.comp (continuous_id.sub continuous_const)).mul hcsub1))
      have m3 := intervalIntegral.integral_add (l1.intervalIntegrable 0 (2 * π)) (l2.intervalIntegrable (μ := volume) 0 (2 * π))
      rw [m1, m2] at m3
      have m4 : ∀ I1 I3 : ℝ, (a * z * (cos p * A + sin p * B) - a * rho * D) * I1 + a * a * D * I3 =
        a * z * I1 * (cos p * A + sin p * B) + a * (a * I3 - rho * I1) * D := fun _ _ => by ring
      rw [← m4, ← m3]
      refine integral_congr fun t _ => ?_
      beta_reduce
      have ee : -(a * sin t * (y - a * sin t)) - a * cos t * (x - a * cos t) = a * a - a * rho * cos (t - p) := by
        rw [cos_sub, ← hc, ← hs]
        linear_combination a ^ 2 * sin_sq_add_cos_sq t
      rw [ee, st t, ct t]
      ring
    ext
    · simpa [integral, comb, mul_add] using k e1.x e2.x n.x
    · simpa [integral, comb, mul_add] using k e1.y e2.y n.y
    · simpa [integral, comb, mul_add] using k e1.z e2.z n.z

end integrals

end Verif.CircularWire
