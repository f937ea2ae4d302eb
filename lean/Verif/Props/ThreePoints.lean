import Verif.Props.FarFault

/-! # C96: three points for which the returned rows are not the displacements -/

namespace Verif.Okada

open Real Elastic Set

/-! ## helper lemmas -/

/-- The `y` component of the displacement by an element at the origin with slip down the dip, seen from the surface in the direction of the diagonal. -/
theorem diagonal_y {s c D : ℝ} (hD : 0 < D) :
    (dislocation 1 1 ⟨0, 1 * c, 1 * s⟩ ⟨0, -s, c⟩ ((0 : V3 ℝ) - ⟨D, D, 0⟩)).y = -(7 / 2) * (c * s) * (√2)⁻¹ ^ 3 / (4 * π) / D ^ 2 := by
  have hl : ((0 : V3 ℝ) - ⟨D, D, 0⟩).len = D * √2 := by
    rw [V3.len]
    have : ((0 : V3 ℝ) - ⟨D, D, 0⟩).x ^ 2 + ((0 : V3 ℝ) - ⟨D, D, 0⟩).y ^ 2 + ((0 : V3 ℝ) - ⟨D, D, 0⟩).z ^ 2 = D ^ 2 * 2 := by
      simp only [V3.sub_x, V3.sub_y, V3.sub_z, V3.zero_x, V3.zero_y, V3.zero_z]; ring
    rw [this, sqrt_mul (by positivity), sqrt_sq hD.le]
  have h2 : 0 < √(2 : ℝ) := by positivity
  rw [dislocation_eq one_ne_zero (by simp only [V3.dot]; ring) (by simp) (by rw [hl]; positivity)]
  have hU : Elastic.U ((0 : V3 ℝ) - ⟨D, D, 0⟩) = (√2)⁻¹ / D := by rw [Elastic.U, hl]; field_simp
  have hW : Elastic.W ((0 : V3 ℝ) - ⟨D, D, 0⟩) = (√2)⁻¹ / D := by
    rw [Elastic.W, hl]; simp only [V3.sub_z, V3.zero_z, sub_zero]; field_simp
  have ht : ((√2)⁻¹ : ℝ) ^ 2 = 1 / 2 := by rw [inv_pow, sq_sqrt (by norm_num)]; norm_num
  simp only [V3.dot, traction, stress, jacY, hU, hW, V3.sub_x, V3.sub_y, V3.sub_z, V3.zero_x, V3.zero_y, V3.zero_z]
  generalize ((√2)⁻¹ : ℝ) = t at *
  have hp := pi_ne_zero
  have h3 : t ^ 5 = t ^ 3 * (1 / 2) := by rw [← ht]; ring
  field_simp
  grind

/-- A thrust fault striking west that dips by 45 degrees to the north, from the surface to the depth 1. -/
noncomputable def thrust : Event := ⟨0, 0, -90, 45, -90, 1, 2, 0, 1, 1, 1⟩

namespace Thrust

theorem sin_bounds : 1 / 2 ≤ sin ((45 : ℝ) * pl8) ∧ sin ((45 : ℝ) * pl8) ≤ 1 := by
  have hx : (45 : ℝ) * pl8 = 785398163397435 / 10 ^ 15 := by rw [pl8]; norm_num
  refine ⟨?_, sin_le_one _⟩
  have := sin_gt_sub_cube (x := 45 * pl8) (by rw [hx]; norm_num)
  rw [hx] at this ⊢
  norm_num at this ⊢
  linarith

theorem cos_bounds : 1 / 2 ≤ cos ((45 : ℝ) * pl8) ∧ cos ((45 : ℝ) * pl8) ≤ 1 := by
  have hx : (45 : ℝ) * pl8 = 785398163397435 / 10 ^ 15 := by rw [pl8]; norm_num
  refine ⟨?_, cos_le_one _⟩
  have := one_sub_sq_div_two_le_cos (x := 45 * pl8)
  rw [hx] at this ⊢
  norm_num at this ⊢
  linarith

theorem notVertical : eps ≤ |cos (thrust.dip * pl8)| := by
  rw [show thrust.dip = 45 from rfl, abs_of_nonneg (by linarith [cos_bounds.1]), eps]
  norm_num
  linarith [cos_bounds.1]

theorem station_eq (x y : ℝ) : thrust.station (x, y) = ⟨x, y⟩ := by
  have ht : thrust.turnAngle = 0 := by simp [Event.turnAngle, thrust]
  simp [Event.station, ht]
  simp [thrust]

theorem bottom : 1 ≤ 1 / sin ((45 : ℝ) * pl8) ∧ 1 / sin ((45 : ℝ) * pl8) ≤ 2 := by
  obtain ⟨h1, h2⟩ := sin_bounds
  constructor
  · rw [le_div_iff₀ (by linarith)]; linarith
  · rw [div_le_iff₀ (by linarith)]; linarith

theorem al1 : thrust.fault.al1 = -1 := by simp [Event.fault, thrust]
theorem al2 : thrust.fault.al2 = 1 := by simp [Event.fault, thrust]
theorem aw1 : thrust.fault.aw1 = 0 := by simp [Event.fault, thrust]
theorem aw2 : thrust.fault.aw2 = 1 / sin ((45 : ℝ) * pl8) := by simp [Event.fault, thrust]
theorem disl1 : thrust.fault.disl1 = 0 := by simp [Event.fault, thrust]
theorem disl2 : thrust.fault.disl2 = 1 := by simp [Event.fault, thrust]

theorem regular {D : ℝ} (hD : 10 ≤ D) {g : List (ℝ × ℝ)} (hg : ∀ p ∈ g, p = (D, D) ∨ p = (2 * D, 2 * D)) : Event.Regular thrust g := by
  refine ⟨one_ne_zero, by simp only [thrust]; norm_num, notVertical, ?_, le_refl _, zero_le_one, one_ne_zero, 4 * D, by linarith, ?_⟩
  · rw [show thrust.dip = 45 from rfl]; linarith [sin_bounds.1]
  · intro st hst
    obtain ⟨p, hp, rfl⟩ := List.mem_map.1 hst
    have hp' : p.2 = p.1 ∧ D ≤ p.1 ∧ p.1 ≤ 2 * D := by
      rcases hg p hp with rfl | rfl
      · exact ⟨rfl, le_rfl, by simp; linarith⟩
      · exact ⟨rfl, by simp; linarith, le_rfl⟩
    obtain ⟨h1, h2, h3⟩ := hp'
    rw [Event.dipConstants_fault notVertical, al1, al2, aw1, aw2, show thrust.station p = ⟨p.1, p.2⟩ from station_eq p.1 p.2, show thrust.dip = 45 from rfl, h1]
    obtain ⟨s1, s2⟩ := sin_bounds
    obtain ⟨c1, c2⟩ := cos_bounds
    obtain ⟨b1, b2⟩ := bottom
    generalize 1 / sin (45 * pl8) = t at *
    generalize sin (45 * pl8) = S at *
    generalize cos (45 * pl8) = C at *
    generalize p.1 = X at *
    have he : eps * (4 * D) ≤ D / 100 := by rw [eps]; linarith
    have k1 : D / 2 ≤ X * S := by nlinarith
    have k2 : X * S ≤ 2 * D := by nlinarith
    have k3 : D / 2 ≤ X * C := by nlinarith
    have k4 : X * C ≤ 2 * D := by nlinarith
    refine ⟨.inl ?_, ?_, ?_⟩
    · rw [mul_neg, abs_neg, abs_of_nonneg (by linarith)]
      linarith
    · rw [mul_neg, abs_neg, abs_of_nonneg (by linarith)]
      linarith
    · intro v hv
      simp only [List.mem_cons, List.not_mem_nil, or_false] at hv
      have hv' : D / 100 ≤ v ∧ v ≤ 4 * D := by
        rcases hv with rfl | rfl | rfl | rfl <;> constructor <;> linarith
      rw [abs_of_nonneg (by linarith)]
      exact ⟨hv'.2, .inr (by linarith)⟩

/-- The `y` component of the displacement along the diagonal. -/
theorem along_diagonal : ∃ k C : ℝ, k ≠ 0 ∧ 0 ≤ C ∧ ∀ D, 9 ≤ D → |(volterra thrust.fault 1 1 ⟨D, D⟩).y - k / D ^ 2| ≤ C / D ^ 3 := by
  obtain ⟨C, hC, h⟩ := faultDisplacement_far 1 1 one_ne_zero
  obtain ⟨s1, s2⟩ := sin_bounds
  obtain ⟨c1, c2⟩ := cos_bounds
  obtain ⟨b1, b2⟩ := bottom
  set S := sin ((45 : ℝ) * pl8) with hS
  set K := cos ((45 : ℝ) * pl8) with hK
  have hsq : S ^ 2 + K ^ 2 = 1 := sin_sq_add_cos_sq _
  refine ⟨2 * (1 / S) * (-(7 / 2) * (K * -S) * (√2)⁻¹ ^ 3 / (4 * π)), C * (2 * 2) * 3, ?_, by positivity, fun D hD => ?_⟩
  · have : 0 < S := by linarith
    have : 0 < K := by linarith
    have : 0 < √(2 : ℝ) := by positivity
    have := pi_pos
    rw [show -(7 / 2) * (K * -S) = 7 / 2 * (K * S) by ring]
    positivity
  have hd : dipConstants thrust.fault.dip = (-S, K) := Event.dipConstants_fault notVertical
  have hlen : D ≤ ((0 : V3 ℝ) - ⟨D, D, 0⟩).len := by
    refine le_trans ?_ (FarField.abs_x_le _)
    rw [V3.sub_x, V3.zero_x, zero_sub, abs_neg]
    exact le_abs_self D
  have key := h (b := ⟨0, 1 * K, 1 * -S⟩) (n := ⟨0, - -S, K⟩) (S := fun a w => ⟨a, w * K, w * -S⟩) (a1 := -1) (a2 := 1) (w1 := 0) (w2 := 1 / S) (r := 3)
    (o := ⟨D, D, 0⟩) (c := 0) (by simp only [V3.dot]; ring) (by rw [V3.len, ← sqrt_one]; congr 1; linear_combination hsq)
    (fun a w a' w' => by
      refine le_trans (le_of_eq ?_) (sqrt_le_add (a - a') (w - w'))
      rw [V3.len]
      congr 1
      simp only [V3.sub_x, V3.sub_y, V3.sub_z]
      linear_combination (w - w') ^ 2 * hsq)
    (fun a ha w hw => by
      rw [uIcc_of_le (by norm_num), mem_Icc] at ha
      rw [uIcc_of_le (by linarith), mem_Icc] at hw
      refine ⟨by simp only; nlinarith, ?_⟩
      rw [sub_zero]
      have e : (⟨a, w * K, w * -S⟩ : V3 ℝ).len = √(a ^ 2 + w ^ 2) := by
        rw [V3.len]
        congr 1
        linear_combination w ^ 2 * hsq
      rw [e]
      refine (sqrt_le_add a w).trans ?_
      have := abs_le.2 ha
      rw [abs_of_nonneg hw.1]
      linarith [hw.2])
    le_rfl (by linarith) (by linarith)
  have hv : volterra thrust.fault 1 1 ⟨D, D⟩ = faultDisplacement 1 1 ⟨0, 1 * K, 1 * -S⟩ ⟨0, - -S, K⟩ (fun a w => ⟨a, w * K, w * -S⟩) (-1) 1 0 (1 / S) ⟨D, D, 0⟩ := by
    simp only [volterra, hd, al1, al2, aw1, aw2, disl1, disl2, ← hS]
  rw [hv]
  have hy := (FarField.abs_y_le _).trans key
  rw [V3.sub_y, V3.smul_y, smul_eq_mul, diagonal_y (by linarith)] at hy
  have hb : (⟨0, 1 * K, 1 * -S⟩ : V3 ℝ).len = 1 := by
    rw [V3.len, show (0 : ℝ) ^ 2 + (1 * K) ^ 2 + (1 * -S) ^ 2 = 1 by linear_combination hsq, sqrt_one]
  rw [hb] at hy
  calc _ = _ := by congr 2; ring
    _ ≤ _ := hy
    _ ≤ C * 1 * (2 * 2) * 3 / D ^ 3 := by
      rw [show |(1 : ℝ) - -1| = 2 by norm_num, sub_zero, abs_of_nonneg (by linarith)]
      gcongr
    _ = _ := by ring

end Thrust

/-- **C96.** There are three points for which `displacement_vector` returns three rows that are not the displacements at these points, without raising. -/
theorem Event.three_points_wrong : ∃ (e : Event) (p q r : ℝ × ℝ), Event.Regular e [p, q, r] ∧
    (∃ m, e.displacementOn [p, q, r] = .ok (.rows m)) ∧
    e.displacementOn [p, q, r] ≠ .ok (.rows ⟨e.expected p, e.expected q, e.expected r⟩) := by
  obtain ⟨k, C, hk, hC, h⟩ := Thrust.along_diagonal
  obtain ⟨D, hD⟩ : ∃ D : ℝ, 10 + 2 * C / |k| < D := exists_gt _
  have hk' := abs_pos.2 hk
  have hD10 : 10 ≤ D := by
    have : 0 ≤ 2 * C / |k| := by positivity
    linarith
  have hDk : 2 * C < D * |k| := by
    have : 2 * C / |k| < D := by linarith
    rwa [div_lt_iff₀ hk'] at this
  have hst : ∀ x y, thrust.station (x, y) = ⟨x, y⟩ := Thrust.station_eq
  have r1 := Thrust.regular hD10 (g := [(D, D), (D, D), (D, D)]) (by simp)
  have r2 := Thrust.regular hD10 (g := [(2 * D, 2 * D), (D, D), (D, D)]) (by simp)
  by_cases c1 : thrust.displacementOn [(D, D), (D, D), (D, D)] = .ok (.rows ⟨thrust.expected (D, D), thrust.expected (D, D), thrust.expected (D, D)⟩)
  swap
  · exact ⟨thrust, _, _, _, r1, ⟨_, Event.three_points r1⟩, c1⟩
  refine ⟨thrust, _, _, _, r2, ⟨_, Event.three_points r2⟩, fun c2 => ?_⟩
  have e1 := ((Event.three_points_right_iff r1).1 c1).1
  have e2 := ((Event.three_points_right_iff r2).1 c2).1
  have hbm : thrust.beta = 1 ∧ thrust.mu = 1 := ⟨rfl, rfl⟩
  simp only [hst, hbm.1, hbm.2] at e1 e2
  have h1 := h D (by linarith)
  have h2 := h (2 * D) (by linarith)
  rw [← e1] at h1
  rw [← e2] at h2
  generalize (volterra thrust.fault 1 1 ⟨D, D⟩).x = v at h1 h2
  have h3 : |k / D ^ 2 - k / (2 * D) ^ 2| ≤ C / D ^ 3 + C / (2 * D) ^ 3 := by
    have := abs_sub (v - k / (2 * D) ^ 2) (v - k / D ^ 2)
    rw [sub_sub_sub_cancel_left] at this
    linarith
  have e3 : k / D ^ 2 - k / (2 * D) ^ 2 = 3 / 4 * k / D ^ 2 := by field_simp; ring
  have e4 : C / D ^ 3 + C / (2 * D) ^ 3 = 9 / 8 * C / D ^ 3 := by field_simp; ring
  have hD0 : 0 < D := by linarith
  rw [e3, e4, abs_div, abs_mul, abs_of_pos (by norm_num : (0 : ℝ) < 3 / 4), abs_of_pos (by positivity : 0 < D ^ 2), div_le_div_iff₀ (by positivity) (by positivity)] at h3
  have : 3 / 4 * |k| * D ≤ 9 / 8 * C := by
    have h4 : 3 / 4 * |k| * D * D ^ 2 ≤ 9 / 8 * C * D ^ 2 := by linarith [h3, show 3 / 4 * |k| * D * D ^ 2 = 3 / 4 * |k| * D ^ 3 by ring]
    exact le_of_mul_le_mul_right h4 (by positivity)
  nlinarith

end Verif.Okada
