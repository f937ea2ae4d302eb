import Verif.Props.Rounding

/-!
# C116: rounding errors of the homogeneous ball

The code decides between the formula for the inside and the one for the outside with the rounded distance, so close to the
surface it may take the wrong one.  The potential and the field are continuous there and stay accurate; the gradient is not.
-/

namespace Verif.Rounded

/-- `1 / (1 + n u)` bounds the factor of `n` roundings from above. -/
theorem rpow_le_inv {u n : ℝ} (hu : 0 ≤ u) (hu1 : u < 1) (hn : 1 ≤ n) : (1 - u) ^ n ≤ (1 + n * u)⁻¹ := by
  have hq : (0 : ℝ) < 1 - u := by linarith
  have hb := one_add_mul_self_le_rpow_one_add (s := u) (by linarith) hn
  have h1 : (1 - u) ^ n * (1 + u) ^ n ≤ 1 := by
    rw [← Real.mul_rpow hq.le (by linarith)]
    exact Real.rpow_le_one (by nlinarith) (by nlinarith) (by linarith)
  rw [← one_div, le_div_iff₀ (by positivity)]
  exact le_trans (mul_le_mul_of_nonneg_left hb (Real.rpow_pos_of_pos hq _).le) h1

/-- A small relative error is that of a few roundings. -/
theorem near_of_small {u n e x y : ℝ} (hu : 0 ≤ u) (hu1 : u < 1) (hn : 1 ≤ n) (he : (1 + n * u)⁻¹ ≤ 1 - e)
    (h : |y - x| ≤ e * |x|) : Near u n x y := by
  have hq : (0 : ℝ) < 1 - u := by linarith
  have hle := (rpow_le_inv hu hu1 hn).trans he
  have hp : 0 < (1 - u) ^ n := Real.rpow_pos_of_pos hq _
  by_cases hx : x = 0
  · subst hx
    have : y = 0 := by simpa using h
    subst this
    exact (Near.refl 0).mono hu hu1 (by linarith)
  · have hxp : 0 < |x| := abs_pos.2 hx
    have hd : |y / x - 1| ≤ e := by
      have : y / x - 1 = (y - x) / x := by field_simp
      rw [this, abs_div, div_le_iff₀ hxp]; exact h
    have he0 : 0 ≤ e := (abs_nonneg _).trans hd
    rw [abs_le] at hd
    refine ⟨y / x, by linarith, ?_, by field_simp⟩
    rw [Real.rpow_neg hq.le]
    have h1 : (1 - e)⁻¹ ≤ ((1 - u) ^ n)⁻¹ := inv_anti₀ hp hle
    have h2 : 1 + e ≤ (1 - e)⁻¹ := by
      rw [← one_div, le_div_iff₀ (by linarith)]
      nlinarith
    linarith

variable {u : ℝ} (F : Arith u) (hu : 0 ≤ u)
include hu

theorem near_mass (hu1 : u < 1) (s : Gravity.Sphere) : Near u 6 s.mass (Sphere.mass F s) :=
  (F.near_mul hu hu1 (F.near_mul hu hu1 (F.near_mul hu hu1
    (F.near_div hu hu1 (Near.refl 4) (Near.refl 3) (by norm_num)) (F.near_const hu hu1 Real.pi))
    (F.near_pow hu hu1 (Near.refl s.radius) 3)) (Near.refl s.rho)).mono hu hu1 (by norm_num)

/-- The outside formula, computed with the computed mass. -/
theorem near_outside_potential (hu1 : u < 1) (s : Gravity.Sphere) {xyz : V3 ℝ} (hp : xyz ≠ s.location) :
    Near u (25 / 2) (Gravity.G * s.mass / (xyz - s.location).len)
      (PointMass.gravitationalPotential F (Sphere.toPointMass F s) xyz) :=
  (F.near_div hu hu1 (F.near_mul hu hu1 (F.near_const hu hu1 Gravity.G) (near_mass F hu hu1 s))
    (near_dist F hu hu1 xyz s.location) (V3.len_sub_ne_zero hp)).mono hu hu1 (by norm_num)

/-- The inside formula wherever the computed distance is at most the radius. -/
theorem near_inside_potential (hu2 : u ≤ 1 / 1000) (s : Gravity.Sphere) (hR : 0 < s.radius) {r r' : ℝ} (hr0 : 0 ≤ r)
    (hr : Near u (7 / 2) r r') (hin : r' ≤ s.radius) :
    Near u 17 (Gravity.G * 2 / 3 * Real.pi * s.rho * (3 * s.radius ^ 2 - r ^ 2))
      (F.mul (F.mul (F.mul (F.div (F.mul (F.const Gravity.G) 2) 3) (F.const Real.pi)) s.rho)
      (F.sub (F.mul 3 (F.pow s.radius 2)) (F.pow r' 2))) := by
  have hu1 : u < 1 := by linarith
  have hk : Near u 6 (Gravity.G * 2 / 3 * Real.pi * s.rho)
      (F.mul (F.mul (F.div (F.mul (F.const Gravity.G) 2) 3) (F.const Real.pi)) s.rho) :=
    (F.near_mul hu hu1 (F.near_mul hu hu1 (F.near_div hu hu1 (F.near_mul hu hu1 (F.near_const hu hu1 Gravity.G) (Near.refl 2))
      (Near.refl 3) (by norm_num)) (F.near_const hu hu1 Real.pi)) (Near.refl s.rho)).mono hu hu1 (by norm_num)
  have h3 : Near u 2 (3 * s.radius ^ 2) (F.mul 3 (F.pow s.radius 2)) :=
    (F.near_mul hu hu1 (Near.refl 3) (F.near_pow hu hu1 (Near.refl s.radius) 2)).mono hu hu1 (by norm_num)
  have h4 : Near u 8 (r ^ 2) (F.pow r' 2) := (F.near_pow hu hu1 hr 2).mono hu hu1 (by norm_num)
  have a2 := h3.accurate hu (by norm_num) (by linarith)
  have a8 := h4.accurate hu (by norm_num) (by linarith)
  have a7 := (hr.pow hu1 2).accurate hu (by norm_num) (by norm_num; linarith)
  have g2 : 2 * u / (1 - 2 * u) ≤ 2.01 * u := by rw [div_le_iff₀ (by linarith)]; nlinarith
  have g8 : 8 * u / (1 - 8 * u) ≤ 8.1 * u := by rw [div_le_iff₀ (by linarith)]; nlinarith
  have g7 : 7 * u / (1 - 7 * u) ≤ 0.01 := by rw [div_le_iff₀ (by linarith)]; nlinarith
  unfold Accurate at a2 a8 a7
  rw [show ((2 : ℕ) : ℝ) * (7 / 2) = 7 by norm_num] at a7
  have hr2 : 0 ≤ r ^ 2 := sq_nonneg r
  have hRR : 0 < s.radius ^ 2 := pow_pos hR 2
  have hr'0 := hr.nonneg hu1 hr0
  have hin2 : r' ^ 2 ≤ s.radius ^ 2 := pow_le_pow_left₀ hr'0 hin 2
  rw [abs_of_nonneg hr2] at a7 a8
  rw [abs_of_pos (by positivity : 0 < 3 * s.radius ^ 2)] at a2
  have b7 : |r' ^ 2 - r ^ 2| ≤ 0.01 * r ^ 2 := a7.trans (mul_le_mul_of_nonneg_right g7 hr2)
  have b2 := a2.trans (mul_le_mul_of_nonneg_right g2 (by positivity : 0 ≤ 3 * s.radius ^ 2))
  have b8 := a8.trans (mul_le_mul_of_nonneg_right g8 hr2)
  rw [abs_le] at b7
  have hR2 : r ^ 2 ≤ 1.02 * s.radius ^ 2 := by nlinarith [b7.1]
  have hD : 1.98 * s.radius ^ 2 ≤ 3 * s.radius ^ 2 - r ^ 2 := by linarith
  have hdiff : |(F.mul 3 (F.pow s.radius 2) - F.pow r' 2) - (3 * s.radius ^ 2 - r ^ 2)| ≤ 8 * u * |3 * s.radius ^ 2 - r ^ 2| := by
    rw [abs_of_nonneg (by linarith : 0 ≤ 3 * s.radius ^ 2 - r ^ 2)]
    have e : (F.mul 3 (F.pow s.radius 2) - F.pow r' 2) - (3 * s.radius ^ 2 - r ^ 2) =
      (F.mul 3 (F.pow s.radius 2) - 3 * s.radius ^ 2) - (F.pow r' 2 - r ^ 2) := by ring
    rw [e]
    refine (abs_sub _ _).trans ((add_le_add b2 b8).trans ?_)
    have m1 := mul_le_mul_of_nonneg_left hR2 hu
    have m2 := mul_le_mul_of_nonneg_left hD hu
    nlinarith [mul_nonneg hu hRR.le]
  have hn : Near u 9 (3 * s.radius ^ 2 - r ^ 2) (F.mul 3 (F.pow s.radius 2) - F.pow r' 2) := by
    refine near_of_small hu hu1 (by norm_num) ?_ hdiff
    rw [← one_div, div_le_iff₀ (by positivity)]
    nlinarith
  have hs := hn.trans hu1 (Near.of_err hu hu1 (F.sub_err (F.mul 3 (F.pow s.radius 2)) (F.pow r' 2)))
  exact (F.near_mul hu hu1 hk hs).mono hu hu1 (by norm_num)

/-- If a number lies between the exact and the computed distance, it is near the exact distance. -/
theorem near_between (hu1 : u < 1) {n r r' R : ℝ} (hn : 0 ≤ n) (h : Near u n r r') (hr : 0 < r) (hR : 0 < R)
    (hb : r' ≤ R ∧ R ≤ r ∨ r ≤ R ∧ R ≤ r') : Near u n R r := by
  have hq : (0 : ℝ) < 1 - u := by linarith
  obtain ⟨t, h1, h2, rfl⟩ := h
  have ht := Near.factor_pos hu1 h1
  have hp : 0 < (1 - u) ^ n := Real.rpow_pos_of_pos hq _
  have one1 : (1 - u) ^ n ≤ 1 := Real.rpow_le_one hq.le (by linarith) hn
  have one2 : 1 ≤ (1 - u) ^ (-n) := by
    rw [Real.rpow_neg hq.le]; exact (one_le_inv₀ hp).2 one1
  refine ⟨r / R, ?_, ?_, by field_simp⟩
  · rcases hb with ⟨_, hb⟩ | ⟨_, hb⟩
    · exact one1.trans ((one_le_div hR).2 hb)
    · rw [le_div_iff₀ hR]
      have h3 : (1 - u) ^ n * t ≤ 1 := by
        calc (1 - u) ^ n * t ≤ (1 - u) ^ n * (1 - u) ^ (-n) := mul_le_mul_of_nonneg_left h2 hp.le
          _ = 1 := by rw [← Real.rpow_add hq]; simp
      nlinarith
  · rcases hb with ⟨hb, _⟩ | ⟨hb, _⟩
    · rw [div_le_iff₀ hR, Real.rpow_neg hq.le, ← div_eq_inv_mul, le_div_iff₀ hp]
      nlinarith
    · exact ((div_le_one hR).2 hb).trans one2

/-- Close to the surface the two formulas for the potential differ by a few roundings. -/
theorem near_switch_potential (hu2 : u ≤ 1 / 1000) (s : Gravity.Sphere) (hR : 0 < s.radius) {r : ℝ}
    (h : Near u (7 / 2) s.radius r) :
    Near u 7 (Gravity.G * s.mass / r) (Gravity.G * 2 / 3 * Real.pi * s.rho * (3 * s.radius ^ 2 - r ^ 2)) := by
  have hu1 : u < 1 := by linarith
  have hq : (0 : ℝ) < 1 - u := by linarith
  have hsmall := h.accurate hu (by norm_num) (by linarith)
  obtain ⟨t, h1, h2, rfl⟩ := h
  have ht := Near.factor_pos hu1 h1
  have hp : ∀ n : ℝ, 0 < (1 - u) ^ n := fun n => Real.rpow_pos_of_pos hq _
  have one1 : ∀ n : ℝ, 0 ≤ n → (1 - u) ^ n ≤ 1 := fun n hn => Real.rpow_le_one hq.le (by linarith) hn
  have hmono : (1 - u) ^ (7 : ℝ) ≤ (1 - u) ^ (7 / 2 : ℝ) :=
    Real.rpow_le_rpow_of_exponent_ge hq (by linarith) (by norm_num)
  have hsq : (1 - u) ^ (7 : ℝ) = (1 - u) ^ (7 / 2 : ℝ) * (1 - u) ^ (7 / 2 : ℝ) := by
    rw [← Real.rpow_add hq]; norm_num
  have hg : 7 / 2 * u / (1 - 7 / 2 * u) ≤ 0.01 := by rw [div_le_iff₀ (by linarith)]; nlinarith
  have ht2 : |t - 1| ≤ 0.01 := by
    have := (Near.factor_close hu (by norm_num) (by linarith) h1 h2).trans hg
    exact this
  rw [abs_le] at ht2
  have ht3 : t * (1 - u) ^ (7 / 2 : ℝ) ≤ 1 := by
    calc t * (1 - u) ^ (7 / 2 : ℝ) ≤ (1 - u) ^ (-(7 / 2) : ℝ) * (1 - u) ^ (7 / 2 : ℝ) := mul_le_mul_of_nonneg_right h2 (hp _).le
      _ = 1 := by rw [← Real.rpow_add hq]; simp
  refine ⟨t * (3 - t ^ 2) / 2, ?_, ?_, ?_⟩
  · rcases le_total t 1 with hle | hle
    · have : t ≤ t * (3 - t ^ 2) / 2 := by nlinarith [mul_nonneg ht.le (sub_nonneg.2 hle), mul_nonneg ht.le ht.le]
      linarith
    · have h7 : (1 - u) ^ (7 : ℝ) * t ^ 2 ≤ 1 := by
        rw [hsq]
        have := mul_le_one₀ ht3 (mul_nonneg ht.le (hp _).le) ht3
        nlinarith
      have h8 : 1 ≤ t ^ 2 * (t * (3 - t ^ 2) / 2) := by
        obtain ⟨e, rfl⟩ : ∃ e, t = 1 + e := ⟨t - 1, by ring⟩
        have e0 : 0 ≤ e := by linarith
        have e1 : e ≤ 0.01 := by linarith [ht2.2]
        have e2 : e ^ 2 ≤ 0.01 * e := by nlinarith
        have e3 : e ^ 3 ≤ e ^ 2 := by nlinarith [sq_nonneg e]
        have e4 : e ^ 4 ≤ e ^ 2 := by nlinarith [sq_nonneg e, sq_nonneg (e ^ 2)]
        have e5 : e ^ 5 ≤ e ^ 2 := by nlinarith [sq_nonneg e, sq_nonneg (e ^ 2), mul_nonneg e0 (sq_nonneg e)]
        nlinarith
      have h9 : 0 < t ^ 2 := by positivity
      have : (1 - u) ^ (7 : ℝ) * t ^ 2 ≤ t * (3 - t ^ 2) / 2 * t ^ 2 := by nlinarith
      exact le_of_mul_le_mul_right this h9
  · have one2 : 1 ≤ (1 - u) ^ (-7 : ℝ) := by
      rw [Real.rpow_neg hq.le]; exact (one_le_inv₀ (hp 7)).2 (one1 7 (by norm_num))
    have : t * (3 - t ^ 2) / 2 ≤ 1 := by nlinarith [mul_nonneg (sq_nonneg (t - 1)) (by linarith : (0:ℝ) ≤ t + 2)]
    linarith
  · unfold Gravity.Sphere.mass
    field_simp
    ring

/-- The potential of a ball is accurate to 24 roundings everywhere: inside, outside and on the surface. -/
theorem Sphere.potential_accurate (hu2 : u ≤ 1 / 1000) (s : Gravity.Sphere) (hR : 0 < s.radius) (xyz : V3 ℝ) :
    Accurate u 24 (s.gravitationalPotential xyz) (Sphere.gravitationalPotential F s xyz) := by
  have hu1 : u < 1 := by linarith
  have hd := near_dist F hu hu1 xyz s.location
  have hr0 := V3.len_nonneg (xyz - s.location)
  refine Near.accurate hu (by norm_num) (by linarith) ?_
  have out : s.radius < norm F (diff F xyz s.location) ∨ s.radius < (xyz - s.location).len → xyz ≠ s.location := by
    rintro h rfl
    have h0 : (s.location - s.location).len = 0 := by rw [sub_self]; exact V3.len_eq_zero.2 rfl
    rcases h with h | h
    · obtain ⟨t, _, _, e⟩ := hd
      rw [h0, zero_mul] at e
      linarith
    · linarith
  show Near u 24 (if (xyz - s.location).len > s.radius then _ else _)
    (if norm F (diff F xyz s.location) > s.radius then _ else _)
  by_cases h1 : norm F (diff F xyz s.location) > s.radius <;> by_cases h2 : (xyz - s.location).len > s.radius
  · rw [if_pos h1, if_pos h2]
    exact (near_outside_potential F hu hu1 s (out (Or.inl h1))).mono hu hu1 (by norm_num)
  · rw [if_pos h1, if_neg h2]
    have hpos := V3.len_sub_pos (out (Or.inl h1))
    have hb := near_between hu hu1 (by norm_num) hd hpos hR (Or.inr ⟨not_lt.1 h2, h1.le⟩)
    exact (((near_switch_potential hu hu2 s hR hb).symm hu1).trans hu1 (near_outside_potential F hu hu1 s (out (Or.inl h1)))).mono
      hu hu1 (by norm_num)
  · rw [if_neg h1, if_pos h2]
    have hpos := V3.len_sub_pos (out (Or.inr h2))
    have hb := near_between hu hu1 (by norm_num) hd hpos hR (Or.inl ⟨not_lt.1 h1, h2.le⟩)
    exact ((near_switch_potential hu hu2 s hR hb).trans hu1 (near_inside_potential F hu hu2 s hR hr0 hd (not_lt.1 h1))).mono
      hu hu1 (by norm_num)
  · rw [if_neg h1, if_neg h2]
    exact (near_inside_potential F hu hu2 s hR hr0 hd (not_lt.1 h1)).mono hu hu1 (by norm_num)

/-- Each component of the field of a ball is accurate to 34 roundings, relative to itself, everywhere. -/
theorem Sphere.field_accurate (s : Gravity.Sphere) (hR : 0 < s.radius) (xyz : V3 ℝ) (h : 34 * u < 1) :
    V3.Accurate u 34 (s.gravitationalField xyz) (Sphere.gravitationalField F s xyz) := by
  have hu1 := lt_one_of hu (by norm_num) h
  have hd := near_dist F hu hu1 xyz s.location
  have out : s.radius < norm F (diff F xyz s.location) ∨ s.radius < (xyz - s.location).len → xyz ≠ s.location := by
    rintro h rfl
    have h0 : (s.location - s.location).len = 0 := by rw [sub_self]; exact V3.len_eq_zero.2 rfl
    rcases h with h | h
    · obtain ⟨t, _, _, e⟩ := hd
      rw [h0, zero_mul] at e
      linarith
    · linarith
  have hk : Near u 6 (-Gravity.G * 4 / 3 * Real.pi * s.rho)
      (F.mul (F.mul (F.div (F.mul (-F.const Gravity.G) 4) 3) (F.const Real.pi)) s.rho) :=
    (F.near_mul hu hu1 (F.near_mul hu hu1 (F.near_div hu hu1 (F.near_mul hu hu1 (F.near_const hu hu1 Gravity.G).neg (Near.refl 4))
      (Near.refl 3) (by norm_num)) (F.near_const hu hu1 Real.pi)) (Near.refl s.rho)).mono hu hu1 (by norm_num)
  obtain ⟨d1, d2, d3⟩ := near_diff F hu hu1 xyz s.location
  have inside : ∀ {a b : ℝ}, Near u 1 a b → Near u 8 (-Gravity.G * 4 / 3 * Real.pi * s.rho * a)
      (F.mul (F.mul (F.mul (F.div (F.mul (-F.const Gravity.G) 4) 3) (F.const Real.pi)) s.rho) b) := fun hab =>
    (F.near_mul hu hu1 hk hab).mono hu hu1 (by norm_num)
  have outside : ∀ (hp : xyz ≠ s.location), ∀ {a b : ℝ}, Near u (11 / 2) a b →
      Near u (47 / 2) (-Gravity.G * s.mass * a / (xyz - s.location).len ^ 2)
      (F.div (F.mul (F.mul (-F.const Gravity.G) (Sphere.mass F s)) b) (F.pow (norm F (diff F xyz s.location)) 2)) := fun hp {a b} hab =>
    (F.near_div hu hu1 (F.near_mul hu hu1 (F.near_mul hu hu1 (F.near_const hu hu1 Gravity.G).neg (near_mass F hu hu1 s)) hab)
      (F.near_pow hu hu1 hd 2) (pow_ne_zero 2 (V3.len_sub_ne_zero hp))).mono hu hu1 (by norm_num)
  have switch : ∀ {r : ℝ}, 0 < r → Near u (7 / 2) s.radius r → ∀ a : ℝ,
      Near u (21 / 2) (-Gravity.G * s.mass * (a / r) / r ^ 2) (-Gravity.G * 4 / 3 * Real.pi * s.rho * a) := by
    intro r hr hn a
    obtain ⟨t, f, e⟩ := (hn.pow hu1 3).fac
    refine ⟨t, by convert f.1 using 2; norm_num, by convert f.2 using 2; norm_num, ?_⟩
    have hR3 : s.radius ^ 3 * t = r ^ 3 := e.symm
    unfold Gravity.Sphere.mass
    have : -Gravity.G * (4 / 3 * Real.pi * s.radius ^ 3 * s.rho) * (a / r) / r ^ 2 * t =
      -Gravity.G * (4 / 3 * Real.pi * s.rho) * a * (s.radius ^ 3 * t) / r ^ 3 := by field_simp
    rw [this, hR3]
    field_simp
  have acc : ∀ {n x y : ℝ}, n ≤ 34 → Near u n x y → Accurate u 34 x y := fun hn hxy =>
    (hxy.mono hu hu1 hn).accurate hu (by norm_num) h
  show V3.Accurate u 34 (if (xyz - s.location).len > s.radius then _ else _)
    (if norm F (diff F xyz s.location) > s.radius then _ else _)
  by_cases h1 : norm F (diff F xyz s.location) > s.radius <;> by_cases h2 : (xyz - s.location).len > s.radius
  · rw [if_pos h1, if_pos h2]
    have hp := out (Or.inl h1)
    obtain ⟨u1, u2, u3⟩ := near_unit F hu hu1 hp
    exact ⟨acc (by norm_num) (outside hp u1), acc (by norm_num) (outside hp u2), acc (by norm_num) (outside hp u3)⟩
  · rw [if_pos h1, if_neg h2]
    have hp := out (Or.inl h1)
    have hpos := V3.len_sub_pos hp
    have hb := near_between hu hu1 (by norm_num) hd hpos hR (Or.inr ⟨not_lt.1 h2, h1.le⟩)
    obtain ⟨u1, u2, u3⟩ := near_unit F hu hu1 hp
    exact ⟨acc (by norm_num) (((switch hpos hb _).symm hu1).trans hu1 (outside hp u1)),
      acc (by norm_num) (((switch hpos hb _).symm hu1).trans hu1 (outside hp u2)),
      acc (by norm_num) (((switch hpos hb _).symm hu1).trans hu1 (outside hp u3))⟩
  · rw [if_neg h1, if_pos h2]
    have hp := out (Or.inr h2)
    have hpos := V3.len_sub_pos hp
    have hb := near_between hu hu1 (by norm_num) hd hpos hR (Or.inl ⟨not_lt.1 h1, h2.le⟩)
    exact ⟨acc (by norm_num) ((switch hpos hb _).trans hu1 (inside d1)),
      acc (by norm_num) ((switch hpos hb _).trans hu1 (inside d2)),
      acc (by norm_num) ((switch hpos hb _).trans hu1 (inside d3))⟩
  · rw [if_neg h1, if_neg h2]
    exact ⟨acc (by norm_num) (inside d1), acc (by norm_num) (inside d2), acc (by norm_num) (inside d3)⟩

omit hu in
theorem gamma_add {a b : ℝ} (hu : 0 ≤ u) (ha : 0 ≤ a) (hb : 0 ≤ b) (h : (a + b) * u < 1) :
    a * u / (1 - a * u) * (1 + b * u / (1 - b * u)) + b * u / (1 - b * u) ≤ (a + b) * u / (1 - (a + b) * u) := by
  have hau : 0 ≤ a * u := mul_nonneg ha hu
  have hbu : 0 ≤ b * u := mul_nonneg hb hu
  have h1 : 0 < 1 - a * u := by linarith
  have h2 : 0 < 1 - b * u := by linarith
  have h3 : 0 < 1 - (a + b) * u := by linarith
  have e1 : a * u / (1 - a * u) * (1 + b * u / (1 - b * u)) + b * u / (1 - b * u) = 1 / ((1 - a * u) * (1 - b * u)) - 1 := by
    generalize a * u = p at *
    generalize b * u = q at *
    have h1' := h1.ne'
    have h2' := h2.ne'
    field_simp
    ring
  have e2 : (a + b) * u / (1 - (a + b) * u) = 1 / (1 - (a + b) * u) - 1 := by
    rw [eq_sub_iff_add_eq, div_add_one h3.ne']
    congr 1
    ring
  rw [e1, e2]
  refine sub_le_sub_right (one_div_le_one_div_of_le h3 ?_) 1
  nlinarith [mul_nonneg hau hbu]

/-- What is true of the gradient of a ball: away from the surface, by more than the error of a distance, every entry is
accurate to 35.5 roundings of `4 G m / r³` outside and of `4/3 π G ρ` inside.  Missing: points closer to the surface. -/
theorem Sphere.gradient_accurate_partial (s : Gravity.Sphere) (hR : 0 < s.radius) (xyz : V3 ℝ) (h : 71 / 2 * u < 1)
    (hfar : 7 / 2 * u / (1 - 7 / 2 * u) * (xyz - s.location).len < |(xyz - s.location).len - s.radius|) :
    ∃ e c, s.gravitationalGradient xyz = some e ∧ Sphere.gravitationalGradient F s xyz = some c ∧
      (s.radius < (xyz - s.location).len →
        let M := 4 * (|Gravity.G * s.mass| / (xyz - s.location).len ^ 3)
        V3.AccurateTo M u (71 / 2) e.x c.x ∧ V3.AccurateTo M u (71 / 2) e.y c.y ∧ V3.AccurateTo M u (71 / 2) e.z c.z) ∧
      ((xyz - s.location).len < s.radius → V3.Accurate u 7 e.x c.x ∧ V3.Accurate u 7 e.y c.y ∧ V3.Accurate u 7 e.z c.z) := by
  have hu1 := lt_one_of hu (by norm_num) h
  have hd := (near_dist F hu hu1 xyz s.location)
  have hda := hd.accurate hu (by norm_num) (by linarith)
  have hr0 := V3.len_nonneg (xyz - s.location)
  unfold Accurate at hda
  rw [abs_of_nonneg hr0, abs_le] at hda
  rcases lt_or_ge s.radius (xyz - s.location).len with hout | hin
  · rw [abs_of_pos (by linarith)] at hfar
    have hout' : s.radius < norm F (diff F xyz s.location) := by linarith [hda.1]
    refine ⟨s.toPointMass.gravitationalGradient xyz, PointMass.gravitationalGradient F (Sphere.toPointMass F s) xyz, ?_, ?_,
      fun _ => ?_, fun hc => absurd hc (not_lt.2 hout.le)⟩
    · show (if (xyz - s.location).len = s.radius then _ else if (xyz - s.location).len > s.radius then _ else _) = _
      rw [if_neg hout.ne', if_pos hout]
    · show (if norm F (diff F xyz s.location) = s.radius then _ else if norm F (diff F xyz s.location) > s.radius then _ else _) = _
      rw [if_neg hout'.ne', if_pos hout']
    · intro M
      have hp : xyz ≠ s.location := by
        rintro rfl
        have h0 : (s.location - s.location).len = 0 := by rw [sub_self]; exact V3.len_eq_zero.2 rfl
        linarith
      have hpos := V3.len_sub_pos hp
      obtain ⟨t, ft, et⟩ := (near_mass F hu hu1 s).fac
      have htc := ft.close hu (by norm_num) (by linarith)
      have ht0 := ft.pos hu1
      have ht1 : t ≤ 1 + 6 * u / (1 - 6 * u) := by rw [abs_le] at htc; linarith [htc.2]
      obtain ⟨b1, b2, b3, _⟩ := unit_bounds hpos.ne'
      have hM : 4 * (|Gravity.G * (Sphere.toPointMass F s).mass| / (xyz - s.location).len ^ 3) = M * t := by
        show 4 * (|Gravity.G * Sphere.mass F s| / (xyz - s.location).len ^ 3) =
          4 * (|Gravity.G * s.mass| / (xyz - s.location).len ^ 3) * t
        rw [et, ← mul_assoc, abs_mul _ t, abs_of_pos ht0]
        ring
      have hM0 : 0 ≤ M := by
        show 0 ≤ 4 * (|Gravity.G * s.mass| / (xyz - s.location).len ^ 3)
        positivity
      have key : ∀ (eye a b c : ℝ), |eye| ≤ 1 → |a| ≤ 1 → |b| ≤ 1 →
          AccurateTo (M * t) u (59 / 2) (-Gravity.G * Sphere.mass F s * (eye - 3 * a * b) / (xyz - s.location).len ^ 3) c →
          AccurateTo M u (71 / 2) (-Gravity.G * s.mass * (eye - 3 * a * b) / (xyz - s.location).len ^ 3) c := by
        intro eye a b c he ha hb hc
        unfold AccurateTo at hc ⊢
        have hentry : |-Gravity.G * s.mass * (eye - 3 * a * b) / (xyz - s.location).len ^ 3| ≤ M := by
          rw [abs_div, abs_mul, neg_mul, abs_neg, abs_of_pos (pow_pos hpos 3)]
          show _ ≤ 4 * (|Gravity.G * s.mass| / (xyz - s.location).len ^ 3)
          rw [mul_div_right_comm, mul_comm]
          refine mul_le_mul_of_nonneg_right ?_ (by positivity)
          refine (abs_sub _ _).trans ?_
          rw [abs_mul, abs_mul, abs_of_pos (by norm_num : (0:ℝ) < 3)]
          nlinarith [abs_nonneg a, abs_nonneg b, mul_le_one₀ ha (abs_nonneg b) hb]
        have e1 : -Gravity.G * Sphere.mass F s * (eye - 3 * a * b) / (xyz - s.location).len ^ 3 -
            -Gravity.G * s.mass * (eye - 3 * a * b) / (xyz - s.location).len ^ 3 =
            (t - 1) * (-Gravity.G * s.mass * (eye - 3 * a * b) / (xyz - s.location).len ^ 3) := by rw [et]; ring
        have h2 : |(t - 1) * (-Gravity.G * s.mass * (eye - 3 * a * b) / (xyz - s.location).len ^ 3)| ≤ 6 * u / (1 - 6 * u) * M := by
          rw [abs_mul]
          exact mul_le_mul htc hentry (abs_nonneg _) (div_nonneg (by positivity) (by linarith))
        have hsum := (abs_sub_le c (-Gravity.G * Sphere.mass F s * (eye - 3 * a * b) / (xyz - s.location).len ^ 3)
          (-Gravity.G * s.mass * (eye - 3 * a * b) / (xyz - s.location).len ^ 3))
        rw [e1] at hsum
        have hg := gamma_add (u := u) (a := 59 / 2) (b := 6) hu (by norm_num) (by norm_num) (by linarith)
        rw [show (59 / 2 + 6 : ℝ) = 71 / 2 by norm_num] at hg
        have hg1 : 0 ≤ 59 / 2 * u / (1 - 59 / 2 * u) := div_nonneg (by positivity) (by linarith)
        have h3 : 59 / 2 * u / (1 - 59 / 2 * u) * (M * t) ≤ 59 / 2 * u / (1 - 59 / 2 * u) * (1 + 6 * u / (1 - 6 * u)) * M := by
          have := mul_le_mul_of_nonneg_left ht1 (mul_nonneg hg1 hM0)
          linarith
        have h4 := mul_le_mul_of_nonneg_right hg hM0
        linarith
      obtain ⟨⟨k1, k2, k3⟩, ⟨k4, k5, k6⟩, ⟨k7, k8, k9⟩⟩ :=
        PointMass.gradient_accurate F hu (Sphere.toPointMass F s) hp (by linarith)
      have z0 : |(0 : ℝ)| ≤ 1 := by norm_num
      have z1 : |(1 : ℝ)| ≤ 1 := by norm_num
      have conv : (Sphere.toPointMass F s).location = s.location := rfl
      rw [conv, hM] at k1 k2 k3 k4 k5 k6 k7 k8 k9
      exact ⟨⟨key 1 _ _ _ z1 b1 b1 k1, key 0 _ _ _ z0 b1 b2 k2, key 0 _ _ _ z0 b1 b3 k3⟩,
        ⟨key 0 _ _ _ z0 b2 b1 k4, key 1 _ _ _ z1 b2 b2 k5, key 0 _ _ _ z0 b2 b3 k6⟩,
        ⟨key 0 _ _ _ z0 b3 b1 k7, key 0 _ _ _ z0 b3 b2 k8, key 1 _ _ _ z1 b3 b3 k9⟩⟩
  · rw [abs_of_nonpos (by linarith)] at hfar
    have hg0 : 0 ≤ 7 / 2 * u / (1 - 7 / 2 * u) := div_nonneg (by positivity) (by linarith)
    have hlt : (xyz - s.location).len < s.radius := by
      have := mul_nonneg hg0 hr0
      linarith
    have hin' : norm F (diff F xyz s.location) < s.radius := by linarith [hda.2]
    have hk : Near u 6 (-Gravity.G * 4 / 3 * Real.pi * s.rho)
        (F.mul (F.mul (F.div (F.mul (-F.const Gravity.G) 4) 3) (F.const Real.pi)) s.rho) :=
      (F.near_mul hu hu1 (F.near_mul hu hu1 (F.near_div hu hu1 (F.near_mul hu hu1 (F.near_const hu hu1 Gravity.G).neg (Near.refl 4))
        (Near.refl 3) (by norm_num)) (F.near_const hu hu1 Real.pi)) (Near.refl s.rho)).mono hu hu1 (by norm_num)
    have hkm : ∀ c : ℝ, Accurate u 7 (-Gravity.G * 4 / 3 * Real.pi * s.rho * c)
        (F.mul (F.mul (F.mul (F.div (F.mul (-F.const Gravity.G) 4) 3) (F.const Real.pi)) s.rho) c) := fun c =>
      ((F.near_mul hu hu1 hk (Near.refl c)).mono hu hu1 (by norm_num)).accurate hu (by norm_num) (by linarith)
    have e1 : s.gravitationalGradient xyz = some (let k := -Gravity.G * 4 / 3 * Real.pi * s.rho
        ⟨⟨k * 1, k * 0, k * 0⟩, ⟨k * 0, k * 1, k * 0⟩, ⟨k * 0, k * 0, k * 1⟩⟩) := by
      show (if (xyz - s.location).len = s.radius then _ else if (xyz - s.location).len > s.radius then _ else _) = _
      rw [if_neg hlt.ne, if_neg (not_lt.2 hlt.le)]
    have e2 : Sphere.gravitationalGradient F s xyz = some
        (let k := F.mul (F.mul (F.div (F.mul (-F.const Gravity.G) 4) 3) (F.const Real.pi)) s.rho
        ⟨⟨F.mul k 1, F.mul k 0, F.mul k 0⟩, ⟨F.mul k 0, F.mul k 1, F.mul k 0⟩, ⟨F.mul k 0, F.mul k 0, F.mul k 1⟩⟩) := by
      show (if norm F (diff F xyz s.location) = s.radius then _ else if norm F (diff F xyz s.location) > s.radius then _ else _) = _
      rw [if_neg hin'.ne, if_neg (not_lt.2 hin'.le)]
    exact ⟨_, _, e1, e2, fun hc => absurd hc (not_lt.2 hlt.le), fun _ =>
      ⟨⟨hkm 1, hkm 0, hkm 0⟩, ⟨hkm 0, hkm 1, hkm 0⟩, ⟨hkm 0, hkm 0, hkm 1⟩⟩⟩

/-- The hypotheses are met: double precision, a ball of radius one and the point at distance two. -/
example (F : Arith (2 ^ (-52 : ℤ))) : Accurate (2 ^ (-52 : ℤ)) 24 ((⟨1, 1, 0⟩ : Gravity.Sphere).gravitationalPotential ⟨2, 0, 0⟩)
    (Sphere.gravitationalPotential F ⟨1, 1, 0⟩ ⟨2, 0, 0⟩) :=
  Sphere.potential_accurate F (by positivity) (by norm_num) _ one_pos _

end Verif.Rounded
