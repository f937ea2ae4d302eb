import Verif.Lemmas.RoundedSums
import Verif.Model.StaticHalfspace

/-!
# C116: rounding errors of the point sources

Each result computed with rounded operations is the exact one up to a few roundings: relative to the component itself where
the formula is a product, relative to the size of the field where terms of both signs are added.
-/

namespace Verif.Rounded

variable {u : ℝ} (F : Arith u)

/-! ## With exact operations the rounded formulas are the modelled ones -/

theorem sum3_exact (a b c : ℝ) : sum3 Arith.exact a b c = a + b + c := rfl

theorem dist_exact (a b : V3 ℝ) : norm Arith.exact (diff Arith.exact a b) = (a - b).len := by
  show Real.sqrt _ = Real.sqrt _
  congr 1
  simp only [sum3_exact]
  simp only [Arith.exact, diff, V3.sub_x, V3.sub_y, V3.sub_z]
  ring

theorem exact_operations (s : Gravity.PointMass) (b : Gravity.Sphere) (d : Static.MagDipole) (xyz : V3 ℝ) :
    PointMass.gravitationalPotential Arith.exact s xyz = s.gravitationalPotential xyz ∧
    PointMass.gravitationalField Arith.exact s xyz = s.gravitationalField xyz ∧
    PointMass.gravitationalGradient Arith.exact s xyz = s.gravitationalGradient xyz ∧
    Sphere.gravitationalPotential Arith.exact b xyz = b.gravitationalPotential xyz ∧
    Sphere.gravitationalField Arith.exact b xyz = b.gravitationalField xyz ∧
    Sphere.gravitationalGradient Arith.exact b xyz = b.gravitationalGradient xyz ∧
    MagDipole.poleFluxDensity Arith.exact d xyz = d.poleFluxDensity xyz ∧
    MagDipole.magneticFluxDensity Arith.exact d xyz = d.magneticFluxDensity xyz ∧
    MagDipole.vectorPotential Arith.exact d xyz = d.vectorPotential xyz := by
  have hd := dist_exact
  refine ⟨?_, ?_, ?_, ?_, ?_, ?_, ?_, ?_, ?_⟩
  · unfold PointMass.gravitationalPotential; simp only [hd]; rfl
  · unfold PointMass.gravitationalField; simp only [hd]; rfl
  · unfold PointMass.gravitationalGradient; simp only [hd]; rfl
  · unfold Sphere.gravitationalPotential PointMass.gravitationalPotential; simp only [hd]; rfl
  · unfold Sphere.gravitationalField PointMass.gravitationalField; simp only [hd]; rfl
  · unfold Sphere.gravitationalGradient PointMass.gravitationalGradient; simp only [hd]; rfl
  · unfold MagDipole.poleFluxDensity; simp only [hd]; rfl
  · unfold MagDipole.magneticFluxDensity; simp only [hd]; rfl
  · unfold MagDipole.vectorPotential; simp only [hd]; rfl

/-! ## Products: every component to a few units in the last place -/

variable (hu : 0 ≤ u)
include hu

theorem lt_one_of {n : ℝ} (hn : 1 ≤ n) (h : n * u < 1) : u < 1 := by nlinarith

/-- Distances (em/base.py:274) are accurate to 3.5 roundings. -/
theorem distance_accurate (h : 7 / 2 * u < 1) (location xyz : V3 ℝ) :
    Accurate u (7 / 2) (xyz - location).len (distance F location xyz) :=
  (near_dist F hu (lt_one_of hu (by norm_num) h) xyz location).accurate hu (by norm_num) h

/-- The potential of a point mass is accurate to 6.5 roundings at every point. -/
theorem PointMass.potential_accurate (s : Gravity.PointMass) {xyz : V3 ℝ} (hp : xyz ≠ s.location) (h : 13 / 2 * u < 1) :
    Accurate u (13 / 2) (s.gravitationalPotential xyz) (PointMass.gravitationalPotential F s xyz) := by
  have hu1 := lt_one_of hu (by norm_num) h
  have h0 := V3.len_sub_ne_zero hp
  have hG := F.near_mul hu hu1 (F.near_const hu hu1 Gravity.G) (Near.refl s.mass)
  exact ((F.near_div hu hu1 hG (near_dist F hu hu1 xyz s.location) h0).mono hu hu1 (by norm_num)).accurate hu (by norm_num) h

theorem near_gm (hu1 : u < 1) (m : ℝ) : Near u 2 (-Gravity.G * m) (F.mul (-F.const Gravity.G) m) :=
  (F.near_mul hu hu1 (F.near_const hu hu1 Gravity.G).neg (Near.refl m)).mono hu hu1 (by norm_num)

/-- Each component of the field of a point mass is accurate to 17.5 roundings, relative to itself. -/
theorem PointMass.field_accurate (s : Gravity.PointMass) {xyz : V3 ℝ} (hp : xyz ≠ s.location) (h : 35 / 2 * u < 1) :
    V3.Accurate u (35 / 2) (s.gravitationalField xyz) (PointMass.gravitationalField F s xyz) := by
  have hu1 := lt_one_of hu (by norm_num) h
  have h0 := V3.len_sub_ne_zero hp
  obtain ⟨h1, h2, h3⟩ := near_unit F hu hu1 hp
  have hr := F.near_pow hu hu1 (near_dist F hu hu1 xyz s.location) 2
  have key : ∀ {a b : ℝ}, Near u (11 / 2) a b → Accurate u (35 / 2)
      (-Gravity.G * s.mass * a / (xyz - s.location).len ^ 2)
      (F.div (F.mul (F.mul (-F.const Gravity.G) s.mass) b) (F.pow (norm F (diff F xyz s.location)) 2)) := fun hab =>
    ((F.near_div hu hu1 (F.near_mul hu hu1 (near_gm F hu hu1 s.mass) hab) hr (pow_ne_zero 2 h0)).mono hu hu1
      (by norm_num)).accurate hu (by norm_num) h
  exact ⟨key h1, key h2, key h3⟩

/-- Each component of the field of a magnetic pole is accurate to 19.5 roundings, relative to itself. -/
theorem MagDipole.pole_accurate (s : Static.MagDipole) {xyz : V3 ℝ} (hp : xyz ≠ s.location) (h : 39 / 2 * u < 1) :
    V3.Accurate u (39 / 2) (s.poleFluxDensity xyz) (MagDipole.poleFluxDensity F s xyz) := by
  have hu1 := lt_one_of hu (by norm_num) h
  have h0 := V3.len_sub_ne_zero hp
  obtain ⟨h1, h2, h3⟩ := near_unit F hu hu1 hp
  have hr := F.near_pow hu hu1 (near_dist F hu hu1 xyz s.location) 2
  have h4 := F.near_mul hu hu1 (F.near_mul hu hu1 (Near.refl 4) (F.near_const hu hu1 Real.pi)) hr
  have hk := F.near_div hu hu1 (F.near_mul hu hu1 (Near.refl s.moment) (Near.refl s.mu)) h4
    (mul_ne_zero (mul_ne_zero (by norm_num) Real.pi_ne_zero) (pow_ne_zero 2 h0))
  have key : ∀ {a b : ℝ}, Near u (11 / 2) a b → _ := fun hab =>
    ((F.near_mul hu hu1 hk hab).mono hu hu1 (by norm_num)).accurate (n := 39 / 2) hu (by norm_num) h
  exact ⟨key h1, key h2, key h3⟩

theorem near_sigma (hu1 : u < 1) {rho : ℝ} (hr : rho ≠ 0) : Near u 1 (1 / rho) (pointSigma F rho) :=
  (F.near_div hu hu1 (Near.refl 1) (Near.refl rho) hr).mono hu hu1 (by norm_num)

theorem near_four_pi_sigma (hu1 : u < 1) {rho : ℝ} (hr : rho ≠ 0) :
    Near u 4 (4 * Real.pi * (1 / rho)) (F.mul (F.mul 4 (F.const Real.pi)) (pointSigma F rho)) :=
  (F.near_mul hu hu1 (F.near_mul hu hu1 (Near.refl 4) (F.near_const hu hu1 Real.pi)) (near_sigma F hu hu1 hr)).mono hu hu1
    (by norm_num)

theorem near_pointPotential (hu1 : u < 1) {rho : ℝ} (hr : rho ≠ 0) (current : ℝ) {location xyz : V3 ℝ} (hp : xyz ≠ location) :
    Near u (19 / 2) (current / (4 * Real.pi * (1 / rho) * (xyz - location).len)) (pointPotential F current rho location xyz) :=
  (F.near_div hu hu1 (Near.refl current)
    (F.near_mul hu hu1 (near_four_pi_sigma F hu hu1 hr) (near_dist F hu hu1 xyz location))
    (mul_ne_zero (mul_ne_zero (mul_ne_zero (by norm_num) Real.pi_ne_zero) (one_div_ne_zero hr)) (V3.len_sub_ne_zero hp))).mono
    hu hu1 (by norm_num)

/-- The potential of a point electrode is accurate to 9.5 roundings and each component of its electric field to 19.5. -/
theorem pointCurrent_accurate (mu0 current : ℝ) {rho : ℝ} (hr : rho ≠ 0) {location xyz : V3 ℝ} (hp : xyz ≠ location)
    (h : 39 / 2 * u < 1) :
    (∃ v, Static.pointPotential (Static.pointCurrent mu0 rho current location) xyz = .ok v ∧
      Accurate u (19 / 2) v (pointPotential F current rho location xyz)) ∧
    (∃ e, Static.pointElectricField (Static.pointCurrent mu0 rho current location) xyz = .ok e ∧
      V3.Accurate u (39 / 2) e (pointElectricField F current rho location xyz)) := by
  have hu1 := lt_one_of hu (by norm_num) h
  have h0 := V3.len_sub_ne_zero hp
  refine ⟨⟨_, rfl, (near_pointPotential F hu hu1 hr current hp).accurate hu (by norm_num) (by linarith)⟩, ⟨_, rfl, ?_⟩⟩
  obtain ⟨h1, h2, h3⟩ := near_diff F hu hu1 xyz location
  have hk := F.near_div hu hu1 (Near.refl current) (near_four_pi_sigma F hu hu1 hr)
    (mul_ne_zero (mul_ne_zero (by norm_num) Real.pi_ne_zero) (one_div_ne_zero hr))
  have hr3 := F.near_pow hu hu1 (near_dist F hu hu1 xyz location) 3
  have key : ∀ {a b : ℝ}, Near u 1 a b → _ := fun hab =>
    ((F.near_mul hu hu1 hk (F.near_div hu hu1 hab hr3 (pow_ne_zero 3 h0))).mono hu hu1 (by norm_num)).accurate (n := 39 / 2)
      hu (by norm_num) h
  exact ⟨key h1, key h2, key h3⟩

/-- The potential of a point electrode in a half-space is accurate to 10.5 roundings: the two terms have the same sign. -/
theorem halfPotential_accurate (mu0 current : ℝ) {rho : ℝ} (hr : 0 < rho) {location xyz : V3 ℝ}
    (hl : location.z ≤ 0) (hz : xyz.z ≤ 0) (hp : xyz ≠ location) (hp' : xyz ≠ Static.mirror location) (h : 21 / 2 * u < 1) :
    ∃ s v, Static.PointHalf.new mu0 rho current location = .ok s ∧ s.potential xyz = .ok v ∧
      Accurate u (21 / 2) v (halfPotential F current rho location xyz) := by
  have hu1 := lt_one_of hu (by norm_num) h
  have hnew : Static.PointHalf.new mu0 rho current location = .ok ⟨rho, current, location,
      Static.pointCurrent mu0 rho current location, Static.pointCurrent mu0 rho current (Static.mirror location)⟩ := by
    unfold Static.PointHalf.new
    rw [if_neg hr.ne', if_neg (not_le.2 (one_div_pos.2 hr)), if_neg (not_lt.2 hl)]
  have hpot : (⟨rho, current, location, Static.pointCurrent mu0 rho current location,
      Static.pointCurrent mu0 rho current (Static.mirror location)⟩ : Static.PointHalf).potential xyz =
      .ok (current / (4 * Real.pi * (1 / rho) * (xyz - location).len) +
        current / (4 * Real.pi * (1 / rho) * (xyz - Static.mirror location).len)) := by
    unfold Static.PointHalf.potential
    rw [if_neg (not_lt.2 hz)]
    rfl
  refine ⟨_, _, hnew, hpot, ?_⟩
  have h1 := near_pointPotential F hu hu1 hr.ne' current hp
  have h2 := near_pointPotential F hu hu1 hr.ne' current hp'
  have e : halfPotential F current rho location xyz = F.add (pointPotential F current rho location xyz)
    (pointPotential F current rho (Static.mirror location) xyz) := rfl
  have pos : ∀ {q : V3 ℝ}, xyz ≠ q → 0 ≤ 4 * Real.pi * (1 / rho) * (xyz - q).len := fun hq => by
    have := V3.len_sub_pos hq
    positivity
  rw [e]
  rcases le_total 0 current with hc | hc
  · exact ((F.near_add hu hu1 (div_nonneg hc (pos hp)) (div_nonneg hc (pos hp')) h1 h2).mono hu hu1 (by norm_num)).accurate
      hu (by norm_num) h
  · have h3 := (Near.add (neg_nonneg.2 (div_nonpos_of_nonpos_of_nonneg hc (pos hp)))
      (neg_nonneg.2 (div_nonpos_of_nonpos_of_nonneg hc (pos hp'))) h1.neg h2.neg).neg
    rw [← neg_add, ← neg_add, neg_neg, neg_neg] at h3
    exact ((h3.trans hu1 (Near.of_err hu hu1 (F.add_err _ _))).mono hu hu1 (by norm_num)).accurate hu (by norm_num) h

/-! ## Sums of terms of both signs: to a few units in the last place of the size of the field -/

omit hu in
theorem unit_bounds {v : V3 ℝ} (h : v.len ≠ 0) : |v.x / v.len| ≤ 1 ∧ |v.y / v.len| ≤ 1 ∧ |v.z / v.len| ≤ 1 ∧
    (v.x / v.len) ^ 2 + (v.y / v.len) ^ 2 + (v.z / v.len) ^ 2 = 1 := by
  have e : (v.x / v.len) ^ 2 + (v.y / v.len) ^ 2 + (v.z / v.len) ^ 2 = 1 := by
    rw [div_pow, div_pow, div_pow, V3.len_sq, ← add_div, ← add_div, ← V3.len_sq]
    exact div_self (pow_ne_zero 2 h)
  refine ⟨?_, ?_, ?_, e⟩ <;> rw [← sq_le_one_iff_abs_le_one] <;>
    nlinarith [sq_nonneg (v.x / v.len), sq_nonneg (v.y / v.len), sq_nonneg (v.z / v.len)]

omit hu in
theorem close_sub {k a b t s g : ℝ} (ht : |t - 1| ≤ g) (hs : |s - 1| ≤ g) :
    |k * (a * t - b * s) - k * (a - b)| ≤ g * (|k| * (|a| + |b|)) := by
  have e : k * (a * t - b * s) - k * (a - b) = k * (a * (t - 1) - b * (s - 1)) := by ring
  rw [e, abs_mul]
  have h1 : |a * (t - 1) - b * (s - 1)| ≤ |a| * g + |b| * g := by
    refine (abs_sub _ _).trans (add_le_add ?_ ?_)
    · rw [abs_mul]; exact mul_le_mul_of_nonneg_left ht (abs_nonneg _)
    · rw [abs_mul]; exact mul_le_mul_of_nonneg_left hs (abs_nonneg _)
  calc |k| * _ ≤ |k| * (|a| * g + |b| * g) := mul_le_mul_of_nonneg_left h1 (abs_nonneg _)
    _ = g * (|k| * (|a| + |b|)) := by ring

/-- Each entry of the gradient of a point mass is accurate to 29.5 roundings of `4 G m / r³`. -/
theorem PointMass.gradient_accurate (s : Gravity.PointMass) {xyz : V3 ℝ} (hp : xyz ≠ s.location) (h : 59 / 2 * u < 1) :
    let M := 4 * (|Gravity.G * s.mass| / (xyz - s.location).len ^ 3)
    V3.AccurateTo M u (59 / 2) (s.gravitationalGradient xyz).x (PointMass.gravitationalGradient F s xyz).x ∧
    V3.AccurateTo M u (59 / 2) (s.gravitationalGradient xyz).y (PointMass.gravitationalGradient F s xyz).y ∧
    V3.AccurateTo M u (59 / 2) (s.gravitationalGradient xyz).z (PointMass.gravitationalGradient F s xyz).z := by
  intro M
  have hu1 := lt_one_of hu (by norm_num) h
  have h0 := V3.len_sub_ne_zero hp
  have hpos := V3.len_sub_pos hp
  obtain ⟨h1, h2, h3⟩ := near_unit F hu hu1 hp
  obtain ⟨b1, b2, b3, _⟩ := unit_bounds h0
  have hr := F.near_pow hu hu1 (near_dist F hu hu1 xyz s.location) 3
  have key : ∀ (eye : ℝ), |eye| ≤ 1 → ∀ {a b a' b' : ℝ}, |a| ≤ 1 → |b| ≤ 1 → Near u (11 / 2) a a' → Near u (11 / 2) b b' →
      AccurateTo M u (59 / 2) (-Gravity.G * s.mass * (eye - 3 * a * b) / (xyz - s.location).len ^ 3)
      (F.div (F.mul (F.mul (-F.const Gravity.G) s.mass) (F.sub eye (F.mul (F.mul 3 a') b')))
        (F.pow (norm F (diff F xyz s.location)) 3)) := by
    intro eye he a b a' b' ha hb hab1 hab2
    have hm : Near u 13 (3 * a * b) (F.mul (F.mul 3 a') b') :=
      (F.near_mul hu hu1 (F.near_mul hu hu1 (Near.refl 3) hab1) hab2).mono hu hu1 (by norm_num)
    obtain ⟨t, r, ht, hr', e1⟩ := sub_fac F hu hu1 ((Near.refl (u := u) eye).mono hu hu1 (by norm_num : (0:ℝ) ≤ 13)) hm
    have hq : Near u (31 / 2) (-Gravity.G * s.mass * (F.sub eye (F.mul (F.mul 3 a') b')) / (xyz - s.location).len ^ 3)
        (F.div (F.mul (F.mul (-F.const Gravity.G) s.mass) (F.sub eye (F.mul (F.mul 3 a') b')))
        (F.pow (norm F (diff F xyz s.location)) 3)) :=
      (F.near_div hu hu1 (F.near_mul hu hu1 (near_gm F hu hu1 s.mass) (Near.refl _)) hr (pow_ne_zero 3 h0)).mono hu hu1
        (by norm_num)
    obtain ⟨d, hd, e2⟩ := hq.fac
    have f1 := ((ht.mul hu1 hd).mono hu hu1 (by norm_num : (13 + 1 + 31 / 2 : ℝ) ≤ 59 / 2)).close hu (by norm_num) h
    have f2 := ((hr'.mul hu1 hd).mono hu hu1 (by norm_num : (13 + 1 + 31 / 2 : ℝ) ≤ 59 / 2)).close hu (by norm_num) h
    have hc := close_sub (k := -Gravity.G * s.mass / (xyz - s.location).len ^ 3) (a := eye) (b := 3 * a * b) f1 f2
    unfold AccurateTo
    rw [e2, e1]
    have e3 : -Gravity.G * s.mass * (eye * t - 3 * a * b * r) / (xyz - s.location).len ^ 3 * d -
        -Gravity.G * s.mass * (eye - 3 * a * b) / (xyz - s.location).len ^ 3 =
        -Gravity.G * s.mass / (xyz - s.location).len ^ 3 * (eye * (t * d) - 3 * a * b * (r * d)) -
        -Gravity.G * s.mass / (xyz - s.location).len ^ 3 * (eye - 3 * a * b) := by ring
    rw [e3]
    refine hc.trans (mul_le_mul_of_nonneg_left ?_ (div_nonneg (by positivity) (by linarith)))
    have hk : |(-Gravity.G * s.mass / (xyz - s.location).len ^ 3)| = |Gravity.G * s.mass| / (xyz - s.location).len ^ 3 := by
      rw [abs_div, abs_of_pos (pow_pos hpos 3), neg_mul, abs_neg]
    have h3ab : |3 * a * b| ≤ 3 := by
      rw [abs_mul, abs_mul, abs_of_pos (by norm_num : (0:ℝ) < 3)]
      nlinarith [abs_nonneg a, abs_nonneg b]
    rw [hk]
    have hnn : 0 ≤ |Gravity.G * s.mass| / (xyz - s.location).len ^ 3 := by positivity
    show _ ≤ 4 * _
    nlinarith
  have z0 : |(0 : ℝ)| ≤ 1 := by norm_num
  have z1 : |(1 : ℝ)| ≤ 1 := by norm_num
  exact ⟨⟨key 1 z1 b1 b1 h1 h1, key 0 z0 b1 b2 h1 h2, key 0 z0 b1 b3 h1 h3⟩,
    ⟨key 0 z0 b2 b1 h2 h1, key 1 z1 b2 b2 h2 h2, key 0 z0 b2 b3 h2 h3⟩,
    ⟨key 0 z0 b3 b1 h3 h1, key 0 z0 b3 b2 h3 h2, key 1 z1 b3 b3 h3 h3⟩⟩

end Verif.Rounded
