import Verif.Lemmas.Range
import Verif.Props.Rounding

/-!
# The point sources computed with a limited range
-/

namespace Verif.Rounded

variable {u : ℝ} (hu : 0 ≤ u) (hu1 : u ≤ 1 / 2) (L : Limited u (1 / 2 ^ 1022) (2 ^ 1023))
include hu1

theorem sum3_agree {p : ℕ} {a b c : ℝ} (ha : 0 ≤ a) (hb : 0 ≤ b) (hc : 0 ≤ c) (h1 : Mag p a) (h2 : Mag p b) (h3 : Mag p c)
    (hp : p + 3 ≤ 1022) :
    sum3 L a b c = sum3 (L.widen hu) a b c ∧ Mag (p + 4) (sum3 (L.widen hu) a b c) ∧ 0 ≤ sum3 (L.widen hu) a b c := by
  unfold sum3
  show (if L.order = 0 then _ else if L.order = 1 then _ else _) = (if L.order = 0 then _ else if L.order = 1 then _ else _) ∧
    Mag _ (if L.order = 0 then _ else if L.order = 1 then _ else _) ∧ 0 ≤ (if L.order = 0 then _ else if L.order = 1 then _ else _)
  split
  · obtain ⟨e, m, n⟩ := L.add_agree hu hu1 ha hb h1 h2 (by omega)
    rw [e]
    exact L.add_agree hu hu1 n hc m (h3.mono (by omega)) (by omega)
  split
  · obtain ⟨e, m, n⟩ := L.add_agree hu hu1 hb hc h2 h3 (by omega)
    rw [e]
    exact L.add_agree hu hu1 ha n (h1.mono (by omega)) m (by omega)
  · obtain ⟨e, m, n⟩ := L.add_agree hu hu1 ha hc h1 h3 (by omega)
    rw [e]
    exact L.add_agree hu hu1 n hb m (h2.mono (by omega)) (by omega)

theorem square_agree {p : ℕ} {a : ℝ} (h : Mag p a) (hp : p + p ≤ 1022) :
    L.mul a a = (L.widen hu).mul a a ∧ Mag (p + p + 1) ((L.widen hu).mul a a) ∧ 0 ≤ (L.widen hu).mul a a :=
  ⟨(L.mul_agree hu hu1 h h hp).1, (L.mul_agree hu hu1 h h hp).2,
    Limited.nonneg_of_err hu1 (mul_self_nonneg a) ((L.widen hu).mul_err a a)⟩

theorem norm_agree {v : V3 ℝ} (h1 : Mag 101 v.x) (h2 : Mag 101 v.y) (h3 : Mag 101 v.z) :
    norm L v = norm (L.widen hu) v ∧ Mag 105 (norm (L.widen hu) v) := by
  obtain ⟨ex, mx, nx⟩ := square_agree hu hu1 L h1 (by norm_num)
  obtain ⟨ey, my, ny⟩ := square_agree hu hu1 L h2 (by norm_num)
  obtain ⟨ez, mz, nz⟩ := square_agree hu hu1 L h3 (by norm_num)
  obtain ⟨es, ms, ns⟩ := sum3_agree hu hu1 L nx ny nz mx my mz (by norm_num)
  unfold norm
  rw [ex, ey, ez, es]
  exact L.sqrt_agree hu hu1 (p := 104) ns (ms.mono (by norm_num)) (by norm_num)

theorem diff_agree {a b : V3 ℝ} (h : V3.Moderate (a - b)) :
    diff L a b = diff (L.widen hu) a b ∧ Mag 101 (diff (L.widen hu) a b).x ∧ Mag 101 (diff (L.widen hu) a b).y ∧
      Mag 101 (diff (L.widen hu) a b).z := by
  obtain ⟨h1, h2, h3⟩ := h
  obtain ⟨e1, m1⟩ := L.sub_agree hu hu1 (Mag.of_moderate h1) (by norm_num)
  obtain ⟨e2, m2⟩ := L.sub_agree hu hu1 (Mag.of_moderate h2) (by norm_num)
  obtain ⟨e3, m3⟩ := L.sub_agree hu hu1 (Mag.of_moderate h3) (by norm_num)
  refine ⟨?_, m1, m2, m3⟩
  unfold diff
  rw [e1, e2, e3]

theorem dist_agree {a b : V3 ℝ} (h : V3.Moderate (a - b)) :
    norm L (diff L a b) = norm (L.widen hu) (diff (L.widen hu) a b) ∧ Mag 105 (norm (L.widen hu) (diff (L.widen hu) a b)) := by
  obtain ⟨e, m1, m2, m3⟩ := diff_agree hu hu1 L h
  rw [e]
  exact norm_agree hu hu1 L m1 m2 m3

theorem dist_ne_zero {a b : V3 ℝ} (h : a ≠ b) : norm (L.widen hu) (diff (L.widen hu) a b) ≠ 0 :=
  Near.ne_zero (by linarith) (near_dist (L.widen hu) hu (by linarith) a b) (V3.len_sub_ne_zero h)

theorem unit_agree {a b : V3 ℝ} (hp : a ≠ b) (h : V3.Moderate (a - b)) :
    unit L (diff L a b) (norm L (diff L a b)) =
      unit (L.widen hu) (diff (L.widen hu) a b) (norm (L.widen hu) (diff (L.widen hu) a b)) ∧
    Mag 207 (unit (L.widen hu) (diff (L.widen hu) a b) (norm (L.widen hu) (diff (L.widen hu) a b))).x ∧
    Mag 207 (unit (L.widen hu) (diff (L.widen hu) a b) (norm (L.widen hu) (diff (L.widen hu) a b))).y ∧
    Mag 207 (unit (L.widen hu) (diff (L.widen hu) a b) (norm (L.widen hu) (diff (L.widen hu) a b))).z := by
  obtain ⟨e, m1, m2, m3⟩ := diff_agree hu hu1 L h
  obtain ⟨er, mr⟩ := dist_agree hu hu1 L h
  have h0 := dist_ne_zero hu hu1 L hp
  obtain ⟨e1, k1⟩ := L.div_agree hu hu1 h0 m1 mr (by norm_num)
  obtain ⟨e2, k2⟩ := L.div_agree hu hu1 h0 m2 mr (by norm_num)
  obtain ⟨e3, k3⟩ := L.div_agree hu hu1 h0 m3 mr (by norm_num)
  refine ⟨?_, k1, k2, k3⟩
  rw [er, e]
  unfold unit V3.map
  simp only [e1, e2, e3]

omit hu1 in
theorem mag_G : Mag 34 Gravity.G := by
  unfold Gravity.G
  exact Or.inr ⟨by rw [abs_of_pos (by norm_num)]; norm_num, by rw [abs_of_pos (by norm_num)]; norm_num⟩

omit hu1 in
theorem mag_pi : Mag 2 Real.pi := by
  have h1 := Real.two_le_pi
  have h2 := Real.pi_le_four
  exact Or.inr ⟨by rw [abs_of_pos Real.pi_pos]; norm_num; linarith, by rw [abs_of_pos Real.pi_pos]; norm_num; linarith⟩

omit hu1 in
theorem mag_two_pow (x : ℝ) (h : 1 ≤ x) (h' : x ≤ 4) : Mag 2 x :=
  Or.inr ⟨by rw [abs_of_pos (by linarith)]; norm_num; linarith, by rw [abs_of_pos (by linarith)]; norm_num; linarith⟩

theorem PointMass.potential_agree (s : Gravity.PointMass) {p : ℕ} (hm : Mag p s.mass) (hp' : p ≤ 500) {xyz : V3 ℝ}
    (hp : xyz ≠ s.location) (h : V3.Moderate (xyz - s.location)) :
    PointMass.gravitationalPotential L s xyz = PointMass.gravitationalPotential (L.widen hu) s xyz := by
  obtain ⟨er, mr⟩ := dist_agree hu hu1 L h
  obtain ⟨eG, mG⟩ := L.const_agree hu hu1 mag_G (by norm_num)
  obtain ⟨em, mm⟩ := L.mul_agree hu hu1 mG hm (by omega)
  unfold PointMass.gravitationalPotential
  dsimp only
  rw [er, eG, em]
  exact (L.div_agree hu hu1 (dist_ne_zero hu hu1 L hp) mm mr (by omega)).1

theorem sq_dist_agree {a b : V3 ℝ} (hp : a ≠ b) (h : V3.Moderate (a - b)) (n : ℕ) (hn : n ≠ 0) (hn3 : n ≤ 3) :
    L.pow (norm L (diff L a b)) n = (L.widen hu).pow (norm (L.widen hu) (diff (L.widen hu) a b)) n ∧
    Mag (105 * n + 1) ((L.widen hu).pow (norm (L.widen hu) (diff (L.widen hu) a b)) n) ∧
    (L.widen hu).pow (norm (L.widen hu) (diff (L.widen hu) a b)) n ≠ 0 := by
  obtain ⟨er, mr⟩ := dist_agree hu hu1 L h
  obtain ⟨e, m⟩ := L.pow_agree hu hu1 mr n hn (by omega)
  rw [er]
  exact ⟨e, m, Near.ne_zero (by linarith) ((L.widen hu).near_pow hu (by linarith) (Near.refl _) n)
    (pow_ne_zero n (dist_ne_zero hu hu1 L hp))⟩

theorem PointMass.field_agree (s : Gravity.PointMass) {p : ℕ} (hm : Mag p s.mass) (hp' : p ≤ 500) {xyz : V3 ℝ}
    (hp : xyz ≠ s.location) (h : V3.Moderate (xyz - s.location)) :
    PointMass.gravitationalField L s xyz = PointMass.gravitationalField (L.widen hu) s xyz := by
  obtain ⟨eh, m1, m2, m3⟩ := unit_agree hu hu1 L hp h
  obtain ⟨er, mr, nr⟩ := sq_dist_agree hu hu1 L hp h 2 (by norm_num) (by norm_num)
  obtain ⟨eG, mG⟩ := L.const_agree hu hu1 mag_G (by norm_num)
  obtain ⟨em, mm⟩ := L.mul_agree hu hu1 mG.neg hm (by omega)
  have key : ∀ {c : ℝ}, Mag 207 c → L.div (L.mul ((L.widen hu).mul (-(L.widen hu).const Gravity.G) s.mass) c)
      ((L.widen hu).pow (norm (L.widen hu) (diff (L.widen hu) xyz s.location)) 2) =
      (L.widen hu).div ((L.widen hu).mul ((L.widen hu).mul (-(L.widen hu).const Gravity.G) s.mass) c)
        ((L.widen hu).pow (norm (L.widen hu) (diff (L.widen hu) xyz s.location)) 2) := fun hc => by
    obtain ⟨e, m⟩ := L.mul_agree hu hu1 mm hc (by omega)
    rw [e]
    exact (L.div_agree hu hu1 nr m mr (by omega)).1
  unfold PointMass.gravitationalField
  dsimp only
  rw [eh, er, eG, em]
  unfold V3.map
  simp only [key m1, key m2, key m3]

theorem four_pi_agree : L.mul 4 (L.const Real.pi) = (L.widen hu).mul 4 ((L.widen hu).const Real.pi) ∧
    Mag 6 ((L.widen hu).mul 4 ((L.widen hu).const Real.pi)) ∧ (L.widen hu).mul 4 ((L.widen hu).const Real.pi) ≠ 0 := by
  obtain ⟨e, m⟩ := L.const_agree hu hu1 mag_pi (by norm_num)
  obtain ⟨e', m'⟩ := L.mul_agree hu hu1 (mag_two_pow 4 (by norm_num) (by norm_num)) m (by norm_num)
  rw [e]
  have hlt : u < 1 := by linarith
  exact ⟨e', m', Near.ne_zero (by linarith) ((L.widen hu).near_mul hu hlt (Near.refl 4) ((L.widen hu).near_const hu hlt Real.pi))
    (mul_ne_zero (by norm_num) Real.pi_ne_zero)⟩

theorem mul_ne {x y : ℝ} (hx : x ≠ 0) (hy : y ≠ 0) : (L.widen hu).mul x y ≠ 0 :=
  Near.ne_zero (by linarith) ((L.widen hu).near_mul hu (by linarith) (Near.refl x) (Near.refl y)) (mul_ne_zero hx hy)

theorem MagDipole.pole_agree (s : Static.MagDipole) (hm : Moderate s.moment) (hmu : Moderate s.mu) {xyz : V3 ℝ}
    (hp : xyz ≠ s.location) (h : V3.Moderate (xyz - s.location)) :
    MagDipole.poleFluxDensity L s xyz = MagDipole.poleFluxDensity (L.widen hu) s xyz := by
  obtain ⟨eh, m1, m2, m3⟩ := unit_agree hu hu1 L hp h
  obtain ⟨er, mr, nr⟩ := sq_dist_agree hu hu1 L hp h 2 (by norm_num) (by norm_num)
  obtain ⟨ep, mp, np⟩ := four_pi_agree hu hu1 L
  obtain ⟨em, mm⟩ := L.mul_agree hu hu1 (Mag.of_moderate hm) (Mag.of_moderate hmu) (by norm_num)
  obtain ⟨ed, md⟩ := L.mul_agree hu hu1 mp mr (by norm_num)
  obtain ⟨ek, mk⟩ := L.div_agree hu hu1 (mul_ne hu hu1 L np nr) mm md (by norm_num)
  unfold MagDipole.poleFluxDensity
  dsimp only
  rw [eh, er, ep, em, ed, ek]
  unfold V3.map
  simp only [(L.mul_agree hu hu1 mk m1 (by norm_num)).1, (L.mul_agree hu hu1 mk m2 (by norm_num)).1,
    (L.mul_agree hu hu1 mk m3 (by norm_num)).1]

theorem sigma_agree {rho : ℝ} (hr : rho ≠ 0) (hm : Moderate rho) : pointSigma L rho = pointSigma (L.widen hu) rho ∧
    Mag 103 (pointSigma (L.widen hu) rho) ∧ pointSigma (L.widen hu) rho ≠ 0 := by
  obtain ⟨e, m⟩ := L.div_agree hu hu1 hr (mag_two_pow 1 (by norm_num) (by norm_num)) (Mag.of_moderate hm) (by norm_num)
  exact ⟨e, m, Near.ne_zero (by linarith) (near_sigma (L.widen hu) hu (by linarith) hr) (one_div_ne_zero hr)⟩

theorem pointPotential_agree {current rho : ℝ} (hr : rho ≠ 0) (hm : Moderate rho) (hc : Moderate current)
    {location xyz : V3 ℝ} (hp : xyz ≠ location) (h : V3.Moderate (xyz - location)) :
    pointPotential L current rho location xyz = pointPotential (L.widen hu) current rho location xyz ∧
      Mag 400 (pointPotential (L.widen hu) current rho location xyz) := by
  obtain ⟨er, mr⟩ := dist_agree hu hu1 L h
  obtain ⟨ep, mp, np⟩ := four_pi_agree hu hu1 L
  obtain ⟨es, ms, ns⟩ := sigma_agree hu hu1 L hr hm
  obtain ⟨e1, m1⟩ := L.mul_agree hu hu1 mp ms (by norm_num)
  obtain ⟨e2, m2⟩ := L.mul_agree hu hu1 m1 mr (by norm_num)
  obtain ⟨e3, m3⟩ := L.div_agree hu hu1 (mul_ne hu hu1 L (mul_ne hu hu1 L np ns) (dist_ne_zero hu hu1 L hp))
    (Mag.of_moderate hc) m2 (by norm_num)
  unfold pointPotential
  dsimp only
  rw [er, ep, es, e1, e2]
  exact ⟨e3, m3.mono (by norm_num)⟩

theorem pointElectricField_agree {current rho : ℝ} (hr : rho ≠ 0) (hm : Moderate rho) (hc : Moderate current)
    {location xyz : V3 ℝ} (hp : xyz ≠ location) (h : V3.Moderate (xyz - location)) :
    pointElectricField L current rho location xyz = pointElectricField (L.widen hu) current rho location xyz := by
  obtain ⟨ev, v1, v2, v3⟩ := diff_agree hu hu1 L h
  obtain ⟨er, mr, nr⟩ := sq_dist_agree hu hu1 L hp h 3 (by norm_num) (by norm_num)
  obtain ⟨ep, mp, np⟩ := four_pi_agree hu hu1 L
  obtain ⟨es, ms, ns⟩ := sigma_agree hu hu1 L hr hm
  obtain ⟨e1, m1⟩ := L.mul_agree hu hu1 mp ms (by norm_num)
  obtain ⟨e2, m2⟩ := L.div_agree hu hu1 (mul_ne hu hu1 L np ns) (Mag.of_moderate hc) m1 (by norm_num)
  have key : ∀ {c : ℝ}, Mag 101 c → L.mul ((L.widen hu).div current ((L.widen hu).mul ((L.widen hu).mul 4
      ((L.widen hu).const Real.pi)) (pointSigma (L.widen hu) rho))) (L.div c ((L.widen hu).pow (norm (L.widen hu)
      (diff (L.widen hu) xyz location)) 3)) = (L.widen hu).mul ((L.widen hu).div current ((L.widen hu).mul ((L.widen hu).mul 4
      ((L.widen hu).const Real.pi)) (pointSigma (L.widen hu) rho))) ((L.widen hu).div c ((L.widen hu).pow (norm (L.widen hu)
      (diff (L.widen hu) xyz location)) 3)) := fun hc => by
    obtain ⟨e, m⟩ := L.div_agree hu hu1 nr hc mr (by norm_num)
    rw [e]
    exact (L.mul_agree hu hu1 m2 m (by norm_num)).1
  unfold pointElectricField
  dsimp only
  rw [er, ev, ep, es, e1, e2]
  unfold V3.map
  simp only [key v1, key v2, key v3]

theorem Sphere.mass_agree (s : Gravity.Sphere) (hR : Moderate s.radius) (hr : Moderate s.rho) :
    Sphere.mass L s = Sphere.mass (L.widen hu) s ∧ Mag 412 (Sphere.mass (L.widen hu) s) := by
  obtain ⟨e, m⟩ := L.const_agree hu hu1 mag_pi (by norm_num)
  obtain ⟨e1, m1⟩ := L.div_agree hu hu1 (by norm_num : (3 : ℝ) ≠ 0) (mag_two_pow 4 (by norm_num) (by norm_num))
    (mag_two_pow 3 (by norm_num) (by norm_num)) (by norm_num)
  obtain ⟨e2, m2⟩ := L.mul_agree hu hu1 m1 m (by norm_num)
  obtain ⟨e3, m3⟩ := L.pow_agree hu hu1 (Mag.of_moderate hR) 3 (by norm_num) (by norm_num)
  obtain ⟨e4, m4⟩ := L.mul_agree hu hu1 m2 m3 (by norm_num)
  obtain ⟨e5, m5⟩ := L.mul_agree hu hu1 m4 (Mag.of_moderate hr) (by norm_num)
  unfold Sphere.mass
  rw [e, e1, e2, e3, e4]
  exact ⟨e5, m5.mono (by norm_num)⟩

theorem Sphere.field_agree (s : Gravity.Sphere) (hR0 : 0 < s.radius) (hR : Moderate s.radius) (hr : Moderate s.rho)
    {xyz : V3 ℝ} (h : V3.Moderate (xyz - s.location)) :
    Sphere.gravitationalField L s xyz = Sphere.gravitationalField (L.widen hu) s xyz := by
  obtain ⟨er, mr⟩ := dist_agree hu hu1 L h
  obtain ⟨ev, v1, v2, v3⟩ := diff_agree hu hu1 L h
  obtain ⟨em, mm⟩ := Sphere.mass_agree hu hu1 L s hR hr
  unfold Sphere.gravitationalField
  dsimp only
  rw [er]
  by_cases hc : norm (L.widen hu) (diff (L.widen hu) xyz s.location) > s.radius
  · rw [if_pos hc, if_pos hc]
    have hp : xyz ≠ s.location := by
      rintro rfl
      have h0 := (near_dist (L.widen hu) hu (by linarith) s.location s.location)
      obtain ⟨t, -, -, ht⟩ := h0
      rw [ht] at hc
      have : (s.location - s.location).len = 0 := by simp [V3.len]
      rw [this, zero_mul] at hc
      linarith
    have e0 : Sphere.toPointMass L s = Sphere.toPointMass (L.widen hu) s := by
      unfold Sphere.toPointMass; rw [em]
    rw [e0]
    exact PointMass.field_agree hu hu1 L (Sphere.toPointMass (L.widen hu) s) mm (by norm_num) hp h
  · rw [if_neg hc, if_neg hc]
    obtain ⟨eG, mG⟩ := L.const_agree hu hu1 mag_G (by norm_num)
    obtain ⟨e, m⟩ := L.const_agree hu hu1 mag_pi (by norm_num)
    obtain ⟨e1, m1⟩ := L.mul_agree hu hu1 mG.neg (mag_two_pow 4 (by norm_num) (by norm_num)) (by norm_num)
    obtain ⟨e2, m2⟩ := L.div_agree hu hu1 (by norm_num : (3 : ℝ) ≠ 0) m1 (mag_two_pow 3 (by norm_num) (by norm_num))
      (by norm_num)
    obtain ⟨e3, m3⟩ := L.mul_agree hu hu1 m2 m (by norm_num)
    obtain ⟨e4, m4⟩ := L.mul_agree hu hu1 m3 (Mag.of_moderate hr) (by norm_num)
    rw [ev, eG, e, e1, e2, e3, e4]
    unfold V3.map
    simp only [(L.mul_agree hu hu1 m4 v1 (by norm_num)).1, (L.mul_agree hu hu1 m4 v2 (by norm_num)).1,
      (L.mul_agree hu hu1 m4 v3 (by norm_num)).1]

theorem add_agree' {p : ℕ} {x y : ℝ} (hs : 0 ≤ x ∧ 0 ≤ y ∨ x ≤ 0 ∧ y ≤ 0) (h : Mag p x) (h' : Mag p y) (hp : p + 1 ≤ 1022) :
    L.add x y = (L.widen hu).add x y := by
  rcases hs with ⟨hx, hy⟩ | ⟨hx, hy⟩
  · exact (L.add_agree hu hu1 hx hy h h' hp).1
  · have := (Mag.add (neg_nonneg.2 hx) (neg_nonneg.2 hy) h.neg h'.neg).neg
    rw [← neg_add, neg_neg] at this
    exact (if_pos (this.normal hp)).symm

theorem halfPotential_agree {current rho : ℝ} (hr : 0 < rho) (hm : Moderate rho) (hc : Moderate current)
    {location xyz : V3 ℝ} (hp : xyz ≠ location) (hp' : xyz ≠ Static.mirror location) (h : V3.Moderate (xyz - location))
    (h' : V3.Moderate (xyz - Static.mirror location)) :
    halfPotential L current rho location xyz = halfPotential (L.widen hu) current rho location xyz := by
  have hlt : u < 1 := by linarith
  obtain ⟨e1, m1⟩ := pointPotential_agree hu hu1 L hr.ne' hm hc hp h
  obtain ⟨e2, m2⟩ := pointPotential_agree hu hu1 L hr.ne' hm hc hp' h'
  obtain ⟨t, ht, -, k1⟩ := near_pointPotential (L.widen hu) hu hlt hr.ne' current hp
  obtain ⟨t', ht', -, k2⟩ := near_pointPotential (L.widen hu) hu hlt hr.ne' current hp'
  have p1 := Near.factor_pos hlt ht
  have p2 := Near.factor_pos hlt ht'
  have l1 : ∀ {q : V3 ℝ}, 0 ≤ 4 * Real.pi * (1 / rho) * (xyz - q).len := by
    intro q
    have := V3.len_nonneg (xyz - q)
    positivity
  have hs : 0 ≤ pointPotential (L.widen hu) current rho location xyz ∧
      0 ≤ pointPotential (L.widen hu) current rho (Static.mirror location) xyz ∨
      pointPotential (L.widen hu) current rho location xyz ≤ 0 ∧
      pointPotential (L.widen hu) current rho (Static.mirror location) xyz ≤ 0 := by
    rw [k1, k2]
    rcases le_total 0 current with hc | hc
    · exact Or.inl ⟨mul_nonneg (div_nonneg hc l1) p1.le, mul_nonneg (div_nonneg hc l1) p2.le⟩
    · exact Or.inr ⟨mul_nonpos_of_nonpos_of_nonneg (div_nonpos_of_nonpos_of_nonneg hc l1) p1.le,
        mul_nonpos_of_nonpos_of_nonneg (div_nonpos_of_nonpos_of_nonneg hc l1) p2.le⟩
  have := add_agree' hu hu1 L hs m1 m2 (by norm_num)
  unfold halfPotential
  show L.add _ (pointPotential L current rho (Static.mirror location) xyz) = _
  rw [e1, e2]
  exact this

end Verif.Rounded
