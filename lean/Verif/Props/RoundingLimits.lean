import Verif.Props.RoundingBall
import Verif.Props.TransientDecay
import Verif.Lemmas.Transient

/-!
# C116: where rounding errors are not small

Each witness is an arithmetic whose operations all have relative error at most `u`, for any `u > 0`.
-/

namespace Verif.Rounded

open Filter Topology

/-- Exact operations seen as rounded ones. -/
noncomputable def exactly {u : ℝ} (hu : 0 ≤ u) : Arith u where
  add a b := a + b
  sub a b := a - b
  mul a b := a * b
  div a b := a / b
  sqrt := Real.sqrt
  exp := Real.exp
  erf := Verif.erf
  pow a n := a ^ n
  const a := a
  order := 0
  add_err a b := by rw [sub_self, abs_zero]; positivity
  sub_err a b := by rw [sub_self, abs_zero]; positivity
  mul_err a b := by rw [sub_self, abs_zero]; positivity
  div_err a b _ := by rw [sub_self, abs_zero]; positivity
  sqrt_err a _ := by rw [sub_self, abs_zero]; positivity
  exp_err a := by rw [sub_self, abs_zero]; positivity
  erf_err a := by rw [sub_self, abs_zero]; positivity
  pow_err a n := by rw [sub_self, abs_zero]; positivity
  const_err a := by rw [sub_self, abs_zero]; positivity

theorem up_err {u x : ℝ} (hu : 0 ≤ u) : |x * (1 + u) - x| ≤ u * |x| := by
  rw [show x * (1 + u) - x = u * x by ring, abs_mul, abs_of_nonneg hu]

theorem down_err {u x : ℝ} (hu : 0 ≤ u) : |x * (1 - u) - x| ≤ u * |x| := by
  rw [show x * (1 - u) - x = -(u * x) by ring, abs_neg, abs_mul, abs_of_nonneg hu]

/-- Square roots come out a little too small, everything else is exact. -/
noncomputable def lowRoot {u : ℝ} (hu : 0 ≤ u) : Arith u :=
  { exactly hu with sqrt := fun a => Real.sqrt a * (1 - u), sqrt_err := fun _ _ => down_err hu }

/-- The error function comes out a little too large, everything else is exact. -/
noncomputable def highErf {u : ℝ} (hu : 0 ≤ u) : Arith u :=
  { exactly hu with erf := fun a => Verif.erf a * (1 + u), erf_err := fun _ => up_err hu }

open Classical in
/-- Products with three come out a little too large, everything else is exact. -/
noncomputable def highThree {u : ℝ} (hu : 0 ≤ u) : Arith u :=
  { exactly hu with
    mul := fun a b => if a = 3 then a * b * (1 + u) else a * b
    mul_err := fun a b => by
      split_ifs
      · exact up_err hu
      · rw [sub_self, abs_zero]; positivity }

open Classical in
/-- Products with a number between zero and one come out a little too large, everything else is exact. -/
noncomputable def highShrink {u : ℝ} (hu : 0 ≤ u) : Arith u :=
  { exactly hu with
    mul := fun a b => if 0 < b ∧ b < 1 then a * b * (1 + u) else a * b
    mul_err := fun a b => by
      split_ifs
      · exact up_err hu
      · rw [sub_self, abs_zero]; positivity }

/-! ## The gradient of gravity -/

/-- Single entries of the gradient of a point mass can be wrong in every digit: along the diagonal the exact `xx` entry is zero
and the computed one need not be. -/
theorem PointMass.gradient_entry_not_accurate {u : ℝ} (hu : 0 < u) :
    ∃ F : Arith u, ∀ n, ¬ Accurate u n ((⟨1, 0⟩ : Gravity.PointMass).gravitationalGradient ⟨1, 1, 1⟩).x.x
      (PointMass.gravitationalGradient F ⟨1, 0⟩ ⟨1, 1, 1⟩).x.x := by
  have h3 : Real.sqrt 3 ≠ 0 := (Real.sqrt_pos.2 (by norm_num)).ne'
  have hs3 : Real.sqrt 3 ^ 2 = 3 := Real.sq_sqrt (by norm_num)
  have hG : 0 < Gravity.G := by unfold Gravity.G; norm_num
  have hlen : ((⟨1, 1, 1⟩ : V3 ℝ) - 0).len = Real.sqrt 3 := by
    unfold V3.len
    congr 1
    norm_num
  refine ⟨highThree hu.le, fun n h => ?_⟩
  have he : ((⟨1, 0⟩ : Gravity.PointMass).gravitationalGradient ⟨1, 1, 1⟩).x.x = 0 := by
    simp only [Gravity.PointMass.gravitationalGradient, hlen, V3.map]
    have : (1 : ℝ) - 3 * (((⟨1, 1, 1⟩ : V3 ℝ) - 0).x / Real.sqrt 3) * (((⟨1, 1, 1⟩ : V3 ℝ) - 0).x / Real.sqrt 3) = 0 := by
      simp only [V3.sub_x, V3.zero_x, sub_zero]
      field_simp
      rw [hs3]; norm_num
    rw [this]; simp
  have hn : norm (highThree hu.le) (diff (highThree hu.le) ⟨1, 1, 1⟩ 0) = Real.sqrt 3 := by
    have e : diff (highThree hu.le) ⟨1, 1, 1⟩ 0 = ⟨1, 1, 1⟩ := by
      show (⟨1 - 0, 1 - 0, 1 - 0⟩ : V3 ℝ) = _
      simp
    rw [e]
    show Real.sqrt ((if (1:ℝ) = 3 then _ else 1 * 1) + (if (1:ℝ) = 3 then _ else 1 * 1) + (if (1:ℝ) = 3 then _ else 1 * 1)) = _
    rw [if_neg (by norm_num)]
    norm_num
  have hc : 0 < (PointMass.gravitationalGradient (highThree hu.le) ⟨1, 0⟩ ⟨1, 1, 1⟩).x.x := by
    have e : diff (highThree hu.le) ⟨1, 1, 1⟩ 0 = ⟨1, 1, 1⟩ := by
      show (⟨1 - 0, 1 - 0, 1 - 0⟩ : V3 ℝ) = _
      simp
    have hm : ∀ {a b : ℝ}, (highThree hu.le).mul a b = if a = 3 then a * b * (1 + u) else a * b := rfl
    have neg_case : ∀ {a b : ℝ}, a * b ≤ 0 → (highThree hu.le).mul a b ≤ a * b := fun hab => by
      rw [hm]; split_ifs
      · nlinarith
      · exact le_rfl
    have pos_case : ∀ {a b : ℝ}, 0 ≤ a * b → a * b ≤ (highThree hu.le).mul a b := fun hab => by
      rw [hm]; split_ifs
      · nlinarith
      · exact le_rfl
    rw [e] at hn
    simp only [PointMass.gravitationalGradient, hn, e, unit, V3.map]
    have hq : (highThree hu.le).div 1 (Real.sqrt 3) = 1 / Real.sqrt 3 := rfl
    rw [hq]
    have ha : 0 < 1 / Real.sqrt 3 := by positivity
    have haa : 3 * (1 / Real.sqrt 3) * (1 / Real.sqrt 3) = 1 := by field_simp; rw [hs3]
    have m1 : (highThree hu.le).mul 3 (1 / Real.sqrt 3) = 3 * (1 / Real.sqrt 3) * (1 + u) := by rw [hm, if_pos rfl]
    have m2 : 1 + u ≤ (highThree hu.le).mul ((highThree hu.le).mul 3 (1 / Real.sqrt 3)) (1 / Real.sqrt 3) := by
      rw [m1]
      have e3 : 3 * (1 / Real.sqrt 3) * (1 + u) * (1 / Real.sqrt 3) = 1 + u := by
        linear_combination (1 + u) * haa
      calc 1 + u = _ := e3.symm
        _ ≤ _ := pos_case (by rw [e3]; linarith)
    have m3 : (highThree hu.le).sub 1 ((highThree hu.le).mul ((highThree hu.le).mul 3 (1 / Real.sqrt 3)) (1 / Real.sqrt 3)) ≤ -u := by
      show 1 - _ ≤ -u
      linarith
    have m4 : (highThree hu.le).mul (-(highThree hu.le).const Gravity.G) 1 = -Gravity.G := by
      show (if -Gravity.G = 3 then _ else -Gravity.G * 1) = _
      rw [if_neg (by linarith), mul_one]
    rw [m4]
    have m5 := pos_case (a := -Gravity.G) (b := (highThree hu.le).sub 1 ((highThree hu.le).mul ((highThree hu.le).mul 3 (1 / Real.sqrt 3)) (1 / Real.sqrt 3))) (by nlinarith)
    refine div_pos (lt_of_lt_of_le ?_ m5) (pow_pos (Real.sqrt_pos.2 (by norm_num)) 3)
    nlinarith
  unfold Accurate at h
  rw [he, abs_zero, mul_zero, sub_zero] at h
  exact absurd (abs_nonpos_iff.1 h) hc.ne'

/-- The gradient of a ball just outside its surface can come out with the wrong sign, because the rounded distance is inside. -/
theorem Sphere.gradient_wrong_side {u : ℝ} (hu : 0 < u) (hu1 : u < 1) : ∃ (F : Arith u) (xyz : V3 ℝ) (e c : M3 ℝ),
    (⟨1, 1, 0⟩ : Gravity.Sphere).gravitationalGradient xyz = some e ∧
    Sphere.gravitationalGradient F ⟨1, 1, 0⟩ xyz = some c ∧ 0 < e.x.x ∧ c.x.x < 0 := by
  have hG : 0 < Gravity.G := by unfold Gravity.G; norm_num
  have hlen : ((⟨1 + u, 0, 0⟩ : V3 ℝ) - 0).len = 1 + u := by
    unfold V3.len
    simp only [V3.sub_x, V3.sub_y, V3.sub_z, V3.zero_x, V3.zero_y, V3.zero_z, sub_zero]
    rw [show (1 + u) ^ 2 + 0 ^ 2 + 0 ^ 2 = (1 + u) ^ 2 by ring]
    exact Real.sqrt_sq (by linarith)
  have hn : norm (lowRoot hu.le) (diff (lowRoot hu.le) ⟨1 + u, 0, 0⟩ 0) = (1 + u) * (1 - u) := by
    have e : norm (lowRoot hu.le) (diff (lowRoot hu.le) ⟨1 + u, 0, 0⟩ 0) =
      norm (exactly hu.le) (diff (exactly hu.le) ⟨1 + u, 0, 0⟩ 0) * (1 - u) := rfl
    have e2 : norm (exactly hu.le) (diff (exactly hu.le) ⟨1 + u, 0, 0⟩ 0) = ((⟨1 + u, 0, 0⟩ : V3 ℝ) - 0).len :=
      dist_exact ⟨1 + u, 0, 0⟩ 0
    rw [e, e2, hlen]
  have hin : (1 + u) * (1 - u) < 1 := by nlinarith
  obtain ⟨k, hk⟩ : ∃ k, k = -Gravity.G * 4 / 3 * Real.pi * 1 := ⟨_, rfl⟩
  refine ⟨lowRoot hu.le, ⟨1 + u, 0, 0⟩, (⟨1, 1, 0⟩ : Gravity.Sphere).toPointMass.gravitationalGradient ⟨1 + u, 0, 0⟩,
    ⟨⟨k * 1, k * 0, k * 0⟩, ⟨k * 0, k * 1, k * 0⟩, ⟨k * 0, k * 0, k * 1⟩⟩, ?_, ?_, ?_, ?_⟩
  · simp only [Gravity.Sphere.gravitationalGradient, hlen]
    rw [if_neg (by linarith), if_pos (by linarith)]
  · simp only [Sphere.gravitationalGradient, hn]
    rw [if_neg hin.ne, if_neg (not_lt.2 hin.le), hk]
    rfl
  · simp only [Gravity.PointMass.gravitationalGradient, Gravity.Sphere.toPointMass, hlen, V3.map, Gravity.Sphere.mass,
      V3.sub_x, V3.zero_x, sub_zero] at hlen ⊢
    have h1 : (1 + u) / (1 + u) = 1 := div_self (by linarith)
    rw [hlen, h1]
    refine div_pos ?_ (by positivity)
    have := mul_pos hG Real.pi_pos
    nlinarith
  · show k * 1 < 0
    rw [hk]
    have := mul_pos hG Real.pi_pos
    nlinarith

/-! ## Differences of nearly equal numbers -/

/-- The potential between two electrodes is zero half way and the computed one need not be. -/
theorem wirePotential_not_accurate {u : ℝ} (hu : 0 < u) :
    ∃ (F : Arith u) (a b : V3 ℝ), ∀ n, ∃ v, (⟨1, 1, 1, [a, b]⟩ : Static.LineCurrent).scalarPotential 0 = .ok v ∧
      ¬ Accurate u n v (wirePotential F 1 1 a b 0) := by
  refine ⟨highThree hu.le, ⟨-3, -4, 0⟩, ⟨5, 0, 0⟩, fun n => ⟨0, ?_, fun h => ?_⟩⟩
  · have h1 : ((0 : V3 ℝ) - ⟨5, 0, 0⟩).len = 5 := by
      unfold V3.len
      rw [show (((0 : V3 ℝ) - ⟨5, 0, 0⟩).x ^ 2 + ((0 : V3 ℝ) - ⟨5, 0, 0⟩).y ^ 2 + ((0 : V3 ℝ) - ⟨5, 0, 0⟩).z ^ 2) = 5 ^ 2 by
        simp only [V3.sub_x, V3.sub_y, V3.sub_z, V3.zero_x, V3.zero_y, V3.zero_z]; norm_num]
      exact Real.sqrt_sq (by norm_num)
    have h2 : ((0 : V3 ℝ) - ⟨-3, -4, 0⟩).len = 5 := by
      unfold V3.len
      rw [show (((0 : V3 ℝ) - ⟨-3, -4, 0⟩).x ^ 2 + ((0 : V3 ℝ) - ⟨-3, -4, 0⟩).y ^ 2 + ((0 : V3 ℝ) - ⟨-3, -4, 0⟩).z ^ 2) = 5 ^ 2 by
        simp only [V3.sub_x, V3.sub_y, V3.sub_z, V3.zero_x, V3.zero_y, V3.zero_z]; norm_num]
      exact Real.sqrt_sq (by norm_num)
    simp only [Static.LineCurrent.scalarPotential]
    have hne : ¬ (⟨5, 0, 0⟩ : V3 ℝ) = ⟨-3, -4, 0⟩ := by
      intro h
      have := congrArg V3.x h
      norm_num at this
    refine (if_neg hne).trans ?_
    show Except.ok (1 / (4 * Real.pi * 1) * (1 / ((0 : V3 ℝ) - ⟨5, 0, 0⟩).len - 1 / ((0 : V3 ℝ) - ⟨-3, -4, 0⟩).len)) = _
    rw [h1, h2]
    simp
  · have hm : ∀ {a b : ℝ}, (highThree hu.le).mul a b = if a = 3 then a * b * (1 + u) else a * b := rfl
    have n1 : norm (highThree hu.le) (diff (highThree hu.le) 0 ⟨5, 0, 0⟩) = 5 := by
      have e : diff (highThree hu.le) 0 ⟨5, 0, 0⟩ = ⟨-5, 0, 0⟩ := by
        show (⟨0 - 5, 0 - 0, 0 - 0⟩ : V3 ℝ) = _
        norm_num
      rw [e]
      show Real.sqrt ((highThree hu.le).mul (-5) (-5) + (highThree hu.le).mul 0 0 + (highThree hu.le).mul 0 0) = 5
      rw [hm, hm, if_neg (by norm_num), if_neg (by norm_num), show (-5 * -5 + 0 * 0 + 0 * 0 : ℝ) = 5 ^ 2 by norm_num]
      exact Real.sqrt_sq (by norm_num)
    have n2 : norm (highThree hu.le) (diff (highThree hu.le) 0 ⟨-3, -4, 0⟩) = Real.sqrt (25 + 9 * u) := by
      have e : diff (highThree hu.le) 0 ⟨-3, -4, 0⟩ = ⟨3, 4, 0⟩ := by
        show (⟨0 - -3, 0 - -4, 0 - 0⟩ : V3 ℝ) = _
        norm_num
      rw [e]
      show Real.sqrt ((highThree hu.le).mul 3 3 + (highThree hu.le).mul 4 4 + (highThree hu.le).mul 0 0) = _
      rw [hm, hm, hm, if_pos rfl, if_neg (by norm_num), if_neg (by norm_num)]
      congr 1; ring
    have hgt : 5 < Real.sqrt (25 + 9 * u) := by
      rw [show (5 : ℝ) = Real.sqrt (5 ^ 2) from (Real.sqrt_sq (by norm_num)).symm]
      exact Real.sqrt_lt_sqrt (by norm_num) (by linarith)
    have hd : 0 < 1 / 5 - 1 / Real.sqrt (25 + 9 * u) := sub_pos.2 (one_div_lt_one_div_of_lt (by norm_num) hgt)
    have hv : wirePotential (highThree hu.le) 1 1 ⟨-3, -4, 0⟩ ⟨5, 0, 0⟩ 0 ≠ 0 := by
      simp only [wirePotential, n1, n2]
      rw [hm, hm, hm, if_neg (by norm_num : ¬ (4:ℝ) = 3)]
      have hk : (highThree hu.le).div 1 (if 4 * (highThree hu.le).const Real.pi = 3 then
          4 * (highThree hu.le).const Real.pi * 1 * (1 + u) else 4 * (highThree hu.le).const Real.pi * 1) = 1 / (4 * Real.pi) := by
        show (1 : ℝ) / (if 4 * Real.pi = 3 then _ else 4 * Real.pi * 1) = _
        rw [if_neg (by have := Real.pi_gt_three; intro h; linarith), mul_one]
      rw [hk]
      have hpos : 0 < 1 / (4 * Real.pi) * (1 / 5 - 1 / Real.sqrt (25 + 9 * u)) := mul_pos (by have := Real.pi_pos; positivity) hd
      show (if 1 / (4 * Real.pi) = 3 then 1 / (4 * Real.pi) * (1 / 5 - 1 / Real.sqrt (25 + 9 * u)) * (1 + u) else
        1 / (4 * Real.pi) * (1 / 5 - 1 / Real.sqrt (25 + 9 * u))) ≠ 0
      split_ifs
      · exact (mul_pos hpos (by linarith)).ne'
      · exact hpos.ne'
    unfold Accurate at h
    rw [abs_zero, mul_zero, sub_zero] at h
    exact absurd (abs_nonpos_iff.1 h) hv

/-- The secondary potential of a sphere, computed as a difference, loses all its digits far away: for every bound on the
relative error there is a point where it is exceeded. -/
theorem Electro.secondary_loses_accuracy {u : ℝ} (hu : 0 < u) : ∃ (F : Arith u) (s : Sphere.Electro), ∀ K : ℝ, ∃ xyz : V3 ℝ,
    K * |s.potentialTotal xyz - s.potentialPrimary xyz| <
      |Electro.potentialSecondary F s xyz - (s.potentialTotal xyz - s.potentialPrimary xyz)| := by
  refine ⟨highShrink hu.le, ⟨1, 4, 1, ⟨-1, 0, 0⟩, 0⟩, fun K => ?_⟩
  obtain ⟨x, hx⟩ : ∃ x, x = 2 + |K| / u := ⟨_, rfl⟩
  have hK := abs_nonneg K
  have hx2 : 2 ≤ x := by rw [hx]; have : 0 ≤ |K| / u := by positivity
                         linarith
  have hxu : u * x = 2 * u + |K| := by rw [hx]; field_simp
  have hx0 : 0 < x := by linarith
  have hlen : ((⟨x, 0, 0⟩ : V3 ℝ) - 0).len = x := by
    unfold V3.len
    simp only [V3.sub_x, V3.sub_y, V3.sub_z, V3.zero_x, V3.zero_y, V3.zero_z, sub_zero]
    rw [show x ^ 2 + 0 ^ 2 + 0 ^ 2 = x ^ 2 by ring]
    exact Real.sqrt_sq hx0.le
  have hx3 : 8 ≤ x ^ 3 := by nlinarith [sq_nonneg (x - 2), sq_nonneg x]
  have hfrac : 0 < 1 - 1 / 2 * 1 ^ 3 / x ^ 3 ∧ 1 - 1 / 2 * 1 ^ 3 / x ^ 3 < 1 := by
    have h1 : 0 < 1 / 2 * 1 ^ 3 / x ^ 3 := by positivity
    have h2 : 1 / 2 * 1 ^ 3 / x ^ 3 < 1 := by rw [div_lt_one (by positivity)]; linarith
    constructor <;> linarith
  have et : (⟨1, 4, 1, ⟨-1, 0, 0⟩, 0⟩ : Sphere.Electro).potentialTotal ⟨x, 0, 0⟩ = x * (1 - 1 / 2 * 1 ^ 3 / x ^ 3) := by
    simp only [Sphere.Electro.potentialTotal, hlen]
    rw [if_pos (by linarith)]
    simp only [V3.dot, V3.sub_x, V3.sub_y, V3.sub_z, V3.zero_x, V3.zero_y, V3.zero_z, V3.neg_x, V3.neg_y, V3.neg_z, sub_zero]
    norm_num
  have ep : (⟨1, 4, 1, ⟨-1, 0, 0⟩, 0⟩ : Sphere.Electro).potentialPrimary ⟨x, 0, 0⟩ = x := by
    simp only [Sphere.Electro.potentialPrimary, V3.dot, V3.sub_x, V3.sub_y, V3.sub_z, V3.zero_x, V3.zero_y, V3.zero_z, V3.neg_x,
      V3.neg_y, V3.neg_z, sub_zero]
    norm_num
  have hm : ∀ {a b : ℝ}, (highShrink hu.le).mul a b = if 0 < b ∧ b < 1 then a * b * (1 + u) else a * b := rfl
  have ed : diff (highShrink hu.le) ⟨x, 0, 0⟩ 0 = ⟨x, 0, 0⟩ := by
    show (⟨x - 0, 0 - 0, 0 - 0⟩ : V3 ℝ) = _
    simp
  have ea : against (highShrink hu.le) ⟨x, 0, 0⟩ ⟨-1, 0, 0⟩ = x := by
    show (highShrink hu.le).mul x (- -1) + (highShrink hu.le).mul 0 (-0) + (highShrink hu.le).mul 0 (-0) = x
    rw [hm, hm, if_neg (by norm_num), if_neg (by norm_num)]
    ring
  have en : norm (highShrink hu.le) ⟨x, 0, 0⟩ = x := by
    show Real.sqrt ((highShrink hu.le).mul x x + (highShrink hu.le).mul 0 0 + (highShrink hu.le).mul 0 0) = x
    rw [hm, hm, if_neg (by rintro ⟨_, h⟩; linarith), if_neg (by norm_num), show x * x + 0 * 0 + 0 * 0 = x ^ 2 by ring]
    exact Real.sqrt_sq hx0.le
  have ec : Electro.potentialTotal (highShrink hu.le) ⟨1, 4, 1, ⟨-1, 0, 0⟩, 0⟩ ⟨x, 0, 0⟩ =
      x * (1 - 1 / 2 * 1 ^ 3 / x ^ 3) * (1 + u) := by
    simp only [Electro.potentialTotal, ed, en, ea]
    rw [if_pos (by linarith)]
    have m1 : (highShrink hu.le).mul 2 1 = 2 := by rw [hm, if_neg (by norm_num)]; norm_num
    have m2 : (highShrink hu.le).div ((highShrink hu.le).sub 4 1) ((highShrink hu.le).add 4 ((highShrink hu.le).mul 2 1)) = 1 / 2 := by
      rw [m1]
      show (4 - 1 : ℝ) / (4 + 2) = 1 / 2
      norm_num
    have m3 : (highShrink hu.le).mul (1 / 2) ((highShrink hu.le).pow 1 3) = 1 / 2 * 1 ^ 3 := by
      show (if 0 < (1:ℝ) ^ 3 ∧ (1:ℝ) ^ 3 < 1 then _ else (1 / 2 : ℝ) * 1 ^ 3) = _
      rw [if_neg (by norm_num)]
    rw [m2, m3]
    show (if 0 < 1 - 1 / 2 * 1 ^ 3 / x ^ 3 ∧ 1 - 1 / 2 * 1 ^ 3 / x ^ 3 < 1 then _ else _) = _
    rw [if_pos hfrac]
    rfl
  have es : Electro.potentialSecondary (highShrink hu.le) ⟨1, 4, 1, ⟨-1, 0, 0⟩, 0⟩ ⟨x, 0, 0⟩ =
      x * (1 - 1 / 2 * 1 ^ 3 / x ^ 3) * (1 + u) - x := by
    unfold Electro.potentialSecondary Electro.potentialPrimary
    rw [ec, ed, ea]
    rfl
  refine ⟨⟨x, 0, 0⟩, ?_⟩
  rw [et, ep, es]
  have e1 : x * (1 - 1 / 2 * 1 ^ 3 / x ^ 3) - x = -(1 / (2 * x ^ 2)) := by field_simp; ring
  have e2 : x * (1 - 1 / 2 * 1 ^ 3 / x ^ 3) * (1 + u) - x - -(1 / (2 * x ^ 2)) = u * x - u * (1 / (2 * x ^ 2)) := by
    field_simp; ring
  have hs : 1 / (2 * x ^ 2) ≤ 1 / 8 := one_div_le_one_div_of_le (by norm_num) (by nlinarith)
  have hs0 : 0 < 1 / (2 * x ^ 2) := by positivity
  rw [e1, e2, abs_neg, abs_of_pos hs0, hxu]
  refine lt_of_lt_of_le ?_ (le_abs_self _)
  have := le_abs_self K
  nlinarith

/-! ## Late times -/

theorem big_erf {x c : ℝ} (hx : 0 < x) (hx1 : x < 1) (hc : 3 ≤ c) :
    Real.exp (-1) / (Real.sqrt Real.pi * x) ≤ (c / (2 * x ^ 2) - 1) * Verif.erf x := by
  have hpi : 0 < Real.sqrt Real.pi := Real.sqrt_pos.2 Real.pi_pos
  have h1 : 2 * x / Real.sqrt Real.pi * Real.exp (-1) ≤ Verif.erf x := by
    have h := lt_erfRest hx
    have hp : 0 < 4 * x ^ 3 / (3 * Real.sqrt Real.pi) * Real.exp (-x ^ 2) := by positivity
    have h2 : Real.exp (-1) ≤ Real.exp (-x ^ 2) := Real.exp_le_exp.2 (by nlinarith)
    have h3 : 0 < erfRest x := hp.trans h
    unfold erfRest at h3
    have h4 : 2 * x / Real.sqrt Real.pi * Real.exp (-1) ≤ 2 * x / Real.sqrt Real.pi * Real.exp (-x ^ 2) :=
      mul_le_mul_of_nonneg_left h2 (by positivity)
    have h5 : 2 * x / Real.sqrt Real.pi * Real.exp (-x ^ 2) = 2 / Real.sqrt Real.pi * x * Real.exp (-x ^ 2) := by ring
    linarith
  have h2 : 1 / (2 * x ^ 2) ≤ c / (2 * x ^ 2) - 1 := by
    have hx2 : x ^ 2 < 1 := by nlinarith
    rw [le_sub_iff_add_le, div_add' _ _ _ (by positivity), div_le_div_iff_of_pos_right (by positivity)]
    linarith
  calc Real.exp (-1) / (Real.sqrt Real.pi * x) = 1 / (2 * x ^ 2) * (2 * x / Real.sqrt Real.pi * Real.exp (-1)) := by
        field_simp
    _ ≤ _ := mul_le_mul h2 h1 (by positivity) (le_trans (by positivity) h2)

/-- The field of a transient loop: as time goes on the exact field goes to zero and the error of the computed one can grow
without bound. -/
theorem loopField_late {u : ℝ} (hu : 0 < u) : ∃ F : Arith u, ∀ {sigma mu radius current turns : ℝ}, 0 < sigma → 0 < mu → 0 < radius →
    turns * current ≠ 0 →
    Tendsto (fun t => |loopField F t sigma mu radius current turns - Tdem.loopField t sigma mu radius current turns|) atTop atTop ∧
    Tendsto (fun t => Tdem.loopField t sigma mu radius current turns) atTop (𝓝 0) := by
  refine ⟨highErf hu.le, fun {sigma mu radius current turns} hs hm ha hi => ⟨?_, Tdem.loopField_end hs hm ha⟩⟩
  have hta : Tendsto (fun t => Tdem.theta t sigma mu * radius) atTop (𝓝[>] 0) := by
    refine tendsto_nhdsWithin_iff.2 ⟨?_, ?_⟩
    · simpa using (Tdem.tendsto_theta_atTop sigma mu).mul_const radius
    · filter_upwards [eventually_gt_atTop 0] with t ht
      exact mul_pos (Tdem.theta_pos ht hs hm) ha
  have hpi : 0 < Real.sqrt Real.pi := Real.sqrt_pos.2 Real.pi_pos
  have hinv : Tendsto (fun t => |turns * current| / (2 * radius) * u * (Real.exp (-1) / Real.sqrt Real.pi) *
      (Tdem.theta t sigma mu * radius)⁻¹) atTop atTop :=
    (tendsto_inv_nhdsGT_zero.comp hta).const_mul_atTop (by have := abs_pos.2 hi; positivity)
  refine tendsto_atTop_mono' _ ?_ hinv
  have hsmall : ∀ᶠ t in atTop, Tdem.theta t sigma mu * radius < 1 :=
    (tendsto_nhds_of_tendsto_nhdsWithin hta).eventually (gt_mem_nhds one_pos)
  filter_upwards [hsmall, eventually_gt_atTop 0] with t h1 ht
  have h0 : 0 < Tdem.theta t sigma mu * radius := mul_pos (Tdem.theta_pos ht hs hm) ha
  have hb := big_erf h0 h1 le_rfl
  have e : loopField (highErf hu.le) t sigma mu radius current turns - Tdem.loopField t sigma mu radius current turns =
      -(turns * current / (2 * radius) * u * ((3 / (2 * (Tdem.theta t sigma mu * radius) ^ 2) - 1) *
        Verif.erf (Tdem.theta t sigma mu * radius))) := by
    have e1 : loopField (highErf hu.le) t sigma mu radius current turns =
      turns * current * ((3 / (Real.sqrt Real.pi * (Tdem.theta t sigma mu * radius)) * Real.exp (-((Tdem.theta t sigma mu * radius) ^ 2)) +
        (1 - 3 / (2 * (Tdem.theta t sigma mu * radius) ^ 2)) * (Verif.erf (Tdem.theta t sigma mu * radius) * (1 + u))) / (2 * radius)) := rfl
    rw [e1]
    simp only [Tdem.loopField]
    ring
  rw [e]
  generalize turns * current = w at *
  rw [abs_neg, abs_mul, abs_mul, abs_div, abs_of_pos hu, abs_of_pos (by linarith : 0 < 2 * radius),
    abs_of_nonneg (le_trans (by positivity) hb)]
  calc |w| / (2 * radius) * u * (Real.exp (-1) / Real.sqrt Real.pi) * (Tdem.theta t sigma mu * radius)⁻¹ =
      |w| / (2 * radius) * u * (Real.exp (-1) / (Real.sqrt Real.pi * (Tdem.theta t sigma mu * radius))) := by
        field_simp
    _ ≤ _ := mul_le_mul_of_nonneg_left hb (by positivity)

/-- The same holds for the vertical field of a transient dipole. -/
theorem dipoleVertical_late {u : ℝ} (hu : 0 < u) : ∃ F : Arith u, ∀ {sigma mu x y moment : ℝ}, 0 < sigma → 0 < mu →
    (x ≠ 0 ∨ y ≠ 0) → moment ≠ 0 →
    Tendsto (fun t => |dipoleVertical F t (Real.sqrt (x ^ 2 + y ^ 2)) sigma mu moment -
      (Tdem.dipoleField t x y sigma mu moment).z|) atTop atTop ∧
    Tendsto (fun t => (Tdem.dipoleField t x y sigma mu moment).z) atTop (𝓝 0) := by
  refine ⟨highErf hu.le, fun {sigma mu x y moment} hs hm hr hi => ⟨?_, (Tdem.dipoleField_end hs hm hr).2.2⟩⟩
  have ha : 0 < Real.sqrt (x ^ 2 + y ^ 2) := Real.sqrt_pos.2 (by rcases hr with h | h <;> positivity)
  have e0 : ∀ t, dipoleVertical (highErf hu.le) t (Real.sqrt (x ^ 2 + y ^ 2)) sigma mu moment - (Tdem.dipoleField t x y sigma mu moment).z =
      moment / (4 * Real.pi) / Real.sqrt (x ^ 2 + y ^ 2) ^ 3 * u * ((9 / (2 * (Tdem.theta t sigma mu * Real.sqrt (x ^ 2 + y ^ 2)) ^ 2) - 1) *
        Verif.erf (Tdem.theta t sigma mu * Real.sqrt (x ^ 2 + y ^ 2))) := by
    intro t
    have e1 : dipoleVertical (highErf hu.le) t (Real.sqrt (x ^ 2 + y ^ 2)) sigma mu moment =
      moment / (4 * Real.pi) * (1 / Real.sqrt (x ^ 2 + y ^ 2) ^ 3 * ((9 / (2 * (Tdem.theta t sigma mu * Real.sqrt (x ^ 2 + y ^ 2)) ^ 2) - 1) *
        (Verif.erf (Tdem.theta t sigma mu * Real.sqrt (x ^ 2 + y ^ 2)) * (1 + u)) -
        (9 / (Tdem.theta t sigma mu * Real.sqrt (x ^ 2 + y ^ 2)) + 4 * (Tdem.theta t sigma mu * Real.sqrt (x ^ 2 + y ^ 2))) / Real.sqrt Real.pi *
          Real.exp (-((Tdem.theta t sigma mu * Real.sqrt (x ^ 2 + y ^ 2)) ^ 2)))) := rfl
    rw [e1]
    simp only [Tdem.dipoleField, V3.smul_z, smul_eq_mul]
    ring
  simp only [e0]
  generalize Real.sqrt (x ^ 2 + y ^ 2) = radius at *
  have hta : Tendsto (fun t => Tdem.theta t sigma mu * radius) atTop (𝓝[>] 0) := by
    refine tendsto_nhdsWithin_iff.2 ⟨?_, ?_⟩
    · simpa using (Tdem.tendsto_theta_atTop sigma mu).mul_const radius
    · filter_upwards [eventually_gt_atTop 0] with t ht
      exact mul_pos (Tdem.theta_pos ht hs hm) ha
  have hpi : 0 < Real.sqrt Real.pi := Real.sqrt_pos.2 Real.pi_pos
  have hk : 0 < |moment / (4 * Real.pi) / radius ^ 3| := abs_pos.2 (by
    have := Real.pi_ne_zero
    have := ha.ne'
    positivity)
  have hinv : Tendsto (fun t => |moment / (4 * Real.pi) / radius ^ 3| * u * (Real.exp (-1) / Real.sqrt Real.pi) *
      (Tdem.theta t sigma mu * radius)⁻¹) atTop atTop :=
    (tendsto_inv_nhdsGT_zero.comp hta).const_mul_atTop (by positivity)
  refine tendsto_atTop_mono' _ ?_ hinv
  have hsmall : ∀ᶠ t in atTop, Tdem.theta t sigma mu * radius < 1 :=
    (tendsto_nhds_of_tendsto_nhdsWithin hta).eventually (gt_mem_nhds one_pos)
  filter_upwards [hsmall, eventually_gt_atTop 0] with t h1 ht
  have h0 : 0 < Tdem.theta t sigma mu * radius := mul_pos (Tdem.theta_pos ht hs hm) ha
  have hb := big_erf h0 h1 (by norm_num : (3 : ℝ) ≤ 9)
  rw [abs_mul, abs_mul, abs_of_pos hu, abs_of_nonneg (le_trans (by positivity) hb)]
  calc |moment / (4 * Real.pi) / radius ^ 3| * u * (Real.exp (-1) / Real.sqrt Real.pi) * (Tdem.theta t sigma mu * radius)⁻¹ =
      |moment / (4 * Real.pi) / radius ^ 3| * u * (Real.exp (-1) / (Real.sqrt Real.pi * (Tdem.theta t sigma mu * radius))) := by
        field_simp
    _ ≤ _ := mul_le_mul_of_nonneg_left hb (by positivity)

end Verif.Rounded
