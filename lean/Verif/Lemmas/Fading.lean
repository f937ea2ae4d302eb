import Verif.Spec.Energy
import Mathlib.Analysis.SpecialFunctions.ExpDeriv
import Mathlib.Analysis.Calculus.Deriv.MeanValue
import Mathlib.Analysis.Real.Sqrt

/-! # Lemmas: how the factors of harmonic dipole fields change with distance and with the wavenumber -/

namespace Verif.Fading

open Complex (I normSq)
open Energy

/-- The squared factor of the field along the axis of a dipole at the distance `r`. -/
noncomputable def axial (k : ℂ) (r : ℝ) : ℝ := normSq (I * (k * r) + 1) * Real.exp (2 * (k.im * r)) / r ^ 6

/-- The squared factor of the field across the axis. -/
noncomputable def broad (k : ℂ) (r : ℝ) : ℝ := normSq ((k * r) ^ 2 - I * (k * r) - 1) * Real.exp (2 * (k.im * r)) / r ^ 6

/-- The squared factor of the field that circles around the axis. -/
noncomputable def swirl (k : ℂ) (r : ℝ) : ℝ := normSq (I * (k * r) + 1) * Real.exp (2 * (k.im * r)) / r ^ 4

theorem normSq_axial (k : ℂ) (r : ℝ) : normSq (I * (k * r) + 1) = (1 - k.im * r) ^ 2 + (k.re * r) ^ 2 := by
  simp [Complex.normSq_apply]; ring

theorem normSq_broad (k : ℂ) (r : ℝ) : normSq ((k * r) ^ 2 - I * (k * r) - 1) =
    1 - 2 * k.im * r + (3 * k.im ^ 2 - k.re ^ 2) * r ^ 2 - 2 * k.im * (k.re ^ 2 + k.im ^ 2) * r ^ 3 + (k.re ^ 2 + k.im ^ 2) ^ 2 * r ^ 4 := by
  simp [Complex.normSq_apply, pow_two]; ring

theorem normSq_exp (k : ℂ) (r : ℝ) : normSq (Complex.exp (-(I * (k * r)))) = Real.exp (2 * (k.im * r)) := by
  rw [Complex.normSq_eq_norm_sq, Complex.norm_exp, ← Real.exp_nat_mul]
  congr 1
  simp

/-- A product of a decreasing positive and a nonincreasing positive factor. -/
theorem mul_lt_of {a b c d : ℝ} (h : a < b) (hb : 0 < b) (hcd : c ≤ d) (hc : 0 < c) : a * c < b * d :=
  (mul_lt_mul_of_pos_right h hc).trans_le (mul_le_mul_of_nonneg_left hcd hb.le)

variable {k : ℂ} {r r' : ℝ}

theorem exp_le (hk : k.im ≤ 0) (h : r < r') : Real.exp (2 * (k.im * r')) ≤ Real.exp (2 * (k.im * r)) :=
  Real.exp_le_exp.2 (by nlinarith)

theorem axial_pos (hk : k.im ≤ 0) (hr : 0 < r) : 0 < axial k r := by
  have : k.im * r ≤ 0 := mul_nonpos_of_nonpos_of_nonneg hk hr.le
  have h1 : 0 < (1 - k.im * r) ^ 2 + (k.re * r) ^ 2 := by nlinarith [sq_nonneg (k.re * r)]
  rw [axial, normSq_axial]
  positivity

theorem axial_lt (hk : k.im ≤ 0) (hr : 0 < r) (h : r < r') : axial k r' < axial k r := by
  have hr' := hr.trans h
  have hs : 1 / r' < 1 / r := one_div_lt_one_div_of_lt hr h
  have h0 : 0 < 1 / r' := by positivity
  have e : ∀ t : ℝ, 0 < t → axial k t = (((1 / t) ^ 3 - k.im * (1 / t) ^ 2) ^ 2 + k.re ^ 2 * (1 / t) ^ 4) * Real.exp (2 * (k.im * t)) :=
    fun t ht => by
      rw [axial, normSq_axial]
      field_simp
  rw [e r hr, e r' hr']
  generalize 1 / r = s at hs
  generalize 1 / r' = s' at hs h0
  have h1 : s' ^ 3 < s ^ 3 := pow_lt_pow_left₀ hs h0.le (by norm_num)
  have h2 : s' ^ 2 ≤ s ^ 2 := pow_le_pow_left₀ h0.le hs.le 2
  have h4 : s' ^ 4 ≤ s ^ 4 := pow_le_pow_left₀ h0.le hs.le 4
  have h5 : s' ^ 3 - k.im * s' ^ 2 < s ^ 3 - k.im * s ^ 2 := by nlinarith
  have h6 : 0 < s' ^ 3 - k.im * s' ^ 2 := by
    have := mul_nonpos_of_nonpos_of_nonneg hk (sq_nonneg s')
    have : 0 < s' ^ 3 := by positivity
    linarith
  have h7 : (s' ^ 3 - k.im * s' ^ 2) ^ 2 < (s ^ 3 - k.im * s ^ 2) ^ 2 := pow_lt_pow_left₀ h5 h6.le (by norm_num)
  refine mul_lt_of ?_ ?_ (exp_le hk h) (Real.exp_pos _)
  · nlinarith [mul_le_mul_of_nonneg_left h4 (sq_nonneg k.re)]
  · nlinarith [mul_nonneg (sq_nonneg k.re) (pow_nonneg h0.le 4), mul_le_mul_of_nonneg_left h4 (sq_nonneg k.re), sq_nonneg (s' ^ 3 - k.im * s' ^ 2)]

theorem swirl_lt (hk : k.im ≤ 0) (hr : 0 < r) (h : r < r') : swirl k r' < swirl k r := by
  have hr' := hr.trans h
  have hs : 1 / r' < 1 / r := one_div_lt_one_div_of_lt hr h
  have h0 : 0 < 1 / r' := by positivity
  have e : ∀ t : ℝ, 0 < t → swirl k t = (((1 / t) ^ 2 - k.im * (1 / t)) ^ 2 + k.re ^ 2 * (1 / t) ^ 2) * Real.exp (2 * (k.im * t)) :=
    fun t ht => by
      rw [swirl, normSq_axial]
      field_simp
  rw [e r hr, e r' hr']
  generalize 1 / r = s at hs
  generalize 1 / r' = s' at hs h0
  have h2 : s' ^ 2 < s ^ 2 := pow_lt_pow_left₀ hs h0.le (by norm_num)
  have h5 : s' ^ 2 - k.im * s' < s ^ 2 - k.im * s := by nlinarith
  have h6 : 0 < s' ^ 2 - k.im * s' := by
    have := mul_nonpos_of_nonpos_of_nonneg hk h0.le
    have : 0 < s' ^ 2 := by positivity
    linarith
  have h7 : (s' ^ 2 - k.im * s') ^ 2 < (s ^ 2 - k.im * s) ^ 2 := pow_lt_pow_left₀ h5 h6.le (by norm_num)
  refine mul_lt_of ?_ ?_ (exp_le hk h) (Real.exp_pos _)
  · nlinarith [mul_le_mul_of_nonneg_left h2.le (sq_nonneg k.re)]
  · nlinarith [mul_nonneg (sq_nonneg k.re) (sq_nonneg s'), mul_le_mul_of_nonneg_left h2.le (sq_nonneg k.re), sq_nonneg (s' ^ 2 - k.im * s')]

theorem broad_lt (hk : k.im ≤ 0) (hr : 0 < r) (h : r < r') : broad k r' < broad k r := by
  have hr' := hr.trans h
  have hs : 1 / r' < 1 / r := one_div_lt_one_div_of_lt hr h
  have h0 : 0 < 1 / r' := by positivity
  set a := k.re ^ 2 with ha
  set b := -k.im with hb
  have ha0 : 0 ≤ a := sq_nonneg _
  have hb0 : 0 ≤ b := by linarith
  have e : ∀ t : ℝ, 0 < t → broad k t = (((1 / t) ^ 6 - a * (1 / t) ^ 4 + a ^ 2 * (1 / t) ^ 2) + (2 * b * (1 / t) ^ 5 + 3 * b ^ 2 * (1 / t) ^ 4 +
      2 * b * (a + b ^ 2) * (1 / t) ^ 3 + (2 * a * b ^ 2 + b ^ 4) * (1 / t) ^ 2)) * Real.exp (2 * (k.im * t)) :=
    fun t ht => by
      rw [broad, normSq_broad]
      have : k.im = -b := by rw [hb]; ring
      rw [this, ← ha]
      field_simp
      ring
  rw [e r hr, e r' hr']
  generalize 1 / r = s at hs
  generalize 1 / r' = s' at hs h0
  have hs0 := h0.trans hs
  have p2 : s' ^ 2 < s ^ 2 := pow_lt_pow_left₀ hs h0.le (by norm_num)
  have p3 : s' ^ 3 ≤ s ^ 3 := pow_le_pow_left₀ h0.le hs.le 3
  have p4 : s' ^ 4 ≤ s ^ 4 := pow_le_pow_left₀ h0.le hs.le 4
  have p5 : s' ^ 5 ≤ s ^ 5 := pow_le_pow_left₀ h0.le hs.le 5
  have q1 : s' ^ 6 - a * s' ^ 4 + a ^ 2 * s' ^ 2 < s ^ 6 - a * s ^ 4 + a ^ 2 * s ^ 2 := by
    have : s ^ 6 - a * s ^ 4 + a ^ 2 * s ^ 2 - (s' ^ 6 - a * s' ^ 4 + a ^ 2 * s' ^ 2) =
        (s ^ 2 - s' ^ 2) * ((2 * a - (s ^ 2 + s' ^ 2)) ^ 2 + 3 * s ^ 4 + 2 * s ^ 2 * s' ^ 2 + 3 * s' ^ 4) / 4 := by ring
    have h8 : 0 < (2 * a - (s ^ 2 + s' ^ 2)) ^ 2 + 3 * s ^ 4 + 2 * s ^ 2 * s' ^ 2 + 3 * s' ^ 4 := by positivity
    have := mul_pos (sub_pos.2 p2) h8
    linarith
  have q2 : 2 * b * s' ^ 5 + 3 * b ^ 2 * s' ^ 4 + 2 * b * (a + b ^ 2) * s' ^ 3 + (2 * a * b ^ 2 + b ^ 4) * s' ^ 2 ≤
      2 * b * s ^ 5 + 3 * b ^ 2 * s ^ 4 + 2 * b * (a + b ^ 2) * s ^ 3 + (2 * a * b ^ 2 + b ^ 4) * s ^ 2 := by gcongr
  have q3 : 0 < s' ^ 6 - a * s' ^ 4 + a ^ 2 * s' ^ 2 := by
    have : s' ^ 6 - a * s' ^ 4 + a ^ 2 * s' ^ 2 = s' ^ 2 * ((2 * a - s' ^ 2) ^ 2 + 3 * s' ^ 4) / 4 := by ring
    rw [this]
    positivity
  have q4 : 0 ≤ 2 * b * s' ^ 5 + 3 * b ^ 2 * s' ^ 4 + 2 * b * (a + b ^ 2) * s' ^ 3 + (2 * a * b ^ 2 + b ^ 4) * s' ^ 2 := by positivity
  exact mul_lt_of (by linarith) (by linarith) (exp_le hk h) (Real.exp_pos _)

/-! ## The dependence on the wavenumber when it is `(1 - i) a` -/

/-- `(1 + 2 x + 2 x²) exp(-2 x)` decreases. -/
theorem inductive_lt {x y : ℝ} (hx : 0 ≤ x) (h : x < y) :
    (1 + 2 * y + 2 * y ^ 2) * Real.exp (-(2 * y)) < (1 + 2 * x + 2 * x ^ 2) * Real.exp (-(2 * x)) := by
  have hd : ∀ u : ℝ, HasDerivAt (fun u : ℝ => (1 + 2 * u + 2 * u ^ 2) * Real.exp (-(2 * u))) (-(4 * u ^ 2) * Real.exp (-(2 * u))) u := fun u => by
    have h1 : HasDerivAt (fun u : ℝ => 1 + 2 * u + 2 * u ^ 2) (2 + 4 * u) u := by
      have := (((hasDerivAt_id u).const_mul 2).const_add 1).add (((hasDerivAt_id u).pow 2).const_mul 2)
      refine this.congr_deriv ?_
      simp; ring
    have h2 : HasDerivAt (fun u : ℝ => Real.exp (-(2 * u))) (Real.exp (-(2 * u)) * -(2 * 1)) u := ((hasDerivAt_id u).const_mul 2).neg.exp
    exact (h1.mul h2).congr_deriv (by ring)
  refine strictAntiOn_of_deriv_neg (convex_Ici (0 : ℝ)) (fun u _ => (hd u).continuousAt.continuousWithinAt) (fun u hu => ?_) hx (hx.trans h.le) h
  rw [interior_Ici] at hu
  have hu : 0 < u := hu
  rw [(hd u).deriv]
  have := Real.exp_pos (-(2 * u))
  have : 0 < u ^ 2 := by positivity
  nlinarith

theorem hasDerivAt_across (u : ℝ) : HasDerivAt (fun u : ℝ => (1 + 2 * u + 2 * u ^ 2 + 4 * u ^ 3 + 4 * u ^ 4) * Real.exp (-(2 * u)))
    (8 * u ^ 2 * (1 + u - u ^ 2) * Real.exp (-(2 * u))) u := by
  have h1 : HasDerivAt (fun u : ℝ => 1 + 2 * u + 2 * u ^ 2 + 4 * u ^ 3 + 4 * u ^ 4) (2 + 4 * u + 12 * u ^ 2 + 16 * u ^ 3) u := by
    have := (((((hasDerivAt_id u).const_mul 2).const_add 1).add (((hasDerivAt_id u).pow 2).const_mul 2)).add (((hasDerivAt_id u).pow 3).const_mul 4)).add
      (((hasDerivAt_id u).pow 4).const_mul 4)
    refine this.congr_deriv ?_
    simp; ring
  have h2 : HasDerivAt (fun u : ℝ => Real.exp (-(2 * u))) (Real.exp (-(2 * u)) * -(2 * 1)) u := ((hasDerivAt_id u).const_mul 2).neg.exp
  exact (h1.mul h2).congr_deriv (by ring)

/-- `(1 + 2 x + 2 x² + 4 x³ + 4 x⁴) exp(-2 x)` increases up to the golden ratio. -/
theorem across_lt {x y : ℝ} (hx : 0 ≤ x) (h : x < y) (hy : y ≤ (1 + √5) / 2) :
    (1 + 2 * x + 2 * x ^ 2 + 4 * x ^ 3 + 4 * x ^ 4) * Real.exp (-(2 * x)) < (1 + 2 * y + 2 * y ^ 2 + 4 * y ^ 3 + 4 * y ^ 4) * Real.exp (-(2 * y)) := by
  refine strictMonoOn_of_deriv_pos (convex_Icc (0 : ℝ) ((1 + √5) / 2)) (fun u _ => (hasDerivAt_across u).continuousAt.continuousWithinAt) (fun u hu => ?_)
    ⟨hx, h.le.trans hy⟩ ⟨hx.trans h.le, hy⟩ h
  rw [interior_Icc] at hu
  obtain ⟨hu, hu2⟩ := hu
  rw [(hasDerivAt_across u).deriv]
  have h5 := Real.sq_sqrt (show (0 : ℝ) ≤ 5 by norm_num)
  have h50 := Real.sqrt_nonneg 5
  have h51 : 1 < √5 := by nlinarith
  have : 0 < 1 + u - u ^ 2 := by nlinarith [mul_pos (sub_pos.2 hu2) (show 0 < u - (1 - √5) / 2 by linarith)]
  positivity

/-- It decreases from there on. -/
theorem across_gt {x y : ℝ} (hx : (1 + √5) / 2 ≤ x) (h : x < y) :
    (1 + 2 * y + 2 * y ^ 2 + 4 * y ^ 3 + 4 * y ^ 4) * Real.exp (-(2 * y)) < (1 + 2 * x + 2 * x ^ 2 + 4 * x ^ 3 + 4 * x ^ 4) * Real.exp (-(2 * x)) := by
  refine strictAntiOn_of_deriv_neg (convex_Ici ((1 + √5) / 2 : ℝ)) (fun u _ => (hasDerivAt_across u).continuousAt.continuousWithinAt) (fun u hu => ?_)
    hx (hx.trans h.le) h
  rw [interior_Ici] at hu
  have hu : (1 + √5) / 2 < u := hu
  rw [(hasDerivAt_across u).deriv]
  have h5 := Real.sq_sqrt (show (0 : ℝ) ≤ 5 by norm_num)
  have h50 := Real.sqrt_nonneg 5
  have hu0 : 0 < u := by linarith
  have : 1 + u - u ^ 2 < 0 := by nlinarith
  exact mul_neg_of_neg_of_pos (mul_neg_of_pos_of_neg (by positivity) this) (Real.exp_pos _)

variable {a : ℝ}

theorem axial_eq (hre : k.re = a) (him : k.im = -a) (r : ℝ) :
    axial k r = (1 + 2 * (a * r) + 2 * (a * r) ^ 2) * Real.exp (-(2 * (a * r))) / r ^ 6 := by
  rw [axial, normSq_axial, hre, him, show 2 * (-a * r) = -(2 * (a * r)) by ring]
  ring_nf

theorem swirl_eq (hre : k.re = a) (him : k.im = -a) (r : ℝ) :
    swirl k r = (1 + 2 * (a * r) + 2 * (a * r) ^ 2) * Real.exp (-(2 * (a * r))) / r ^ 4 := by
  rw [swirl, normSq_axial, hre, him, show 2 * (-a * r) = -(2 * (a * r)) by ring]
  ring_nf

theorem broad_eq (hre : k.re = a) (him : k.im = -a) (r : ℝ) :
    broad k r = (1 + 2 * (a * r) + 2 * (a * r) ^ 2 + 4 * (a * r) ^ 3 + 4 * (a * r) ^ 4) * Real.exp (-(2 * (a * r))) / r ^ 6 := by
  rw [broad, normSq_broad, hre, him, show 2 * (-a * r) = -(2 * (a * r)) by ring]
  ring_nf

/-! ## Sizes of vectors -/

theorem sqLen_dipole (f A B : ℂ) (n o : V3 ℝ) (hn : n.x ^ 2 + n.y ^ 2 + n.z ^ 2 = 1) :
    sqLen ((n.map (fun c : ℝ => (n.dot o : ℂ) * A * c) + o.map (fun c : ℝ => B * c)).map (fun c => f * c)) =
      normSq f * (n.dot o ^ 2 * normSq (A + B) + ((n.cross o).dot (n.cross o)) * normSq B) := by
  simp only [sqLen, V3.map_x, V3.map_y, V3.map_z, V3.add_x, V3.add_y, V3.add_z, Complex.normSq_mul]
  rw [← mul_add, ← mul_add]
  congr 1
  simp only [Complex.normSq_apply, V3.dot, V3.cross_x, V3.cross_y, V3.cross_z, Complex.add_re, Complex.add_im, Complex.mul_re, Complex.mul_im, Complex.ofReal_re,
    Complex.ofReal_im]
  ring_nf
  grind

theorem sqLen_real (f : ℂ) (v : V3 ℝ) : sqLen (v.map (fun c : ℝ => f * c)) = normSq f * v.dot v := by
  simp only [sqLen, V3.map_x, V3.map_y, V3.map_z, Complex.normSq_mul, Complex.normSq_ofReal, V3.dot]
  ring

end Verif.Fading
