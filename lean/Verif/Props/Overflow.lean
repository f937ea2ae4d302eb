import Verif.Lemmas.BesselRange
import Verif.Lemmas.HalfspaceLimits
import Verif.Props.HarmonicFloats
import Verif.Spec.DoubleRange
import Mathlib.Analysis.Real.Pi.Bounds

/-!
# C138: the range of double precision

`MagneticDipoleHalfSpace.magnetic_field` multiplies `iv(n, alpha)` by `kv(n, alpha)`.  The product is a moderate number at every distance, but
the factors are not: one grows and the other shrinks exponentially. -/

namespace Verif.Fdem

open PyFloat BesselIK

/-- The skin depth of a half-space of conductivity `sigma`. -/
noncomputable def skin (mu0 frequency sigma : ℝ) : ℝ := √(2 / (2 * Real.pi * frequency * mu0 * sigma))

/-- The horizontal distance from the dipole. -/
noncomputable def HalfDipole.offset (s : HalfDipole) (q : V3 ℝ) : ℝ := √((q.x - s.location.x) ^ 2 + (q.y - s.location.y) ^ 2)

theorem skin_pos {mu0 f sigma : ℝ} (hmu : 0 < mu0) (hf : 0 < f) (hs : 0 < sigma) : 0 < skin mu0 f sigma :=
  Real.sqrt_pos.2 (by have := Real.pi_pos; positivity)

theorem half_k {mu0 : ℝ} (hmu : 0 < mu0) (s : HalfDipole) (hf : 0 < s.frequency) {sigma : ℝ} (hs : 0 < sigma) (h : s.sigmaHat = sigma) :
    s.k mu0 = (1 - Complex.I) / (skin mu0 s.frequency sigma : ℝ) := by
  have hpi := Real.pi_pos
  have hd := skin_pos hmu hf hs
  have e : (skin mu0 s.frequency sigma) ^ 2 = 2 / (2 * Real.pi * s.frequency * mu0 * sigma) := Real.sq_sqrt (by positivity)
  have hdc := Complex.ofReal_ne_zero.2 hd.ne'
  have him : (-Complex.I * ((2 * Real.pi * s.frequency : ℝ) : ℂ) * mu0 * s.sigmaHat).im = -(2 * Real.pi * s.frequency * mu0 * sigma) := by
    rw [h, show -Complex.I * ((2 * Real.pi * s.frequency : ℝ) : ℂ) * mu0 * sigma = ((2 * Real.pi * s.frequency * mu0 * sigma : ℝ) : ℂ) * (-Complex.I) by
      push_cast; ring, Complex.im_ofReal_mul]
    simp
  refine sq_root_unique ?_ (csqrt_re_pos ?_) ?_
  · have : s.k mu0 ^ 2 = -Complex.I * ((2 * Real.pi * s.frequency : ℝ) : ℂ) * mu0 * s.sigmaHat := csqrt_sq _
    rw [this, h, div_pow, show (1 - Complex.I) ^ 2 = -2 * Complex.I by ring_nf; rw [Complex.I_sq]; ring, ← Complex.ofReal_pow, e]
    have : ((2 * Real.pi * s.frequency * mu0 * sigma : ℝ) : ℂ) ≠ 0 := Complex.ofReal_ne_zero.2 (by positivity)
    push_cast at this ⊢
    field_simp
  · rw [him]
    have : 0 < 2 * Real.pi * s.frequency * mu0 * sigma := by positivity
    linarith
  · rw [Complex.div_ofReal_re]
    simpa using hd.le

/-- The argument of the Bessel functions. -/
theorem half_alpha {mu0 : ℝ} (hmu : 0 < mu0) (s : HalfDipole) (hf : 0 < s.frequency) {sigma : ℝ} (hs : 0 < sigma) (h : s.sigmaHat = sigma) (r : ℝ) :
    Complex.I * s.k mu0 * r / 2 = ((r / (2 * skin mu0 s.frequency sigma) : ℝ) : ℂ) * (1 + Complex.I) := by
  have hdc := Complex.ofReal_ne_zero.2 (skin_pos hmu hf hs).ne'
  rw [half_k hmu s hf hs h]
  push_cast
  field_simp
  ring_nf
  simp

theorem cinfinite_mul_zero {a : PyComplex} (h : ¬ a.Finite) : a * PyComplex.fin 0 = PyComplex.nan := by
  have key (x : PyFloat) : (x * fin 0 = fin 0 ∧ x.Finite) ∨ x * fin 0 = .nan := by
    cases x with
    | fin y => left; exact ⟨by rw [fin_mul_fin, mul_zero], PyFloat.finite_fin y⟩
    | nan => right; exact PyFloat.nan_mul _
    | _ => right; simp [HMul.hMul, Mul.mul, PyFloat.mul]
  have e : a * PyComplex.fin 0 = ⟨a.re * fin 0 - a.im * fin 0, a.re * fin 0 + a.im * fin 0⟩ := rfl
  rw [e]
  rcases key a.re with h1 | h1 <;> rcases key a.im with h2 | h2
  · exact absurd ⟨h1.2, h2.2⟩ h
  all_goals simp only [h1, h2, PyFloat.nan_add, PyFloat.nan_sub, PyFloat.add_nan, PyFloat.sub_nan, PyComplex.nan]

variable {ivF kvF : ℕ → PyComplex → PyComplex}

set_option exponentiation.threshold 2000 in
/-- Overflow of one factor and underflow of the other. -/
theorem product_nan (hi : ∀ n, InDoubles (ivF n) (cbesselI n)) (hk : ∀ n, InDoubles (kvF n) (cbesselK n)) {z : ℂ} (hz : 760 ≤ z.re) (hn : ‖z‖ ≤ 10 ^ 6) :
    ivF 1 (.fin z) * kvF 1 (.fin z) - ivF 2 (.fin z) * kvF 2 (.fin z) = PyComplex.nan := by
  have hz0 : 0 < z.re := by linarith
  have k0 : ∀ n ≤ 2, kvF n (.fin z) = PyComplex.fin 0 := fun n hn => by
    have h := K_tiny hn hz
    exact PyComplex.ext ((hk n).tiny_re z hz0 ((Complex.abs_re_le_norm _).trans h)) ((hk n).tiny_im z hz0 ((Complex.abs_im_le_norm _).trans h))
  have big : ∀ n, 2 * 2 ^ 1024 ≤ ‖cbesselI n z‖ → ¬ (ivF n (.fin z)).Finite := fun n h hf => by
    have h1 := Complex.norm_le_abs_re_add_abs_im (cbesselI n z)
    rcases le_or_gt (2 ^ 1024) |(cbesselI n z).re| with h2 | h2
    · exact (hi n).big_re z hz0 h2 hf.1
    · exact (hi n).big_im z hz0 (by linarith) hf.2
  rw [k0 1 one_le_two, k0 2 le_rfl]
  rcases I_big hz hn with h | h
  · rw [cinfinite_mul_zero (big 1 h), PyComplex.nan_sub]
  · rw [cinfinite_mul_zero (big 2 h), PyComplex.sub_nan]

/-- **C138.** Beyond 1520 skin depths the field of a dipole on a half-space is not a number: for a vertical dipole the horizontal components, for a
horizontal dipole the vertical component. -/
theorem HalfDipole.nan_far (hi : ∀ n, InDoubles (ivF n) (cbesselI n)) (hk : ∀ n, InDoubles (kvF n) (cbesselK n)) {mu0 : ℝ} (hmu : 0 < mu0) (s : HalfDipole)
    (hf : 0 < s.frequency) {sigma : ℝ} (hs : 0 < sigma) (h : s.sigmaHat = sigma) (q : V3 ℝ) (h1 : 1520 * skin mu0 s.frequency sigma ≤ s.offset q)
    (h2 : s.offset q ≤ 10 ^ 6 * skin mu0 s.frequency sigma) (field : String) :
    (s.orientation.z ≠ 0 → (s.magneticFieldF ivF kvF mu0 q field).x = .nan ∧ (s.magneticFieldF ivF kvF mu0 q field).y = .nan) ∧
      (s.orientation.x ≠ 0 ∨ s.orientation.y ≠ 0 → (s.magneticFieldF ivF kvF mu0 q field).z = .nan) := by
  have hd := skin_pos hmu hf hs
  have ha := half_alpha hmu s hf hs h (s.offset q)
  set z := Complex.I * s.k mu0 * s.offset q / 2 with hz
  have hre : z.re = s.offset q / (2 * skin mu0 s.frequency sigma) := by rw [ha, Complex.re_ofReal_mul]; simp
  have hzr : 760 ≤ z.re := by
    rw [hre, le_div_iff₀ (by positivity)]
    linarith
  have hzn : ‖z‖ ≤ 10 ^ 6 := by
    rw [ha, norm_mul, Complex.norm_real, Real.norm_of_nonneg (by rw [← hre]; linarith)]
    have n1 : ‖(1 + Complex.I : ℂ)‖ ≤ 2 := (norm_add_le _ _).trans (by simp; norm_num)
    have n2 : s.offset q / (2 * skin mu0 s.frequency sigma) ≤ 10 ^ 6 / 2 := by
      rw [div_le_div_iff₀ (by positivity) two_pos]
      linarith
    calc _ ≤ (10 : ℝ) ^ 6 / 2 * 2 := mul_le_mul n2 n1 (norm_nonneg _) (by norm_num)
      _ = _ := by norm_num
  have key := product_nan hi hk hzr hzn
  have ho2 : 0 ≤ (q.x - s.location.x) ^ 2 + (q.y - s.location.y) ^ 2 := by positivity
  have h2c : ((2 : ℝ) : ℂ) ≠ 0 := by norm_num
  have hz' : Complex.I * s.k mu0 * s.offset q / ((2 : ℝ) : ℂ) = z := by rw [hz]; norm_num
  unfold HalfDipole.magneticFieldF halfEmF
  unfold HalfDipole.offset at hz'
  simp only [V3.sub_x, V3.sub_y, fin_pow, fin_add_fin, PyFloat.sqrt_fin ho2, fin_mul_fin, neg_fin]
  simp only [PyComplex.ofFloat_fin, PyComplex.fin_mul_fin, PyComplex.fin_div_fin h2c, hz', key, PyComplex.mul_nan, PyComplex.sub_nan]
  refine ⟨fun hzne => ?_, fun hxy => ?_⟩
  · rw [if_pos hzne]
    split_ifs <;> simp only [V3.map, V3.add_x, V3.add_y, V3.sub_x, V3.sub_y, PyComplex.add_nan, PyComplex.nan_add, PyComplex.nan_sub, PyComplex.mul_nan, and_self]
  · rw [if_pos hxy]
    by_cases hy : s.orientation.y ≠ 0
    · simp only [if_pos hy]
      split_ifs <;> simp only [V3.map, V3.sub_z, PyComplex.nan_sub, PyComplex.mul_nan]
    · have hx := hxy.resolve_right hy
      simp only [if_neg hy, if_pos hx]
      split_ifs <;> simp only [V3.map, V3.sub_z, PyComplex.nan_sub, PyComplex.mul_nan]

/-- Only the values of the Bessel functions at one argument matter. -/
theorem HalfDipole.fieldF_congr {ivG kvG : ℕ → PyComplex → PyComplex} {mu0 : ℝ} (s : HalfDipole) (q : V3 ℝ)
    (hi : ∀ n, ivF n (.fin (Complex.I * s.k mu0 * s.offset q / 2)) = ivG n (.fin (Complex.I * s.k mu0 * s.offset q / 2)))
    (hk : ∀ n, kvF n (.fin (Complex.I * s.k mu0 * s.offset q / 2)) = kvG n (.fin (Complex.I * s.k mu0 * s.offset q / 2))) (field : String) :
    s.magneticFieldF ivF kvF mu0 q field = s.magneticFieldF ivG kvG mu0 q field := by
  have ho2 : 0 ≤ (q.x - s.location.x) ^ 2 + (q.y - s.location.y) ^ 2 := by positivity
  have h2c : ((2 : ℝ) : ℂ) ≠ 0 := by norm_num
  have e : Complex.I * s.k mu0 * s.offset q / 2 = Complex.I * s.k mu0 * s.offset q / ((2 : ℝ) : ℂ) := by norm_num
  rw [e] at hi hk
  unfold HalfDipole.offset at hi hk
  unfold HalfDipole.magneticFieldF halfEmF
  simp only [V3.sub_x, V3.sub_y, fin_pow, fin_add_fin, PyFloat.sqrt_fin ho2, fin_mul_fin, neg_fin]
  simp only [PyComplex.ofFloat_fin, PyComplex.fin_mul_fin, PyComplex.fin_div_fin h2c, hi, hk]

/-- **C138.** Up to 1386 skin depths it is a number. -/
theorem HalfDipole.finite_near_partial (hi : ∀ n, InDoubles (ivF n) (cbesselI n)) (hk : ∀ n z, (kvF n (.fin z)).Finite) {mu0 : ℝ} (hmu : 0 < mu0)
    (s : HalfDipole) (hf : 0 < s.frequency) {sigma : ℝ} (hs : 0 < sigma) (h : s.sigmaHat = sigma) (q : V3 ℝ) (h0 : 0 < s.offset q)
    (h1 : s.offset q ≤ 1386 * skin mu0 s.frequency sigma) (field : String) :
    (s.magneticFieldF ivF kvF mu0 q field).x.Finite ∧ (s.magneticFieldF ivF kvF mu0 q field).y.Finite ∧ (s.magneticFieldF ivF kvF mu0 q field).z.Finite := by
  have hd := skin_pos hmu hf hs
  have ha := half_alpha hmu s hf hs h (s.offset q)
  set z := Complex.I * s.k mu0 * s.offset q / 2 with hz
  have hre : z.re = s.offset q / (2 * skin mu0 s.frequency sigma) := by rw [ha, Complex.re_ofReal_mul]; simp
  have hz0 : 0 < z.re := by rw [hre]; positivity
  have hz1 : z.re ≤ 693 := by
    rw [hre, div_le_iff₀ (by positivity)]
    linarith
  have val : ∀ {c : PyComplex}, c.Finite → ∃ w : ℂ, c = .fin w := by
    rintro ⟨_, _⟩ ⟨⟨a, rfl⟩, ⟨b, rfl⟩⟩
    exact ⟨⟨a, b⟩, rfl⟩
  choose iv hiv using fun n => val ((hi n).inside z hz0 ((norm_I_le n hz0.le).trans (exp_small hz1)))
  choose kv hkv using fun n => val (hk n z)
  rw [HalfDipole.fieldF_congr (ivG := fun n _ => .fin (iv n)) (kvG := fun n _ => .fin (kv n)) s q hiv hkv,
    HalfDipole.finite_off (iv := fun n _ => iv n) (kv := fun n _ => kv n) (fun _ _ _ => rfl) (fun _ _ _ => rfl) hmu s hf
      (by rw [h]; exact Complex.ofReal_ne_zero.2 hs.ne') q (fun e => ?_)]
  · exact ⟨⟨⟨_, rfl⟩, ⟨_, rfl⟩⟩, ⟨⟨_, rfl⟩, ⟨_, rfl⟩⟩, ⟨⟨_, rfl⟩, ⟨_, rfl⟩⟩⟩
  · obtain ⟨ex, ey⟩ := Prod.mk.injEq _ _ _ _ ▸ e
    unfold HalfDipole.offset at h0
    rw [ex, ey] at h0
    simp at h0

open Classical in
/-- A number in double precision, apart from rounding. -/
noncomputable def inDoubles (x : ℝ) : PyFloat :=
  if 2 ^ 1024 ≤ x then .pinf else if x ≤ -2 ^ 1024 then .ninf else if |x| ≤ 1 / 2 ^ 1076 then .fin 0 else .fin x

/-- Every function has a version in double precision. -/
noncomputable def rangeOf (F : ℂ → ℂ) : PyComplex → PyComplex
  | ⟨.fin x, .fin y⟩ => ⟨inDoubles (F ⟨x, y⟩).re, inDoubles (F ⟨x, y⟩).im⟩
  | _ => .nan

set_option exponentiation.threshold 2000 in
theorem rangeOf_inDoubles (F : ℂ → ℂ) : InDoubles (rangeOf F) F := by
  have big : ∀ x : ℝ, 2 ^ 1024 ≤ |x| → ¬ (inDoubles x).Finite := fun x h => by
    unfold inDoubles
    rcases le_abs.1 h with h | h
    · rw [if_pos h]
      exact not_finite_pinf
    · split_ifs with h1 h2 h3
      · exact not_finite_pinf
      · exact not_finite_ninf
      · exact absurd (by linarith) h2
      · exact absurd (by linarith) h2
  have tiny : ∀ x : ℝ, |x| ≤ 1 / 2 ^ 1076 → inDoubles x = .fin 0 := fun x h => by
    have h1 := abs_le.1 h
    have h2 : (1 : ℝ) / 2 ^ 1076 < 2 ^ 1024 := by norm_num
    unfold inDoubles
    rw [if_neg (by linarith), if_neg (by linarith), if_pos h]
  have small : ∀ x : ℝ, |x| ≤ 2 ^ 1000 → (inDoubles x).Finite := fun x h => by
    have h1 := abs_le.1 h
    have h2 : (2 : ℝ) ^ 1000 < 2 ^ 1024 := by norm_num
    unfold inDoubles
    rw [if_neg (by linarith), if_neg (by linarith)]
    split_ifs
    · exact finite_fin _
    · exact finite_fin _
  exact ⟨fun z _ h => ⟨small _ ((Complex.abs_re_le_norm _).trans h), small _ ((Complex.abs_im_le_norm _).trans h)⟩, fun z _ h => big _ h,
    fun z _ h => big _ h, fun z _ h => tiny _ h, fun z _ h => tiny _ h⟩

/-- Libraries that behave so exist, and one kilometre from a dipole on ground of 1 S/m one is beyond 1520 skin depths at 1 MHz. -/
example : (∀ n, InDoubles (rangeOf (cbesselI n)) (cbesselI n)) ∧ (∀ n, InDoubles (rangeOf (cbesselK n)) (cbesselK n)) ∧
    1520 * skin (4 * Real.pi * 1e-7) 1e6 1 ≤ (⟨1e6, 1, 0, ⟨0, 0, 1⟩, 1⟩ : HalfDipole).offset ⟨1000, 0, 0⟩ ∧
    (⟨1e6, 1, 0, ⟨0, 0, 1⟩, 1⟩ : HalfDipole).offset ⟨1000, 0, 0⟩ ≤ 10 ^ 6 * skin (4 * Real.pi * 1e-7) 1e6 1 := by
  have hpi := Real.pi_gt_three
  have hpi4 := Real.pi_le_four
  have e : (⟨1e6, 1, 0, ⟨0, 0, 1⟩, 1⟩ : HalfDipole).offset ⟨1000, 0, 0⟩ = 1000 := by
    simp only [HalfDipole.offset, V3.zero_x, V3.zero_y]
    rw [show ((1000 : ℝ) - 0) ^ 2 + (0 - 0) ^ 2 = 1000 ^ 2 by norm_num, Real.sqrt_sq (by norm_num)]
  refine ⟨fun n => rangeOf_inDoubles _, fun n => rangeOf_inDoubles _, ?_, ?_⟩
  · have : skin (4 * Real.pi * 1e-7) 1e6 1 ≤ 6 / 10 := by
      rw [skin, Real.sqrt_le_left (by norm_num), div_le_iff₀ (by positivity)]
      nlinarith
    rw [e]
    linarith
  · have : 1 / 10 ≤ skin (4 * Real.pi * 1e-7) 1e6 1 := by
      rw [skin, Real.le_sqrt' (by norm_num), le_div_iff₀ (by positivity)]
      nlinarith
    rw [e]
    linarith

end Verif.Fdem
