import Verif.Model.HarmonicFloats
import Verif.Props.StartValues
import Verif.Lemmas.ComplexSqrt

/-!
# C110: the harmonic fields at the source and at frequency zero

Where the code's result in floating point with special values is a finite number, and that it is then the value of the formula over the complex
numbers; elsewhere every component is NaN.
-/

namespace Verif.Fdem

open PyFloat (fin fin_add_fin fin_sub_fin fin_mul_fin fin_div_fin fin_pow neg_fin)

/-- **C110.** The fields of a harmonic electric dipole are finite at every point other than the dipole and at every frequency, zero included. -/
theorem ElectricDipole.finite_off (s : ElectricDipole) (hs : 0 < s.sigma) (q : V3 ℝ) (hq : q ≠ s.location) :
    s.vectorPotentialF q = cfl (s.vectorPotential q) ∧ s.electricFieldF q = cfl (s.electricField q) ∧ s.magneticFieldF q = cfl (s.magneticField q) := by
  have h' := V3.len_sub_ne_zero hq
  have hd : 4 * Real.pi * s.sigma * (q - s.location).len ^ 3 ≠ 0 := by positivity
  refine ⟨?_, ?_, ?_⟩
  · simp only [ElectricDipole.vectorPotentialF, fl_sub, norm_fl]
    simp only [fl, V3.map, fin_mul_fin, fin_div_fin (Tdem.four_pi_mul_ne h'), PyComplex.ofFloat_fin, PyComplex.neg_fin, PyComplex.fin_mul_fin, PyComplex.exp_fin]
    simp only [cfl, V3.map, ElectricDipole.vectorPotential]
    push_cast
    rfl
  · simp only [ElectricDipole.electricFieldF, fl_sub, norm_fl, fl_map_div h']
    simp only [fl, V3.map, V3.ext_iff, V3.add_x, V3.add_y, V3.add_z, V3.dot, fin_mul_fin, fin_add_fin, fin_pow, fin_div_fin hd, PyComplex.ofFloat_fin, PyComplex.neg_fin, PyComplex.fin_mul_fin,
      PyComplex.fin_add_fin, PyComplex.fin_sub_fin, PyComplex.fin_pow, PyComplex.exp_fin]
    simp only [cfl, V3.map, ElectricDipole.electricField, V3.add_x, V3.add_y, V3.add_z, V3.dot]
    push_cast
    exact ⟨rfl, rfl, rfl⟩
  · simp only [ElectricDipole.magneticFieldF, fl_sub, norm_fl, fl_map_div h']
    simp only [fl, V3.map, V3.cross, fin_mul_fin, fin_sub_fin, fin_pow, fin_div_fin (Static.four_pi_pow_ne h' 2), PyComplex.ofFloat_fin, PyComplex.neg_fin,
      PyComplex.fin_mul_fin, PyComplex.fin_add_fin, PyComplex.exp_fin]
    simp only [cfl, V3.map, ElectricDipole.magneticField, V3.cross]
    push_cast
    rfl

theorem div_zero_not_finite (a : ℝ) : ¬ (fin a / fin 0).Finite := by
  rcases lt_trichotomy a 0 with h | h | h
  · rw [PyFloat.fin_div_zero_neg h]; exact PyFloat.not_finite_ninf
  · rw [h, PyFloat.zero_div_zero]; exact PyFloat.not_finite_nan
  · rw [PyFloat.fin_div_zero_pos h]; exact PyFloat.not_finite_pinf

/-- The three components of a product with NaN. -/
theorem nan_direction (a : PyComplex) : V3.nan.map (fun c => a * PyComplex.ofFloat c) = V3.cnan := by
  simp only [V3.nan, V3.map, PyComplex.mul_ofFloat_nan, V3.cnan]

theorem nan_cross (v : V3 PyFloat) : v.cross V3.nan = V3.nan ∧ V3.nan.cross v = V3.nan := by
  simp only [V3.cross, V3.nan, PyFloat.mul_nan, PyFloat.nan_mul, PyFloat.nan_sub, and_self]

theorem cnan_add (v : V3 PyComplex) : V3.cnan + v = V3.cnan := by
  simp only [V3.cnan, V3.ext_iff, V3.add_x, V3.add_y, V3.add_z, PyComplex.nan_add, and_self]

theorem cnan_map (a : PyComplex) : V3.cnan.map (fun c => a * c) = V3.cnan := by
  simp only [V3.cnan, V3.map, PyComplex.mul_nan]

/-- **C110.** At the dipole they are not numbers. -/
theorem ElectricDipole.nan_at (s : ElectricDipole) :
    s.vectorPotentialF s.location = V3.cnan ∧ s.electricFieldF s.location = V3.cnan ∧ s.magneticFieldF s.location = V3.cnan := by
  refine ⟨?_, ?_, ?_⟩
  · simp only [ElectricDipole.vectorPotentialF, fl_sub, norm_fl, sub_self, V3.len_eq_zero.2, fin_mul_fin, mul_zero, PyComplex.ofFloat_fin, PyComplex.neg_fin,
      PyComplex.fin_mul_fin, PyComplex.exp_fin, Complex.ofReal_zero, Complex.exp_zero, PyComplex.ofFloat_mul_one (div_zero_not_finite _)]
    simp only [V3.map, PyComplex.nan_im_mul, V3.cnan]
  · simp only [ElectricDipole.electricFieldF, fl_self, nan_direction, cnan_add, cnan_map]
  · simp only [ElectricDipole.magneticFieldF, fl_self, nan_cross, nan_direction]

/-- **C110.** The fields of a harmonic magnetic dipole are finite at every point other than the dipole and at every frequency, zero included; at
the dipole they are not numbers. -/
theorem MagneticDipole.finite_off (s : MagneticDipole) (q : V3 ℝ) (hq : q ≠ s.location) :
    s.vectorPotentialF q = cfl (s.vectorPotential q) ∧ s.electricFieldF q = cfl (s.electricField q) ∧ s.magneticFieldF q = cfl (s.magneticField q) := by
  have h' := V3.len_sub_ne_zero hq
  have h1 : ((4 * Real.pi * (q - s.location).len : ℝ) : ℂ) ≠ 0 := Complex.ofReal_ne_zero.2 (Tdem.four_pi_mul_ne h')
  have h2 : ((4 * Real.pi * (q - s.location).len ^ 2 : ℝ) : ℂ) ≠ 0 := Complex.ofReal_ne_zero.2 (Static.four_pi_pow_ne h' 2)
  refine ⟨?_, ?_, ?_⟩
  · simp only [MagneticDipole.vectorPotentialF, fl_sub, norm_fl]
    simp only [fl, V3.map, fin_mul_fin, PyComplex.ofFloat_fin, PyComplex.neg_fin, PyComplex.fin_mul_fin, PyComplex.fin_div_fin h1, PyComplex.exp_fin]
    simp only [cfl, V3.map, MagneticDipole.vectorPotential]
    push_cast
    rfl
  · simp only [MagneticDipole.electricFieldF, fl_sub, norm_fl, fl_map_div h']
    simp only [fl, V3.map, V3.cross, fin_mul_fin, fin_sub_fin, fin_pow, PyComplex.ofFloat_fin, PyComplex.neg_fin,
      PyComplex.fin_mul_fin, PyComplex.fin_add_fin, PyComplex.fin_div_fin h2, PyComplex.exp_fin]
    simp only [cfl, V3.map, MagneticDipole.electricField, V3.cross]
    push_cast
    rfl
  · simp only [MagneticDipole.magneticFieldF, fl_sub, norm_fl, fl_map_div h']
    simp only [fl, V3.map, V3.ext_iff, V3.add_x, V3.add_y, V3.add_z, V3.dot, fin_mul_fin, fin_add_fin, fin_pow, fin_div_fin (Static.four_pi_pow_ne h' 3),
      PyComplex.ofFloat_fin, PyComplex.neg_fin, PyComplex.fin_mul_fin, PyComplex.fin_add_fin, PyComplex.fin_sub_fin, PyComplex.fin_pow, PyComplex.exp_fin]
    simp only [cfl, V3.map, MagneticDipole.magneticField, V3.add_x, V3.add_y, V3.add_z, V3.dot]
    push_cast
    exact ⟨rfl, rfl, rfl⟩

/-- **C110.** At the dipole they are not numbers. -/
theorem MagneticDipole.nan_at (s : MagneticDipole) :
    s.vectorPotentialF s.location = V3.cnan ∧ s.electricFieldF s.location = V3.cnan ∧ s.magneticFieldF s.location = V3.cnan := by
  refine ⟨?_, ?_, ?_⟩
  · have h : (Complex.I * (s.omega : ℂ) * s.mu * s.moment).re = 0 := by simp
    simp only [MagneticDipole.vectorPotentialF, fl_sub, norm_fl, sub_self, V3.len_eq_zero.2, fin_mul_fin, mul_zero, PyComplex.ofFloat_fin, PyComplex.neg_fin,
      PyComplex.fin_mul_fin, PyComplex.exp_fin, Complex.ofReal_zero, Complex.exp_zero, PyComplex.fin_div_zero, h, PyFloat.zero_div_zero, PyComplex.nan_re_mul]
    simp only [V3.map, PyComplex.nan_mul, V3.cnan]
  · simp only [MagneticDipole.electricFieldF, fl_self, nan_cross, nan_direction]
  · simp only [MagneticDipole.magneticFieldF, fl_self, nan_direction, cnan_add, cnan_map]

theorem wavenumber_zero (m : Medium) (h : m.frequency = 0) : m.wavenumber = 0 := by
  have : Complex.sqrt 0 = 0 := by simp [Complex.sqrt]
  simp only [Medium.wavenumber, wavenumber, omega, h]
  split_ifs <;> simp [this]

/-- **C110.** The electric field of a harmonic plane wave is finite everywhere and at every frequency, and at frequency zero it is the same
everywhere; the flux density is finite at positive frequencies and not a number at frequency zero. -/
theorem PlaneWave.finite_partial (s : PlaneWave) (q : V3 ℝ) :
    s.electricFieldF q = cfl (s.electricField q) ∧ (s.frequency = 0 → s.electricFieldF q = cfl (s.orientation.map fun c : ℝ => (s.amplitude * c : ℂ))) ∧
    (0 < s.frequency → s.magneticFluxDensityF q = cfl (s.magneticFluxDensity q)) ∧ (s.frequency = 0 → s.magneticFluxDensityF q = V3.cnan) := by
  have hE : s.electricFieldF q = cfl (s.electricField q) := by
    simp only [PlaneWave.electricFieldF, fl, V3.map, fin_mul_fin, PyComplex.ofFloat_fin, PyComplex.fin_mul_fin, PyComplex.exp_fin]
    simp only [cfl, V3.map, PlaneWave.electricField]
    push_cast
    rfl
  refine ⟨hE, fun h => ?_, fun h => ?_, fun h => ?_⟩
  · rw [hE]
    simp only [PlaneWave.electricField, wavenumber_zero _ h, mul_zero, zero_mul, Complex.exp_zero, mul_one]
  · have hw : ((s.omega : ℝ) : ℂ) ≠ 0 := Complex.ofReal_ne_zero.2 (by simp only [Medium.omega, omega]; positivity)
    simp only [PlaneWave.magneticFluxDensityF, fl, V3.map, V3.cross, fin_mul_fin, fin_sub_fin, neg_fin, PyComplex.ofFloat_fin, PyComplex.fin_mul_fin,
      PyComplex.fin_div_fin hw, PyComplex.exp_fin]
    simp only [cfl, V3.map, PlaneWave.magneticFluxDensity, V3.cross]
    push_cast
    rfl
  · have hw : s.omega = 0 := by simp [Medium.omega, omega, h]
    simp only [PlaneWave.magneticFluxDensityF, wavenumber_zero _ h, hw, neg_fin, PyComplex.ofFloat_fin, PyComplex.fin_mul_fin, mul_zero, Complex.ofReal_zero,
      PyComplex.fin_div_zero, Complex.zero_re, Complex.zero_im, PyFloat.zero_div_zero, PyComplex.nan_re_mul]
    simp only [V3.map, PyComplex.mul_nan, V3.cnan]

/-- **C110.** The skin depth is finite at positive frequencies and infinite at frequency zero. -/
theorem skinDepth_finite (f sigma mu epsilon : ℝ) (q : Flag) (hs : 0 < sigma) (hm : 0 < mu) (he : 0 < epsilon) :
    (0 < f → skinDepthF f sigma mu epsilon q = fin (skinDepth f sigma mu epsilon q)) ∧ skinDepthF 0 sigma mu epsilon q = .pinf := by
  constructor
  · intro hf
    have hw : 0 < omega f := by simp only [omega]; positivity
    unfold skinDepthF skinDepth
    split_ifs
    · have h1 : omega f * sigma * mu ≠ 0 := by positivity
      simp only [fin_mul_fin, fin_div_fin h1]
      rw [PyFloat.sqrt_fin (by positivity)]
    · have h2 : (omega f * epsilon) ^ 2 ≠ 0 := by positivity
      have h3 : 0 ≤ 1 + sigma ^ 2 / (omega f * epsilon) ^ 2 := by positivity
      have h4 : 0 ≤ mu * epsilon / 2 * (Real.sqrt (1 + sigma ^ 2 / (omega f * epsilon) ^ 2) - 1) := by
        have : (1 : ℝ) ≤ Real.sqrt (1 + sigma ^ 2 / (omega f * epsilon) ^ 2) := Real.one_le_sqrt.2 (by
          have : 0 ≤ sigma ^ 2 / (omega f * epsilon) ^ 2 := by positivity
          linarith)
        exact mul_nonneg (by positivity) (by linarith)
      simp only [fin_mul_fin, fin_pow, fin_div_fin (two_ne_zero (α := ℝ)), fin_div_fin h2, fin_add_fin, PyFloat.sqrt_fin h3, fin_sub_fin, PyFloat.sqrt_fin h4,
        fin_div_fin hw.ne']
  · have hw : omega 0 = 0 := by simp [omega]
    unfold skinDepthF
    simp only [hw, fin_mul_fin, zero_mul, fin_pow, zero_pow two_ne_zero, PyFloat.fin_div_zero_pos two_pos, PyFloat.fin_div_zero_pos (pow_pos hs 2),
      PyFloat.fin_add_pinf, PyFloat.sqrt_pinf, fin_div_fin (two_ne_zero (α := ℝ)), show PyFloat.pinf - fin 1 = .pinf from rfl,
      PyFloat.pos_mul_pinf (show (0 : ℝ) < mu * epsilon / 2 by positivity), PyFloat.pinf_div_pos le_rfl, ite_self]

/-- **C110.** The field at the centre of a harmonic loop is finite at positive frequencies and not a number at frequency zero. -/
theorem loop_finite_partial (f : ℝ) (sigma mu : ℂ) (radius current turns : ℝ) (secondary : Bool) (hs : sigma ≠ 0) (hm : mu ≠ 0) (ha : 0 < radius) :
    (0 < f → loopFieldF f sigma mu radius current turns secondary = PyComplex.fin (loopField f sigma mu radius current turns secondary)) ∧
    loopFieldF 0 sigma mu radius current turns secondary = PyComplex.nan := by
  constructor
  · intro hf
    have hz : -Complex.I * ((2 * Real.pi * f : ℝ) : ℂ) * mu * sigma ≠ 0 :=
      mul_ne_zero (mul_ne_zero (mul_ne_zero (neg_ne_zero.2 Complex.I_ne_zero) (Complex.ofReal_ne_zero.2 (by positivity))) hm) hs
    have hk : Complex.sqrt (-Complex.I * ((2 * Real.pi * f : ℝ) : ℂ) * mu * sigma) ^ 2 * (radius : ℂ) ^ 3 ≠ 0 := by
      rw [csqrt_sq]
      exact mul_ne_zero hz (pow_ne_zero 3 (Complex.ofReal_ne_zero.2 ha.ne'))
    have h2 : (2 : ℝ) ≠ 0 := two_ne_zero
    unfold loopFieldF loopField
    cases secondary
    · simp only [neg_fin, PyComplex.ofFloat_fin, PyComplex.neg_fin, PyComplex.fin_pow, PyComplex.fin_mul_fin, PyComplex.fin_add_fin, PyComplex.fin_sub_fin,
        PyComplex.exp_fin, PyComplex.fin_div_fin hk, Bool.false_eq_true, if_false]
      push_cast
      rfl
    · simp only [neg_fin, PyComplex.ofFloat_fin, PyComplex.neg_fin, PyComplex.fin_pow, PyComplex.fin_mul_fin, PyComplex.fin_add_fin, PyComplex.fin_sub_fin,
        PyComplex.exp_fin, PyComplex.fin_div_fin hk, if_true, fin_div_fin h2, fin_div_fin ha.ne']
      push_cast
      rfl
  · have h0 : Complex.sqrt 0 = 0 := by simp [Complex.sqrt]
    unfold loopFieldF
    simp only [mul_zero, zero_mul, Complex.ofReal_zero, h0, neg_fin, PyComplex.ofFloat_fin, PyComplex.fin_pow, PyComplex.fin_mul_fin, zero_pow two_ne_zero,
      PyComplex.fin_div_zero, Complex.ofReal_im, PyFloat.zero_div_zero, PyComplex.nan_im_mul, PyComplex.nan_sub, ite_self, PyComplex.mul_nan]

/-! ## On a half-space -/

theorem zero_mul_infinite {a : PyComplex} (h : ¬ a.Finite) : PyComplex.fin 0 * a = PyComplex.nan := by
  have key (x : PyFloat) : (fin 0 * x = fin 0 ∧ x.Finite) ∨ fin 0 * x = .nan := by
    cases x with
    | fin y => left; exact ⟨by rw [fin_mul_fin, zero_mul], PyFloat.finite_fin y⟩
    | nan => right; exact PyFloat.mul_nan _
    | _ => right; simp [HMul.hMul, Mul.mul, PyFloat.mul]
  have e : PyComplex.fin 0 * a = ⟨fin 0 * a.re - fin 0 * a.im, fin 0 * a.im + fin 0 * a.re⟩ := rfl
  rw [e]
  rcases key a.re with h1 | h1 <;> rcases key a.im with h2 | h2
  · exact absurd ⟨h1.2, h2.2⟩ h
  all_goals simp only [h1, h2, PyFloat.nan_add, PyFloat.nan_sub, PyFloat.add_nan, PyFloat.sub_nan, PyComplex.nan]


/-- **C110.** The field of a magnetic dipole on a half-space is finite at positive frequencies off the dipole. -/
theorem HalfDipole.finite_off {iv kv : ℕ → ℂ → ℂ} {ivF kvF : ℕ → PyComplex → PyComplex} (hi : ∀ n a, a ≠ 0 → ivF n (PyComplex.fin a) = PyComplex.fin (iv n a))
    (hk : ∀ n a, a ≠ 0 → kvF n (PyComplex.fin a) = PyComplex.fin (kv n a)) {mu0 : ℝ} (hmu : 0 < mu0) (s : HalfDipole) (hf : 0 < s.frequency) (hs : s.sigmaHat ≠ 0)
    (q : V3 ℝ) (hq : (q.x, q.y) ≠ (s.location.x, s.location.y)) (field : String) :
    s.magneticFieldF ivF kvF mu0 q field = cfl (s.magneticField iv kv mu0 q field) := by
  have hk0 : s.k mu0 ≠ 0 := by
    intro e
    have := csqrt_sq (-Complex.I * ((2 * Real.pi * s.frequency : ℝ) : ℂ) * mu0 * s.sigmaHat)
    have e' : Complex.sqrt (-Complex.I * ((2 * Real.pi * s.frequency : ℝ) : ℂ) * mu0 * s.sigmaHat) = 0 := e
    rw [e', zero_pow two_ne_zero] at this
    exact mul_ne_zero (mul_ne_zero (mul_ne_zero (neg_ne_zero.2 Complex.I_ne_zero) (Complex.ofReal_ne_zero.2 (by positivity)))
      (Complex.ofReal_ne_zero.2 hmu.ne')) hs this.symm
  have ho2 : 0 < (q.x - s.location.x) ^ 2 + (q.y - s.location.y) ^ 2 := by
    by_cases hx : q.x = s.location.x
    · have hy : q.y - s.location.y ≠ 0 := fun e => hq (by rw [hx, sub_eq_zero.1 e])
      positivity
    · have hx' : q.x - s.location.x ≠ 0 := sub_ne_zero.2 hx
      positivity
  have ho : Real.sqrt ((q.x - s.location.x) ^ 2 + (q.y - s.location.y) ^ 2) ≠ 0 := (Real.sqrt_pos.2 ho2).ne'
  have h4 : (4 : ℝ) * Real.pi ≠ 0 := by positivity
  unfold HalfDipole.magneticFieldF HalfDipole.magneticField halfEmF halfEm
  simp only [V3.sub_x, V3.sub_y]
  generalize q.x - s.location.x = x at *
  generalize q.y - s.location.y = y at *
  simp only [fin_pow, fin_add_fin, PyFloat.sqrt_fin ho2.le, fin_mul_fin, neg_fin]
  generalize Real.sqrt (x ^ 2 + y ^ 2) = r at *
  generalize s.k mu0 = k at *
  have hoc := Complex.ofReal_ne_zero.2 ho
  have ha : Complex.I * k * (r : ℂ) / ((2 : ℝ) : ℂ) ≠ 0 := div_ne_zero (mul_ne_zero (mul_ne_zero Complex.I_ne_zero hk0) hoc) (by norm_num)
  have h2 : ((2 : ℝ) : ℂ) ≠ 0 := by norm_num
  have hrn (n : ℕ) : ((r ^ n : ℝ) : ℂ) ≠ 0 := Complex.ofReal_ne_zero.2 (pow_ne_zero n ho)
  have hkr (m n : ℕ) : k ^ m * ((r ^ n : ℝ) : ℂ) ≠ 0 := mul_ne_zero (pow_ne_zero m hk0) (hrn n)
  simp only [PyComplex.ofFloat_fin, PyComplex.neg_fin, PyComplex.fin_pow, PyComplex.fin_mul_fin, PyComplex.fin_div_fin h2, hi _ _ ha, hk _ _ ha,
    PyComplex.fin_div_fin hoc, PyComplex.fin_div_fin (hrn _), PyComplex.fin_div_fin (hkr _ _), PyComplex.fin_sub_fin, PyComplex.fin_add_fin, PyComplex.exp_fin,
    fin_div_fin (pow_ne_zero _ ho), fin_mul_fin, fin_sub_fin, fin_div_fin h4]
  split_ifs <;>
    simp only [cfl, V3.map, V3.add_x, V3.add_y, V3.add_z, V3.sub_x, V3.sub_y, V3.sub_z, V3.smul_x, V3.smul_y, V3.smul_z, V3.zero_x, V3.zero_y, V3.zero_z,
      smul_eq_mul, PyComplex.ofFloat_fin, PyComplex.fin_add_fin, PyComplex.fin_sub_fin, PyComplex.fin_mul_fin] <;> push_cast <;>
    (refine V3.ext ?_ ?_ ?_ <;> refine congrArg PyComplex.fin ?_ <;> ring)

/-- **C110.** At the dipole and at frequency zero it is not a number: there the Bessel functions of the second kind are not finite. -/
theorem HalfDipole.nan_at {ivF kvF : ℕ → PyComplex → PyComplex} (hi : ∀ n, 0 < n → ivF n (PyComplex.fin 0) = PyComplex.fin 0)
    (hk : ∀ n, ¬ (kvF n (PyComplex.fin 0)).Finite) (mu0 : ℝ) (s : HalfDipole) (hs : s.orientation ≠ 0) (q : V3 ℝ)
    (hq : s.frequency = 0 ∨ (q.x, q.y) = (s.location.x, s.location.y)) (field : String) :
    s.magneticFieldF ivF kvF mu0 q field = V3.cnan := by
  have hne : s.orientation.z = 0 → ¬ (s.orientation.x ≠ 0 ∨ s.orientation.y ≠ 0) → False := fun c h => by
    push Not at h
    exact hs (V3.ext h.1 h.2 c)
  have h0 : s.k mu0 = 0 ∨ Real.sqrt ((q.x - s.location.x) ^ 2 + (q.y - s.location.y) ^ 2) = 0 := by
    rcases hq with h | h
    · left
      have e : Complex.sqrt 0 = 0 := by simp [Complex.sqrt]
      simp [HalfDipole.k, h, e]
    · right
      obtain ⟨hx, hy⟩ := Prod.mk.injEq _ _ _ _ ▸ h
      simp [hx, hy]
  have hIK (n : ℕ) (hn : 0 < n) : ivF n (PyComplex.fin 0) * kvF n (PyComplex.fin 0) = PyComplex.nan := by
    rw [hi n hn]
    exact zero_mul_infinite (hk n)
  unfold HalfDipole.magneticFieldF halfEmF
  have ho2 : 0 ≤ (q.x - s.location.x) ^ 2 + (q.y - s.location.y) ^ 2 := by positivity
  simp only [V3.sub_x, V3.sub_y]
  generalize q.x - s.location.x = x at *
  generalize q.y - s.location.y = y at *
  simp only [fin_pow, fin_add_fin, PyFloat.sqrt_fin ho2, fin_mul_fin, neg_fin]
  generalize Real.sqrt (x ^ 2 + y ^ 2) = r at *
  generalize s.k mu0 = k at *
  have ha : Complex.I * k * (r : ℂ) / ((2 : ℝ) : ℂ) = 0 := by rcases h0 with h | h <;> simp [h]
  have h2 : ((2 : ℝ) : ℂ) ≠ 0 := by norm_num
  have hkr (m n : ℕ) : k ^ (m + 1) * ((r ^ (n + 1) : ℝ) : ℂ) = 0 := by rcases h0 with h | h <;> simp [h]
  have e1 (a : ℝ) (b : PyComplex) : PyComplex.fin (a : ℂ) / PyComplex.fin 0 * b = PyComplex.nan := by
    rw [PyComplex.fin_div_zero, Complex.ofReal_im, PyFloat.zero_div_zero, PyComplex.nan_im_mul]
  simp only [PyComplex.ofFloat_fin, PyComplex.neg_fin, PyComplex.fin_pow, PyComplex.fin_mul_fin, PyComplex.fin_div_fin h2, ha, hIK 1 one_pos, hIK 2 two_pos,
    hkr 1 3, hkr 1 4, e1, PyComplex.nan_sub, PyComplex.mul_nan, PyComplex.add_nan]
  have fin_case (v : V3 PyComplex) (hv : v = V3.cnan) (w : V3 PyComplex) :
      (if field = "secondary" then v - w else v).map (fun c => PyComplex.ofFloat (fin s.moment / fin (4 * Real.pi)) * c) = V3.cnan := by
    split_ifs <;> simp only [hv, V3.cnan, V3.map, V3.sub_x, V3.sub_y, V3.sub_z, PyComplex.nan_sub, PyComplex.mul_nan]
  refine fin_case _ ?_ _
  by_cases hxy : s.orientation.x ≠ 0 ∨ s.orientation.y ≠ 0
  · rw [if_pos hxy]
    by_cases hy : s.orientation.y ≠ 0
    · simp only [if_pos hy, PyComplex.sub_nan, V3.cnan]
    · have hx : s.orientation.x ≠ 0 := hxy.resolve_right hy
      simp only [if_neg hy, if_pos hx, PyComplex.sub_nan, V3.cnan]
  · rw [if_neg hxy, if_pos fun c => hne c hxy]
    simp only [V3.ext_iff, V3.add_x, V3.add_y, V3.add_z, PyComplex.add_nan, V3.cnan, and_self]

/-! ## Over layers -/

theorem transformF_fin (filter : List Tap) (f : Tap → ℂ) : transformF filter (fun t => PyComplex.fin (f t)) = PyComplex.fin (transform filter f) := by
  induction filter with
  | nil => rfl
  | cons t l ih =>
    have e : transformF (t :: l) (fun t => PyComplex.fin (f t)) = PyComplex.fin (f t) + transformF l (fun t => PyComplex.fin (f t)) := rfl
    rw [e, ih, PyComplex.fin_add_fin]
    simp [transform]

theorem transformF_nan {filter : List Tap} (hf : filter ≠ []) {f : Tap → PyComplex} (h : ∀ t ∈ filter, f t = PyComplex.nan) :
    transformF filter f = PyComplex.nan := by
  cases filter with
  | nil => exact absurd rfl hf
  | cons t l =>
    have e : transformF (t :: l) f = f t + transformF l f := rfl
    rw [e, h t (by simp), PyComplex.nan_add]

theorem transformF_congr {filter : List Tap} {f g : Tap → PyComplex} (h : ∀ t ∈ filter, f t = g t) : transformF filter f = transformF filter g := by
  unfold transformF
  rw [List.map_congr_left h]

theorem coefficientsF_fin (src : V3 ℝ) (x y l : ℝ) {o : ℝ} (ho : o ≠ 0) :
    coefficientsF src (fin x) (fin y) (fin o) (fin l) = (fl (coefficients src x y o l).1, fl (coefficients src x y o l).2) := by
  unfold coefficientsF coefficients
  split_ifs <;>
    simp only [fl, V3.map, V3.add_x, V3.add_y, V3.add_z, V3.zero_x, V3.zero_y, V3.zero_z, fin_pow, fin_mul_fin, fin_add_fin, fin_sub_fin,
      fin_div_fin ho, fin_div_fin (pow_ne_zero _ ho), add_zero, sub_eq_add_neg]

/-- **C110.** Off the vertical line through the source the field of a dipole over layers is finite. -/
theorem LayeredDipole.finite_off {filter : List Tap} {mu0 : ℝ} {reflection : PyFloat → PyComplex} {s : LayeredDipole}
    (hr : ∀ l : ℝ, reflection (fin l) = PyComplex.fin (s.rTE mu0 l)) (q : V3 ℝ) (hq : (q.x, q.y) ≠ (s.location.x, s.location.y)) (field : String) :
    s.fieldAtF filter reflection q field = cfl (s.fieldAt filter mu0 q field) := by
  have ho2 : 0 < (q - s.location).x ^ 2 + (q - s.location).y ^ 2 := by
    rw [V3.sub_x, V3.sub_y]
    by_cases hx : q.x = s.location.x
    · have hy : q.y - s.location.y ≠ 0 := fun e => hq (by rw [hx, sub_eq_zero.1 e])
      positivity
    · have hx' : q.x - s.location.x ≠ 0 := sub_ne_zero.2 hx
      positivity
  have ho : Real.sqrt ((q - s.location).x ^ 2 + (q - s.location).y ^ 2) ≠ 0 := (Real.sqrt_pos.2 ho2).ne'
  have hoc := Complex.ofReal_ne_zero.2 ho
  have hl : (q - s.location).len ≠ 0 := V3.len_sub_ne_zero fun e => hq (by rw [e])
  have h4 : (4 : ℝ) * Real.pi ≠ 0 := by positivity
  unfold LayeredDipole.fieldAtF LayeredDipole.fieldAt
  simp only [fl_sub, norm_fl]
  rw [show (fl (q - s.location)).x = fin (q - s.location).x from rfl, show (fl (q - s.location)).y = fin (q - s.location).y from rfl,
    show (fl (q - s.location)).z = fin (q - s.location).z from rfl]
  simp only [fin_pow, fin_add_fin, PyFloat.sqrt_fin ho2.le]
  generalize Real.sqrt ((q - s.location).x ^ 2 + (q - s.location).y ^ 2) = o at *
  simp only [fin_div_fin ho, coefficientsF_fin _ _ _ _ ho, hr, neg_fin, fin_mul_fin, PyFloat.exp_fin, PyComplex.ofFloat_fin, PyComplex.fin_mul_fin]
  have ec (v : V3 ℝ) : (fl v).x = fin v.x ∧ (fl v).y = fin v.y ∧ (fl v).z = fin v.z := ⟨rfl, rfl, rfl⟩
  simp only [ec, PyComplex.ofFloat_fin, PyComplex.fin_mul_fin, transformF_fin, PyComplex.fin_add_fin, PyComplex.fin_div_fin hoc, fin_add_fin, fin_mul_fin, fin_div_fin h4,
    fin_div_fin (pow_ne_zero _ hl), fin_sub_fin]
  split_ifs
  · simp only [cfl, V3.map, V3.add_x, V3.add_y, V3.add_z, V3.smul_x, V3.smul_y, V3.smul_z, smul_eq_mul, PyComplex.ofFloat_fin, PyComplex.fin_add_fin,
      PyComplex.fin_mul_fin]
  · simp only [cfl, V3.map, V3.smul_x, V3.smul_y, V3.smul_z, smul_eq_mul, PyComplex.fin_mul_fin]

theorem coefficientsF_axis {src : V3 ℝ} (h : src ≠ 0) {C : V3 PyFloat × V3 PyFloat} (hC : C = coefficientsF src (fin 0) (fin 0) (fin 0) .pinf) :
    (C.1.x = .nan ∨ C.2.x = .nan) ∧ (C.1.y = .nan ∨ C.2.y = .nan) ∧ (C.2.z = .nan ∨ ¬ C.1.z.Finite) := by
  have e3 : (0 : ℝ) ^ 3 = 0 := by norm_num
  have e2 : (0 : ℝ) ^ 2 = 0 := by norm_num
  have hp : PyFloat.pinf ^ 2 = .pinf := PyFloat.pinf_pow 1
  have hne : src.x = 0 → src.y = 0 → src.z ≠ 0 := fun a b c => h (V3.ext a b c)
  have hz : ¬ (fin 0 + fin src.z * .pinf).Finite := by
    have := PyFloat.fin_mul_pinf src.z
    intro hh
    cases hk : fin src.z * PyFloat.pinf with
    | fin y => exact this (hk ▸ PyFloat.finite_fin y)
    | _ => rw [hk] at hh; obtain ⟨y, hy⟩ := hh; cases hy
  subst hC
  unfold coefficientsF
  by_cases hx : src.x = 0 <;> by_cases hy : src.y = 0 <;> by_cases hzz : src.z = 0
  all_goals try exact absurd hzz (hne hx hy)
  all_goals
    simp only [hx, hy, hzz, ne_eq, not_true_eq_false, not_false_eq_true, if_true, if_false, fin_pow, fin_mul_fin, e2, e3, mul_zero, PyFloat.zero_div_zero,
      PyFloat.nan_mul, PyFloat.mul_nan, PyFloat.add_nan, PyFloat.sub_nan, true_or, or_true, and_self, hp, reduceCtorEq, hz]

theorem mul_zero_cases (w : PyComplex) : w * PyComplex.ofFloat (fin 0) = PyComplex.fin 0 ∨ w * PyComplex.ofFloat (fin 0) = PyComplex.nan := by
  have key (x : PyFloat) : x * fin 0 = fin 0 ∨ x * fin 0 = .nan := by
    cases x
    · left; rw [fin_mul_fin, mul_zero]
    · right; exact PyFloat.pinf_mul_zero
    · right; exact PyFloat.ninf_mul_zero
    · right; exact PyFloat.nan_mul _
  have e : w * PyComplex.ofFloat (fin 0) = ⟨w.re * fin 0 - w.im * fin 0, w.re * fin 0 + w.im * fin 0⟩ := rfl
  rw [e]
  rcases key w.re with h1 | h1 <;> rcases key w.im with h2 | h2
  · left
    rw [h1, h2, fin_sub_fin, fin_add_fin, sub_zero, add_zero]
    rfl
  all_goals
    right
    simp only [h1, h2, PyFloat.nan_add, PyFloat.nan_sub, PyFloat.add_nan, PyFloat.sub_nan, PyComplex.nan]

theorem infinite_mul_zero {x : PyFloat} (h : ¬ x.Finite) : PyComplex.ofFloat x * PyComplex.fin 0 = PyComplex.nan := by
  have e : PyComplex.ofFloat x * PyComplex.fin 0 = ⟨x * fin 0 - fin 0 * fin 0, x * fin 0 + fin 0 * fin 0⟩ := rfl
  have hx : x * fin 0 = .nan := by
    cases x
    · exact absurd (PyFloat.finite_fin _) h
    · exact PyFloat.pinf_mul_zero
    · exact PyFloat.ninf_mul_zero
    · exact PyFloat.nan_mul _
  rw [e, hx, PyFloat.nan_sub, PyFloat.nan_add]
  rfl

/-- **C110.** On the vertical line through the source it is not a number, whatever the layers, the source and the height are. -/
theorem LayeredDipole.nan_above {filter : List Tap} (hf : filter ≠ []) (hb : ∀ t ∈ filter, 0 < t.base) (reflection : PyFloat → PyComplex) (s : LayeredDipole)
    (hs : s.orientation ≠ 0) (q : V3 ℝ) (hq : (q.x, q.y) = (s.location.x, s.location.y)) (hz : 0 ≤ q.z + s.location.z) (field : String) :
    s.fieldAtF filter reflection q field = V3.cnan := by
  obtain ⟨hx, hy⟩ := Prod.mk.injEq _ _ _ _ ▸ hq
  have dx : (fl (q - s.location)).x = fin 0 := by simp [fl, V3.map, hx]
  have dy : (fl (q - s.location)).y = fin 0 := by simp [fl, V3.map, hy]
  have ho : PyFloat.sqrt (fin 0 ^ 2 + fin 0 ^ 2) = fin 0 := by
    rw [fin_pow, fin_add_fin, PyFloat.sqrt_fin (by norm_num)]
    norm_num
  have hl (t : Tap) (ht : t ∈ filter) : fin t.base / fin 0 = .pinf := PyFloat.fin_div_zero_pos (hb t ht)
  obtain ⟨c1, c2, c3⟩ := coefficientsF_axis hs rfl
  have hR : (reflection .pinf * PyComplex.ofFloat (PyFloat.exp (-.pinf * (fin q.z + fin s.location.z))) = PyComplex.fin 0) ∨
      (reflection .pinf * PyComplex.ofFloat (PyFloat.exp (-.pinf * (fin q.z + fin s.location.z))) = PyComplex.nan) := by
    rw [PyFloat.neg_pinf, fin_add_fin]
    rcases hz.eq_or_lt with h | h
    · right
      rw [← h, PyFloat.ninf_mul_zero]
      exact PyComplex.mul_ofFloat_nan _
    · rw [PyFloat.ninf_mul_pos h, PyFloat.exp_ninf]
      exact mul_zero_cases _
  have hone {F G : Tap → PyComplex} (h : (∀ t ∈ filter, F t = .nan) ∨ (∀ t ∈ filter, G t = .nan)) :
      (transformF filter F + transformF filter G) / PyComplex.ofFloat (fin 0) = .nan := by
    rcases h with h | h
    · rw [transformF_nan hf h, PyComplex.nan_add, PyComplex.nan_div]
    · rw [transformF_nan hf h, PyComplex.add_nan, PyComplex.nan_div]
  unfold LayeredDipole.fieldAtF
  simp only [fl_sub, dx, dy, ho]
  rw [hone, hone, hone]
  · split_ifs
    · simp only [V3.map, V3.add_x, V3.add_y, V3.add_z, PyComplex.nan_add, PyComplex.mul_nan, V3.cnan]
    · simp only [V3.map, PyComplex.mul_nan, V3.cnan]
  · rcases c3 with c | c
    · right; intro t ht
      simp only [hl t ht, c, PyComplex.ofFloat_nan_mul]
      exact PyComplex.nan_mul _
    · left; intro t ht
      simp only [hl t ht]
      rcases hR with e | e
      · rw [e, infinite_mul_zero c, PyComplex.nan_mul]
      · rw [e, PyComplex.mul_nan, PyComplex.nan_mul]
  · rcases c2 with c | c
    · left; intro t ht
      simp only [hl t ht, c, PyComplex.ofFloat_nan_mul]
      exact PyComplex.nan_mul _
    · right; intro t ht
      simp only [hl t ht, c, PyComplex.ofFloat_nan_mul]
      exact PyComplex.nan_mul _
  · rcases c1 with c | c
    · left; intro t ht
      simp only [hl t ht, c, PyComplex.ofFloat_nan_mul]
      exact PyComplex.nan_mul _
    · right; intro t ht
      simp only [hl t ht, c, PyComplex.ofFloat_nan_mul]
      exact PyComplex.nan_mul _

/-- A vertical dipole one metre above a half-space: NaN three metres above it, at its side a number. -/
example (s : LayeredDipole) (hs : s.location = ⟨0, 0, 1⟩) (ho : s.orientation = ⟨0, 0, 1⟩) (reflection : PyFloat → PyComplex) :
    s.fieldAtF [⟨1, 1, 1⟩] reflection ⟨0, 0, 4⟩ "secondary" = V3.cnan :=
  LayeredDipole.nan_above (by simp) (by simp) _ _ (by simp [ho, V3.ext_iff]) _ (by simp [hs]) (by norm_num [hs]) _

example (s : LayeredDipole) (mu0 : ℝ) (hs : s.location = ⟨0, 0, 1⟩) : ∃ reflection, ∃ v : V3 ℂ,
    s.fieldAtF [⟨1, 1, 1⟩] reflection ⟨1, 0, 4⟩ "secondary" = cfl v := by
  refine ⟨fun l => match l with
    | .fin x => PyComplex.fin (s.rTE mu0 x)
    | _ => PyComplex.nan, _, LayeredDipole.finite_off (mu0 := mu0) (fun _ => rfl) _ ?_ _⟩
  simp [hs]

end Verif.Fdem
