import Verif.Model.StartValues
import Verif.Props.SpecialValues

/-!
# C109: the transient fields at time zero

The setter of `time` accepts zero.  For positive times the results are finite off the source; at zero the vector potential of the dipole and the
field at the centre of a loop are those of the steady current, everything else is not a number.
-/

namespace Verif.Tdem

open PyFloat

theorem thetaF_pos {t sigma mu : ℝ} (ht : 0 < t) (hs : 0 < sigma) (hm : 0 < mu) : thetaF t sigma mu = fin (theta t sigma mu) := by
  simp only [thetaF, fin_mul_fin]
  rw [fin_div_fin (by positivity), sqrt_fin (by positivity)]
  rfl

theorem thetaF_zero {sigma mu : ℝ} (hs : 0 < sigma) (hm : 0 < mu) : thetaF 0 sigma mu = pinf := by
  simp only [thetaF, fin_mul_fin, mul_zero]
  rw [fin_div_zero_pos (by positivity), sqrt_pinf]

theorem root_pi_ne : Real.sqrt Real.pi ≠ 0 := (Real.sqrt_pos.2 Real.pi_pos).ne'

theorem four_pi_mul_ne {r : ℝ} (h : r ≠ 0) : 4 * Real.pi * r ≠ 0 := by positivity

/-- **C109.** After the start the fields of a transient electric dipole are finite off the dipole. -/
theorem ElectricDipole.finite_later (s : ElectricDipole) (ht : 0 < s.time) (hs : 0 < s.sigma) (hm : 0 < s.mu) (q : V3 ℝ) (hq : q ≠ s.location) :
    s.vectorPotentialF q = fl (s.vectorPotential q) ∧ s.electricFieldF q = fl (s.electricField q) ∧ s.magneticFieldF q = fl (s.magneticField q) ∧
    s.magneticFieldTimeDerivF q = fl (s.magneticFieldTimeDeriv q) := by
  have h' := V3.len_sub_ne_zero hq
  have hd : 4 * Real.pi * s.sigma * (q - s.location).len ^ 3 ≠ 0 := by positivity
  have hdt : Real.sqrt Real.pi * s.time ≠ 0 := mul_ne_zero root_pi_ne ht.ne'
  refine ⟨?_, ?_, ?_, ?_⟩
  · simp only [ElectricDipole.vectorPotentialF, fl_sub, norm_fl, thetaF_pos ht hs hm]
    simp only [fl, V3.map, fin_mul_fin, erf_fin, fin_div_fin (four_pi_mul_ne h')]
    rfl
  · simp only [ElectricDipole.electricFieldF, fl_sub, norm_fl, fl_map_div h', thetaF_pos ht hs hm]
    simp only [fl, V3.map, V3.ext_iff, V3.sub_x, V3.sub_y, V3.sub_z, V3.dot, fin_mul_fin, fin_add_fin, fin_sub_fin, fin_pow, neg_fin, erf_fin, exp_fin,
      fin_div_fin root_pi_ne, fin_div_fin hd]
    exact ⟨rfl, rfl, rfl⟩
  · simp only [ElectricDipole.magneticFieldF, fl_sub, norm_fl, fl_map_div h', thetaF_pos ht hs hm]
    simp only [fl, V3.map, V3.cross, fin_mul_fin, fin_sub_fin, fin_pow, neg_fin, erf_fin, exp_fin,
      fin_div_fin root_pi_ne, fin_div_fin (Static.four_pi_pow_ne h' 2)]
    rfl
  · simp only [ElectricDipole.magneticFieldTimeDerivF, fl_sub, norm_fl, fl_map_div h', thetaF_pos ht hs hm]
    simp only [fl, V3.map, V3.cross, fin_mul_fin, fin_sub_fin, fin_pow, neg_fin, exp_fin, fin_div_fin hdt,
      fin_div_fin (Static.four_pi_pow_ne h' 2)]
    rfl

/-- **C109.** At time zero the vector potential of a transient electric dipole is that of the steady current element; electric and magnetic field
and the rate of change are not numbers. -/
theorem ElectricDipole.at_start_partial (s : ElectricDipole) (ht : s.time = 0) (hs : 0 < s.sigma) (hm : 0 < s.mu) (q : V3 ℝ) (hq : q ≠ s.location) :
    s.vectorPotentialF q = fl ((s.current * s.length / (4 * Real.pi * (q - s.location).len)) • s.orientation) ∧
    s.electricFieldF q = V3.nan ∧ s.magneticFieldF q = V3.nan ∧ s.magneticFieldTimeDerivF q = V3.nan := by
  have h' := V3.len_sub_ne_zero hq
  have hp := V3.len_sub_pos hq
  have hd : 4 * Real.pi * s.sigma * (q - s.location).len ^ 3 ≠ 0 := by positivity
  have hr := Real.sqrt_pos.2 Real.pi_pos
  refine ⟨?_, ?_, ?_, ?_⟩
  · simp only [ElectricDipole.vectorPotentialF, fl_sub, norm_fl, ht, thetaF_zero hs hm, pinf_mul_pos hp, erf_pinf]
    simp only [fl, V3.map, fin_mul_fin, fin_div_fin (four_pi_mul_ne h'), mul_one, V3.smul_x, V3.smul_y, V3.smul_z, smul_eq_mul]
  · simp only [ElectricDipole.electricFieldF, fl_sub, norm_fl, fl_map_div h', ht, thetaF_zero hs hm, pinf_mul_pos hp, erf_pinf, pinf_pow, neg_pinf, exp_ninf,
      pinf_div_pos hr.le, pinf_mul_zero, mul_nan, sub_nan]
    simp only [V3.map, V3.nan, V3.sub_x, V3.sub_y, V3.sub_z, nan_mul, nan_sub, mul_nan]
  · simp only [ElectricDipole.magneticFieldF, fl_sub, norm_fl, fl_map_div h', ht, thetaF_zero hs hm, pinf_mul_pos hp, erf_pinf, pinf_pow, neg_pinf, exp_ninf,
      fin_div_fin root_pi_ne, pos_mul_pinf (div_pos two_pos hr), pinf_mul_zero, sub_nan, mul_nan, nan_mul]
    rfl
  · have e : fin (-2) * pinf = ninf := by
      change PyFloat.mul (fin (-2)) pinf = ninf
      norm_num [PyFloat.mul]
    have e2 : ninf / fin 0 = ninf := by norm_num [div_def, npDiv]
    have e3 : ninf * fin 0 = nan := by
      change PyFloat.mul ninf (fin 0) = nan
      norm_num [PyFloat.mul]
    simp only [ElectricDipole.magneticFieldTimeDerivF, fl_sub, norm_fl, fl_map_div h', ht, thetaF_zero hs hm, pinf_mul_pos hp, pinf_pow, neg_pinf, exp_ninf,
      e, fin_mul_fin, mul_zero, e2, e3, mul_nan, nan_mul]
    rfl

/-- **C109.** After the start the transient plane wave is finite everywhere; at time zero it is not a number anywhere below the surface, where
nothing has arrived yet. -/
theorem PlaneWave.start_partial (s : PlaneWave) (hs : 0 < s.sigma) (hm : 0 < s.mu) (q : V3 ℝ) :
    (0 < s.time → s.electricFieldF q = fl (s.electricField q) ∧ s.magneticFluxDensityF q = fl (s.magneticFluxDensity q)) ∧
    (s.time = 0 → q.z ≠ 0 → s.electricFieldF q = V3.nan ∧ s.magneticFluxDensityF q = V3.nan) := by
  constructor
  · intro ht
    have h1 : 4 * s.time ≠ 0 := by positivity
    have h2 : 2 * Real.pi ^ (0.5 : ℝ) * s.time ^ (1.5 : ℝ) ≠ 0 := by positivity
    have h3 : Real.pi * s.time ≠ 0 := by positivity
    have h4 : 0 ≤ s.sigma * s.mu / (Real.pi * s.time) := by positivity
    constructor
    · simp only [PlaneWave.electricFieldF, fl, V3.map, fin_mul_fin, fin_pow, neg_fin, fin_div_fin h1, exp_fin, fin_div_fin h2, PlaneWave.electricField]
    · simp only [PlaneWave.magneticFluxDensityF, fl, V3.map, V3.cross, fin_mul_fin, fin_sub_fin, fin_pow, neg_fin, fin_div_fin h1, exp_fin, fin_div_fin h3,
        sqrt_fin h4, PlaneWave.magneticFluxDensity]
  · intro ht hz
    have hp : 0 < s.mu * s.sigma * q.z ^ 2 := by positivity
    have hn : -s.mu * s.sigma * q.z ^ 2 < 0 := by linarith
    have hsm : 0 < s.sigma * s.mu := mul_pos hs hm
    constructor
    · simp only [PlaneWave.electricFieldF, ht, fin_mul_fin, fin_pow, neg_fin, mul_zero, fin_div_zero_neg (neg_neg_of_pos hp), exp_ninf]
      rw [Real.zero_rpow (by norm_num), mul_zero, zero_div_zero]
      simp only [V3.map, mul_nan, V3.nan]
    · have e : fin (-s.amplitude) * pinf * fin 0 = nan := by
        change PyFloat.mul (PyFloat.mul (fin (-s.amplitude)) pinf) (fin 0) = nan
        simp only [PyFloat.mul]
        split_ifs <;> simp
      simp only [PlaneWave.magneticFluxDensityF, ht, fin_mul_fin, fin_pow, neg_fin, mul_zero, fin_div_zero_neg hn, exp_ninf,
        fin_div_zero_pos hsm, sqrt_pinf, e, V3.map, mul_nan, V3.nan]

/-- **C109.** The field at the centre of a transient loop is finite from time zero on, where it is that of the steady current. -/
theorem loop_start (t sigma mu radius current turns : ℝ) (hs : 0 < sigma) (hm : 0 < mu) (ha : 0 < radius) :
    (0 < t → loopFieldF t sigma mu radius current turns = fin (loopField t sigma mu radius current turns)) ∧
    loopFieldF 0 sigma mu radius current turns = fin (turns * current / (2 * radius)) := by
  have hr := Real.sqrt_pos.2 Real.pi_pos
  have h2 : (2 : ℝ) * radius ≠ 0 := by positivity
  constructor
  · intro ht
    have hth : 0 < theta t sigma mu := Real.sqrt_pos.2 (by positivity)
    have h1 : Real.sqrt Real.pi * (theta t sigma mu * radius) ≠ 0 := by positivity
    have h3 : 2 * (theta t sigma mu * radius) ^ 2 ≠ 0 := by positivity
    simp only [loopFieldF, thetaF_pos ht hs hm, one_def, fin_mul_fin, fin_pow, neg_fin, exp_fin, erf_fin, fin_add_fin, fin_sub_fin, fin_div_fin h1,
      fin_div_fin h3, fin_div_fin h2, loopField]
  · simp only [loopFieldF, thetaF_zero hs hm, one_def, pinf_mul_pos ha, pos_mul_pinf hr, pos_mul_pinf two_pos, pinf_pow, neg_pinf, exp_ninf, erf_pinf, fin_div_pinf,
      fin_mul_fin, fin_add_fin, fin_sub_fin, fin_div_fin h2, PyFloat.fin.injEq]
    ring

/-- **C109.** Its rate of change is finite after the start and not a number at time zero. -/
theorem loop_rate_partial (t sigma mu radius current turns : ℝ) (hs : 0 < sigma) (hm : 0 < mu) (ha : 0 < radius) :
    (0 < t → loopFluxTimeDerivF t sigma mu radius current turns = fin (loopFluxTimeDeriv t sigma mu radius current turns)) ∧
    loopFluxTimeDerivF 0 sigma mu radius current turns = .nan := by
  have hr := Real.sqrt_pos.2 Real.pi_pos
  have h2 : sigma * radius ^ 3 ≠ 0 := by positivity
  constructor
  · intro ht
    simp only [loopFluxTimeDerivF, thetaF_pos ht hs hm, fin_mul_fin, fin_pow, neg_fin, exp_fin, erf_fin, fin_add_fin, fin_sub_fin, fin_div_fin root_pi_ne,
      fin_div_fin h2, loopFluxTimeDeriv]
  · simp only [loopFluxTimeDerivF, thetaF_zero hs hm, pinf_mul_pos ha, pos_mul_pinf two_pos, pinf_pow, neg_pinf, exp_ninf, pinf_div_pos hr.le, fin_add_pinf,
      show pinf * pinf = pinf from rfl, pinf_mul_zero, sub_nan, mul_nan]

/-- **C109.** The fields of a vertical dipole on a half-space are finite after the start off the dipole, and not numbers at time zero. -/
theorem dipole_start_partial (t x y sigma mu moment : ℝ) (hs : 0 < sigma) (hm : 0 < mu) (h : (x, y) ≠ (0, 0)) :
    (0 < t → dipoleFieldF t x y sigma mu moment = fl (dipoleField t x y sigma mu moment) ∧
      dipoleFieldTimeDerivF t x y sigma mu moment = fl (dipoleFieldTimeDeriv t x y sigma mu moment)) ∧
    dipoleFieldF 0 x y sigma mu moment = V3.nan ∧ dipoleFieldTimeDerivF 0 x y sigma mu moment = V3.nan := by
  have hxy : 0 < x ^ 2 + y ^ 2 := by
    rcases eq_or_ne x 0 with h0 | h0
    · have : y ≠ 0 := fun e => h (by rw [h0, e])
      positivity
    · positivity
  have hr : 0 < Real.sqrt (x ^ 2 + y ^ 2) := Real.sqrt_pos.2 hxy
  have hrp := Real.sqrt_pos.2 Real.pi_pos
  have h4 : (4 : ℝ) * Real.pi ≠ 0 := by positivity
  have h20 : (2 : ℝ) ≠ 0 := two_ne_zero
  refine ⟨fun ht => ?_, ?_, ?_⟩
  · have hth : 0 < theta t sigma mu := Real.sqrt_pos.2 (by positivity)
    have a1 : 2 * (theta t sigma mu * Real.sqrt (x ^ 2 + y ^ 2)) ^ 2 ≠ 0 := by positivity
    have a2 : theta t sigma mu * Real.sqrt (x ^ 2 + y ^ 2) ≠ 0 := by positivity
    have a3 : Real.sqrt (x ^ 2 + y ^ 2) ^ 3 ≠ 0 := by positivity
    have a4 : Real.sqrt (x ^ 2 + y ^ 2) ^ 3 * t ≠ 0 := by positivity
    constructor
    · simp only [dipoleFieldF, thetaF_pos ht hs hm, one_def, fin_pow, fin_add_fin, sqrt_fin hxy.le, fin_mul_fin, neg_fin, exp_fin, erf_fin, fin_sub_fin,
        fin_div_fin a1, fin_div_fin a2, fin_div_fin a3, fin_div_fin root_pi_ne, fin_div_fin h20, iveF, fin_div_fin h4, V3.map, fl, dipoleField, V3.smul_x,
        V3.smul_y, V3.smul_z, smul_eq_mul]
    · simp only [dipoleFieldTimeDerivF, thetaF_pos ht hs hm, one_def, fin_pow, fin_add_fin, sqrt_fin hxy.le, fin_mul_fin, neg_fin, exp_fin, erf_fin, fin_sub_fin,
        fin_div_fin a1, fin_div_fin a2, fin_div_fin a4, fin_div_fin (pow_ne_zero 2 a2), fin_div_fin root_pi_ne, fin_div_fin h20, iveF, fin_div_fin h4, V3.map, fl,
        dipoleFieldTimeDeriv, V3.smul_x, V3.smul_y, V3.smul_z, smul_eq_mul]
  · simp only [dipoleFieldF, thetaF_zero hs hm, fin_pow, fin_add_fin, sqrt_fin hxy.le, pinf_mul_pos hr, pinf_pow, neg_pinf, exp_ninf, fin_div_pinf,
      pos_mul_pinf two_pos, pos_mul_pinf (show (0 : ℝ) < 4 by norm_num), fin_add_pinf, pinf_div_pos hrp.le, pinf_div_pos (pow_pos hr 3).le,
      pinf_div_pos (zero_le_two (α := ℝ)), iveF, fin_sub_fin, sub_zero, pinf_mul_zero, sub_nan, mul_nan, V3.map, V3.nan]
  · simp only [dipoleFieldTimeDerivF, thetaF_zero hs hm, one_def, fin_pow, fin_add_fin, sqrt_fin hxy.le, pinf_mul_pos hr, pinf_pow, neg_pinf, exp_ninf,
      fin_div_pinf, pos_mul_pinf (show (0 : ℝ) < 4 by norm_num), pos_mul_pinf (show (0 : ℝ) < 6 by norm_num), fin_add_pinf, pinf_add_fin,
      show pinf + pinf = pinf from rfl, pinf_div_pos hrp.le, pinf_div_pos (zero_le_two (α := ℝ)), iveF, pinf_mul_zero, sub_nan, mul_nan, V3.map, V3.nan]

/-- A dipole in a medium of one siemens per metre seen from one metre: later a number, at the start none. -/
example : (∃ e, ElectricDipole.electricFieldF ⟨⟨1, 1, 1⟩, ⟨0, 0, 0⟩, ⟨1, 0, 0⟩, 1, 1⟩ ⟨0, 1, 0⟩ = fl e) ∧
    ElectricDipole.electricFieldF ⟨⟨0, 1, 1⟩, ⟨0, 0, 0⟩, ⟨1, 0, 0⟩, 1, 1⟩ ⟨0, 1, 0⟩ = V3.nan :=
  ⟨⟨_, (ElectricDipole.finite_later _ one_pos one_pos one_pos _ (by simp [V3.ext_iff])).2.1⟩,
    (ElectricDipole.at_start_partial _ rfl one_pos one_pos _ (by simp [V3.ext_iff])).2.1⟩

end Verif.Tdem
