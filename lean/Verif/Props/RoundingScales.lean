import Verif.Lemmas.RoundedPieces
import Verif.Model.RoundedScales

/-!
# C163: scales and totals to a few units in the last place
-/

namespace Verif.Rounded

variable {u : ℝ} (F : Arith u)

/-- With exact operations these are the modelled formulas. -/
theorem scales_exact_operations (f sigma mu epsilon z time : ℝ) (q : Flag) (b : Prism.Box) (s : Prism.GravPrism) (m : Prism.MagPrism) :
    omega Arith.exact f = Fdem.omega f ∧ skinDepth Arith.exact f sigma mu epsilon q = Fdem.skinDepth f sigma mu epsilon q ∧
    peakTime Arith.exact z sigma mu = Tdem.peakTime z sigma mu ∧
    diffusionDistance Arith.exact time sigma mu = Tdem.diffusionDistance time sigma mu ∧
    theta Arith.exact time sigma mu = Tdem.theta time sigma mu ∧
    Box.volume Arith.exact b = b.volume ∧ Box.location Arith.exact b = b.location ∧ GravPrism.mass Arith.exact s = s.mass ∧
    MagPrism.moment Arith.exact m = m.moment :=
  ⟨rfl, rfl, rfl, rfl, rfl, rfl, rfl, rfl, rfl⟩

variable (hu : 0 ≤ u)
include hu

theorem near_omega (hu1 : u < 1) (f : ℝ) : Near u 3 (Fdem.omega f) (omega F f) :=
  (F.near_mul hu hu1 (F.near_mul hu hu1 (Near.refl 2) (F.near_const hu hu1 Real.pi)) (Near.refl f)).mono hu hu1 (by norm_num)

/-- **C163.** Scales in frequency and time: angular frequency, quasistatic skin depth, peak time, diffusion distance and its reciprocal. -/
theorem scales_accurate (h : 4 * u < 1) {f sigma mu time : ℝ} (hf : 0 < f) (hs : 0 < sigma) (hm : 0 < mu) (ht : 0 < time) (z epsilon : ℝ) {q : Flag}
    (hq : q.truthy = true) :
    Accurate u 3 (Fdem.omega f) (omega F f) ∧ Accurate u 4 (Fdem.skinDepth f sigma mu epsilon q) (skinDepth F f sigma mu epsilon q) ∧
    Accurate u 4 (Tdem.peakTime z sigma mu) (peakTime F z sigma mu) ∧
    Accurate u (5 / 2) (Tdem.diffusionDistance time sigma mu) (diffusionDistance F time sigma mu) ∧
    Accurate u (5 / 2) (Tdem.theta time sigma mu) (theta F time sigma mu) := by
  have hu1 : u < 1 := by linarith
  have hw := near_omega F hu hu1 f
  have hw0 : 0 < Fdem.omega f := by unfold Fdem.omega; positivity
  have m1 : ∀ a b : ℝ, Near u 1 (a * b) (F.mul a b) := fun a b => (F.near_mul hu hu1 (Near.refl a) (Near.refl b)).mono hu hu1 (by norm_num)
  refine ⟨hw.accurate hu (by norm_num) (by linarith), ?_, ?_, ?_, ?_⟩
  · simp only [skinDepth, Fdem.skinDepth, hq, if_true]
    have h1 := F.near_mul hu hu1 (F.near_mul hu hu1 hw (Near.refl sigma)) (Near.refl mu)
    have h2 := F.near_sqrt hu hu1 (by positivity) (F.near_div hu hu1 (Near.refl 2) h1 (by positivity))
    exact (h2.mono hu hu1 (by norm_num)).accurate hu (by norm_num) h
  · have h1 := F.near_div hu hu1 (F.near_mul hu hu1 (m1 mu sigma) (F.near_pow hu hu1 (Near.refl z) 2)) (Near.refl 6) (by norm_num)
    exact (h1.mono hu hu1 (by norm_num)).accurate hu (by norm_num) h
  · have h1 := F.near_sqrt hu hu1 (by positivity) (F.near_div hu hu1 (m1 2 time) (m1 mu sigma) (by positivity))
    exact (h1.mono hu hu1 (by norm_num)).accurate hu (by norm_num) (by linarith)
  · have h1 := F.near_sqrt hu hu1 (by positivity) (F.near_div hu hu1 (m1 mu sigma) (m1 4 time) (by positivity))
    exact (h1.mono hu hu1 (by norm_num)).accurate hu (by norm_num) (by linarith)

/-- **C163.** Totals of a prism: volume, centre, mass and moment. -/
theorem totals_accurate (h : 6 * u < 1) (b : Prism.Box) (s : Prism.GravPrism) (m : Prism.MagPrism) :
    Accurate u 5 b.volume (Box.volume F b) ∧ V3.Accurate u 2 b.location (Box.location F b) ∧ Accurate u 6 s.mass (GravPrism.mass F s) ∧
    V3.Accurate u 6 m.moment (MagPrism.moment F m) := by
  have hu1 : u < 1 := by linarith
  have hv : ∀ b : Prism.Box, Near u 5 b.volume (Box.volume F b) := by
    intro b
    obtain ⟨h1, h2, h3⟩ := near_diff F hu hu1 b.max b.min
    exact (F.near_mul hu hu1 (F.near_mul hu hu1 h1 h2) h3).mono hu hu1 (by norm_num)
  have hc : ∀ a c : ℝ, Accurate u 2 (0.5 * (a + c)) (F.mul 0.5 (F.add a c)) := fun a c =>
    ((F.near_mul hu hu1 (Near.refl 0.5) (Near.of_err hu hu1 (F.add_err a c))).mono hu hu1 (by norm_num)).accurate hu (by norm_num) (by linarith)
  have hp : ∀ (b : Prism.Box) (c : ℝ), Accurate u 6 (b.volume * c) (F.mul (Box.volume F b) c) := fun b c =>
    ((F.near_mul hu hu1 (hv b) (Near.refl c)).mono hu hu1 (by norm_num)).accurate hu (by norm_num) h
  exact ⟨(hv b).accurate hu (by norm_num) (by linarith), ⟨hc _ _, hc _ _, hc _ _⟩, hp _ _, ⟨hp _ _, hp _ _, hp _ _⟩⟩

omit hu in
open Classical in
/-- Exact operations, but for sums that are close to one: these are rounded to one. -/
noncomputable def toOne (u : ℝ) (hu : 0 < u) : Arith u where
  add a b := if |1 - (a + b)| ≤ u * |a + b| then 1 else a + b
  sub a b := a - b
  mul a b := a * b
  div a b := a / b
  sqrt := Real.sqrt
  exp := Real.exp
  erf := Verif.erf
  pow a n := a ^ n
  const a := a
  order := 0
  add_err a b := by
    split_ifs with h
    · exact h
    · simp only [sub_self, abs_zero]; positivity
  sub_err a b := by simp only [sub_self, abs_zero]; positivity
  mul_err a b := by simp only [sub_self, abs_zero]; positivity
  div_err a b _ := by simp only [sub_self, abs_zero]; positivity
  sqrt_err a _ := by simp only [sub_self, abs_zero]; positivity
  pow_err a n := by simp only [sub_self, abs_zero]; positivity
  exp_err a := by simp only [sub_self, abs_zero]; positivity
  erf_err a := by simp only [sub_self, abs_zero]; positivity
  const_err a := by simp only [sub_self, abs_zero]; positivity

omit hu in
/-- **C163, the finding.** The skin depth without the quasistatic approximation contains the difference `sqrt(1 + x) - 1`.  Where the conductivity is
small, operations within the allowed errors return zero. -/
theorem skinDepth_loses_accuracy (hu : 0 < u) : ∃ F : Arith u, ∀ f sigma mu epsilon : ℝ, 0 < f → 0 < sigma → 0 < mu → 0 < epsilon →
    sigma ^ 2 ≤ u * (Fdem.omega f * epsilon) ^ 2 → ∀ q : Flag, q.truthy = false →
    skinDepth F f sigma mu epsilon q = 0 ∧ 0 < Fdem.skinDepth f sigma mu epsilon q := by
  refine ⟨toOne u hu, fun f sigma mu epsilon hf hs hm he hx q hq => ?_⟩
  have hw : 0 < Fdem.omega f := by unfold Fdem.omega; positivity
  have hwe : 0 < (Fdem.omega f * epsilon) ^ 2 := by positivity
  have hx0 : 0 < sigma ^ 2 / (Fdem.omega f * epsilon) ^ 2 := by positivity
  have hx1 : sigma ^ 2 / (Fdem.omega f * epsilon) ^ 2 ≤ u := by rw [div_le_iff₀ hwe]; exact hx
  constructor
  · have h1 : |1 - (1 + sigma ^ 2 / (Fdem.omega f * epsilon) ^ 2)| ≤ u * |1 + sigma ^ 2 / (Fdem.omega f * epsilon) ^ 2| := by
      rw [abs_of_pos (show 0 < 1 + sigma ^ 2 / (Fdem.omega f * epsilon) ^ 2 by linarith),
        show 1 - (1 + sigma ^ 2 / (Fdem.omega f * epsilon) ^ 2) = -(sigma ^ 2 / (Fdem.omega f * epsilon) ^ 2) by ring, abs_neg, abs_of_pos hx0]
      nlinarith
    have h2 : (toOne u hu).add 1 (sigma ^ 2 / (Fdem.omega f * epsilon) ^ 2) = 1 := if_pos h1
    have h3 : skinDepth (toOne u hu) f sigma mu epsilon q =
        Real.sqrt (mu * epsilon / 2 * (Real.sqrt ((toOne u hu).add 1 (sigma ^ 2 / (Fdem.omega f * epsilon) ^ 2)) - 1)) / Fdem.omega f := by
      unfold skinDepth
      simp only [hq]
      rfl
    rw [h3, h2]
    simp
  · simp only [Fdem.skinDepth, hq]
    have : 1 < Real.sqrt (1 + sigma ^ 2 / (Fdem.omega f * epsilon) ^ 2) := by
      rw [Real.lt_sqrt (by norm_num)]; linarith
    have h2 : 0 < mu * epsilon / 2 * (Real.sqrt (1 + sigma ^ 2 / (Fdem.omega f * epsilon) ^ 2) - 1) := mul_pos (by positivity) (by linarith)
    simp only [Bool.false_eq_true, if_false]
    exact div_pos (Real.sqrt_pos.2 h2) hw

omit hu in
/-- The hypotheses are met by ice at one gigahertz and in double precision. -/
example : (4 : ℝ) * (1 / 2 ^ 52) < 1 ∧ (6 : ℝ) * (1 / 2 ^ 52) < 1 ∧ (Flag.truthy (.bool true) = true) ∧
    ((1e-10 : ℝ) ^ 2 ≤ 1 / 2 ^ 52 * (Fdem.omega 1e9 * 2.8e-11) ^ 2) := by
  refine ⟨by norm_num, by norm_num, rfl, ?_⟩
  have h : (1 / 10 : ℝ) ≤ Fdem.omega 1e9 * 2.8e-11 := by
    have := Real.two_le_pi
    unfold Fdem.omega
    nlinarith
  calc (1e-10 : ℝ) ^ 2 ≤ 1 / 2 ^ 52 * (1 / 10) ^ 2 := by norm_num
    _ ≤ _ := mul_le_mul_of_nonneg_left (pow_le_pow_left₀ (by norm_num) h 2) (by norm_num)

end Verif.Rounded
