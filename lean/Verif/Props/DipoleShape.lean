import Verif.Model.Gravity
import Verif.Model.StaticWholeSpace
import Verif.Lemmas.Rotation
import Mathlib.Analysis.SpecialFunctions.Trigonometric.Deriv

/-!
# C154: the shape of the field of a dipole, tides, and the strongest field of a ball
-/

namespace Verif

open Real

/-- `a` and `b` have length one and are perpendicular. -/
def Orthonormal (a b : V3 ℝ) : Prop := a.dot a = 1 ∧ b.dot b = 1 ∧ a.dot b = 0

theorem len_of_dot {a : V3 ℝ} (h : a.dot a = 1) : a.len = 1 := by
  rw [V3.len, ← sqrt_one, ← h]
  congr 1
  simp only [V3.dot]
  ring

namespace Static

/-- **C154.** Dipole field at magnetic latitude `l`: the axis of the dipole is `sin l` times the direction `up` to the station plus `cos l` times the direction
`north`.  The part along `up` is `2 K sin l`, that along `north` is `-K cos l`. -/
theorem MagDipole.at_latitude (s : MagDipole) {up north : V3 ℝ} (h : Orthonormal up north) {l r : ℝ} (hr : 0 < r)
    (ho : s.orientation = sin l • up + cos l • north) :
    s.magneticFluxDensity (s.location + r • up) =
      (s.moment * s.mu / (4 * π * r ^ 3)) • ((2 * sin l) • up - cos l • north) := by
  obtain ⟨h1, h2, h3⟩ := h
  have hl := len_of_dot h1
  have e : s.location + r • up - s.location = r • up := by ext <;> simp
  have el : (r • up).len = r := by rw [V3.len_smul, hl, abs_of_pos hr, mul_one]
  have em : (r • up).map (· / r) = up := by
    ext <;> simp only [V3.map, V3.smul_x, V3.smul_y, V3.smul_z, smul_eq_mul] <;> field_simp
  have ed : up.dot s.orientation = sin l := by
    rw [ho]
    simp only [V3.dot, V3.add_x, V3.add_y, V3.add_z, V3.smul_x, V3.smul_y, V3.smul_z, smul_eq_mul] at *
    linear_combination sin l * h1 + cos l * h3
  simp only [MagDipole.magneticFluxDensity, e, el, em, ed]
  rw [ho]
  ext <;> simp only [V3.add_x, V3.add_y, V3.add_z, V3.sub_x, V3.sub_y, V3.sub_z, V3.smul_x, V3.smul_y, V3.smul_z, smul_eq_mul] <;> ring

/-- **C154.** Its strength is `|K| √(1 + 3 sin² l)`: between `|K|` on the equator and `2 |K|` at the poles. -/
theorem MagDipole.strength (s : MagDipole) {up north : V3 ℝ} (h : Orthonormal up north) {l r : ℝ} (hr : 0 < r)
    (ho : s.orientation = sin l • up + cos l • north) :
    (s.magneticFluxDensity (s.location + r • up)).len = |s.moment * s.mu / (4 * π * r ^ 3)| * √(1 + 3 * sin l ^ 2) ∧
    |s.moment * s.mu / (4 * π * r ^ 3)| ≤ (s.magneticFluxDensity (s.location + r • up)).len ∧
    (s.magneticFluxDensity (s.location + r • up)).len ≤ 2 * |s.moment * s.mu / (4 * π * r ^ 3)| := by
  have e : (s.magneticFluxDensity (s.location + r • up)).len = |s.moment * s.mu / (4 * π * r ^ 3)| * √(1 + 3 * sin l ^ 2) := by
    rw [s.at_latitude h hr ho, V3.len_smul]
    congr 1
    obtain ⟨h1, h2, h3⟩ := h
    rw [V3.len]
    congr 1
    simp only [V3.dot, V3.sub_x, V3.sub_y, V3.sub_z, V3.smul_x, V3.smul_y, V3.smul_z, smul_eq_mul] at *
    linear_combination 4 * sin l ^ 2 * h1 + cos l ^ 2 * h2 - 4 * sin l * cos l * h3 + sin_sq_add_cos_sq l
  have hk := abs_nonneg (s.moment * s.mu / (4 * π * r ^ 3))
  refine ⟨e, ?_, ?_⟩
  · rw [e]
    refine le_mul_of_one_le_right hk (one_le_sqrt.2 ?_)
    nlinarith [sq_nonneg (sin l)]
  · rw [e, mul_comm]
    refine mul_le_mul_of_nonneg_right (sqrt_le_iff.2 ⟨two_pos.le, ?_⟩) hk
    nlinarith [sin_sq_le_one l]

/-- **C154.** The dip: the part of the field downwards is `2 tan l` times the part northwards. -/
theorem MagDipole.dip (s : MagDipole) {up north : V3 ℝ} (h : Orthonormal up north) {l r : ℝ} (hr : 0 < r) (hl : cos l ≠ 0)
    (ho : s.orientation = sin l • up + cos l • north) :
    (s.magneticFluxDensity (s.location + r • up)).dot (-up) = 2 * tan l * (s.magneticFluxDensity (s.location + r • up)).dot north := by
  rw [s.at_latitude h hr ho, tan_eq_sin_div_cos]
  obtain ⟨h1, h2, h3⟩ := h
  generalize s.moment * s.mu / (4 * π * r ^ 3) = K
  have a : (K • ((2 * sin l) • up - cos l • north)).dot (-up) = -2 * K * sin l := by
    simp only [V3.dot, V3.sub_x, V3.sub_y, V3.sub_z, V3.smul_x, V3.smul_y, V3.smul_z, smul_eq_mul, V3.neg_x, V3.neg_y, V3.neg_z] at *
    linear_combination (-2 * K * sin l) * h1 + K * cos l * h3
  have b : (K • ((2 * sin l) • up - cos l • north)).dot north = -K * cos l := by
    simp only [V3.dot, V3.sub_x, V3.sub_y, V3.sub_z, V3.smul_x, V3.smul_y, V3.smul_z, smul_eq_mul] at *
    linear_combination (2 * K * sin l) * h3 - K * cos l * h2
  rw [a, b]
  field_simp

/-- The point at latitude `l` of the field line that crosses the equator in the direction `e` at the distance `L`. -/
noncomputable def fieldLine (c e u : V3 ℝ) (L l : ℝ) : V3 ℝ := c + (L * cos l ^ 2) • (cos l • e + sin l • u)

/-- **C154.** The field lines of a dipole are the curves `r = L cos² l`: the field is everywhere tangent to them. -/
theorem MagDipole.field_lines (s : MagDipole) {e : V3 ℝ} (h : Orthonormal e s.orientation) (hm : s.moment * s.mu ≠ 0) {L l : ℝ} (hL : 0 < L)
    (hl : 0 < cos l) :
    ∃ k : ℝ, k ≠ 0 ∧
      HasDerivAt (fun t => (fieldLine s.location e s.orientation L t).x) (k * (s.magneticFluxDensity (fieldLine s.location e s.orientation L l)).x) l ∧
      HasDerivAt (fun t => (fieldLine s.location e s.orientation L t).y) (k * (s.magneticFluxDensity (fieldLine s.location e s.orientation L l)).y) l ∧
      HasDerivAt (fun t => (fieldLine s.location e s.orientation L t).z) (k * (s.magneticFluxDensity (fieldLine s.location e s.orientation L l)).z) l := by
  obtain ⟨h1, h2, h3⟩ := h
  have hr : 0 < L * cos l ^ 2 := by positivity
  have sc := sin_sq_add_cos_sq l
  have hon : Orthonormal (cos l • e + sin l • s.orientation) (cos l • s.orientation - sin l • e) := by
    simp only [Orthonormal, V3.dot, V3.add_x, V3.add_y, V3.add_z, V3.sub_x, V3.sub_y, V3.sub_z, V3.smul_x, V3.smul_y, V3.smul_z, smul_eq_mul] at *
    refine ⟨?_, ?_, ?_⟩
    · linear_combination cos l ^ 2 * h1 + sin l ^ 2 * h2 + 2 * sin l * cos l * h3 + sc
    · linear_combination sin l ^ 2 * h1 + cos l ^ 2 * h2 - 2 * sin l * cos l * h3 + sc
    · linear_combination (-sin l * cos l) * h1 + sin l * cos l * h2 + (cos l ^ 2 - sin l ^ 2) * h3
  have ho : s.orientation = sin l • (cos l • e + sin l • s.orientation) + cos l • (cos l • s.orientation - sin l • e) := by
    ext <;> simp only [V3.add_x, V3.add_y, V3.add_z, V3.sub_x, V3.sub_y, V3.sub_z, V3.smul_x, V3.smul_y, V3.smul_z, smul_eq_mul]
    · linear_combination -s.orientation.x * sc
    · linear_combination -s.orientation.y * sc
    · linear_combination -s.orientation.z * sc
  have hB := s.at_latitude hon hr ho
  have hK : s.moment * s.mu / (4 * π * (L * cos l ^ 2) ^ 3) ≠ 0 := div_ne_zero hm (by positivity)
  refine ⟨-(L * cos l) / (s.moment * s.mu / (4 * π * (L * cos l ^ 2) ^ 3)), div_ne_zero (by simp [hL.ne', hl.ne']) hK, ?_⟩
  rw [show fieldLine s.location e s.orientation L l = s.location + (L * cos l ^ 2) • (cos l • e + sin l • s.orientation) from rfl, hB]
  generalize s.moment * s.mu / (4 * π * (L * cos l ^ 2) ^ 3) = K at *
  have key : ∀ c a b : ℝ, HasDerivAt (fun t => c + L * cos t ^ 2 * (cos t * a + sin t * b))
      (-(L * cos l) / K * (K * (2 * sin l * (cos l * a + sin l * b) - cos l * (cos l * b - sin l * a)))) l := fun c a b => by
    have hd := (((hasDerivAt_cos l).pow 2).const_mul L).mul (((hasDerivAt_cos l).mul_const a).add ((hasDerivAt_sin l).mul_const b))
    refine (hd.const_add c).congr_deriv ?_
    simp only [Pi.pow_apply, Pi.add_apply]
    field_simp
    push_cast
    ring
  exact ⟨key _ _ _, key _ _ _, key _ _ _⟩

end Static

namespace Gravity

/-- **C154.** Tides: towards the mass and away from it the field stretches, and in every perpendicular direction it compresses half as much. -/
theorem PointMass.tides (s : PointMass) {up side : V3 ℝ} (h : Orthonormal up side) {r : ℝ} (hr : 0 < r) :
    (s.gravitationalGradient (s.location + r • up)).mulVec up = (2 * (G * s.mass / r ^ 3)) • up ∧
    (s.gravitationalGradient (s.location + r • up)).mulVec side = (-(G * s.mass / r ^ 3)) • side := by
  obtain ⟨h1, h2, h3⟩ := h
  have hl := len_of_dot h1
  have e : s.location + r • up - s.location = r • up := by ext <;> simp
  have el : (r • up).len = r := by rw [V3.len_smul, hl, abs_of_pos hr, mul_one]
  have em : (r • up).map (· / r) = up := by
    ext <;> simp only [V3.map, V3.smul_x, V3.smul_y, V3.smul_z, smul_eq_mul] <;> field_simp
  simp only [PointMass.gravitationalGradient, e, el, em]
  simp only [V3.dot] at h1 h3
  constructor
  · ext <;> simp only [M3.mulVec, V3.dot, V3.smul_x, V3.smul_y, V3.smul_z, smul_eq_mul]
    · linear_combination (3 * G * s.mass / r ^ 3 * up.x) * h1
    · linear_combination (3 * G * s.mass / r ^ 3 * up.y) * h1
    · linear_combination (3 * G * s.mass / r ^ 3 * up.z) * h1
  · ext <;> simp only [M3.mulVec, V3.dot, V3.smul_x, V3.smul_y, V3.smul_z, smul_eq_mul]
    · linear_combination (3 * G * s.mass / r ^ 3 * up.x) * h3
    · linear_combination (3 * G * s.mass / r ^ 3 * up.y) * h3
    · linear_combination (3 * G * s.mass / r ^ 3 * up.z) * h3

theorem Sphere.field_len (s : Sphere) (hR : 0 < s.radius) (hd : 0 ≤ s.rho) (p : V3 ℝ) :
    (s.gravitationalField p).len =
      if (p - s.location).len > s.radius then G * s.mass / (p - s.location).len ^ 2 else G * s.mass / s.radius ^ 3 * (p - s.location).len := by
  have hG : 0 < G := by norm_num [G]
  have hM : 0 ≤ s.mass := by unfold Sphere.mass; positivity
  simp only [Sphere.gravitationalField]
  split_ifs with h
  · have hr : 0 < (p - s.location).len := hR.trans h
    simp only [PointMass.gravitationalField, Sphere.toPointMass]
    have : ((p - s.location).map (· / (p - s.location).len)).map (fun c => -G * s.mass * c / (p - s.location).len ^ 2) =
        (-(G * s.mass / (p - s.location).len ^ 3)) • (p - s.location) := by
      ext <;> simp only [V3.map, V3.smul_x, V3.smul_y, V3.smul_z, smul_eq_mul] <;> field_simp
    rw [this, V3.len_smul, abs_neg, abs_of_nonneg (by positivity)]
    field_simp
  · have : (p - s.location).map (fun c => -G * 4 / 3 * π * s.rho * c) = (-(G * s.mass / s.radius ^ 3)) • (p - s.location) := by
      unfold Sphere.mass
      ext <;> simp only [V3.map, V3.smul_x, V3.smul_y, V3.smul_z, smul_eq_mul] <;> field_simp
    rw [this, V3.len_smul, abs_neg, abs_of_nonneg (by positivity)]

/-- **C154.** A ball attracts most strongly at its surface: with `G M / R²` there and with less everywhere else. -/
theorem Sphere.strongest (s : Sphere) (hR : 0 < s.radius) (hd : 0 < s.rho) (p : V3 ℝ) :
    (s.gravitationalField p).len ≤ G * s.mass / s.radius ^ 2 ∧
    ((s.gravitationalField p).len = G * s.mass / s.radius ^ 2 ↔ (p - s.location).len = s.radius) := by
  have hG : 0 < G := by norm_num [G]
  have hM : 0 < G * s.mass := by unfold Sphere.mass; positivity
  rw [s.field_len hR hd.le]
  set r := (p - s.location).len
  split_ifs with h
  · have hr : 0 < r := hR.trans h
    have : G * s.mass / r ^ 2 < G * s.mass / s.radius ^ 2 := by gcongr
    exact ⟨this.le, fun e => absurd e this.ne, fun e => absurd e h.ne'⟩
  · have e : G * s.mass / s.radius ^ 2 = G * s.mass / s.radius ^ 3 * s.radius := by field_simp
    rw [e]
    have hk : 0 < G * s.mass / s.radius ^ 3 := by positivity
    exact ⟨mul_le_mul_of_nonneg_left (not_lt.1 h) hk.le, fun e => mul_left_cancel₀ hk.ne' e, fun e => by rw [e]⟩

/-- **C154.** Its potential is highest at its centre, where it is three halves of that at the surface. -/
theorem Sphere.deepest (s : Sphere) (hR : 0 < s.radius) (hd : 0 < s.rho) (p : V3 ℝ) :
    s.gravitationalPotential p ≤ 3 / 2 * (G * s.mass / s.radius) ∧
    (s.gravitationalPotential p = 3 / 2 * (G * s.mass / s.radius) ↔ p = s.location) ∧
    ((p - s.location).len = s.radius → s.gravitationalPotential p = G * s.mass / s.radius) := by
  have hG : 0 < G := by norm_num [G]
  have hM : 0 < G * s.mass := by unfold Sphere.mass; positivity
  have inside : G * 2 / 3 * π * s.rho * (3 * s.radius ^ 2 - (p - s.location).len ^ 2) =
      3 / 2 * (G * s.mass / s.radius) - G * s.mass / (2 * s.radius ^ 3) * (p - s.location).len ^ 2 := by
    unfold Sphere.mass
    field_simp
    ring
  have hk : 0 < G * s.mass / (2 * s.radius ^ 3) := by positivity
  simp only [Sphere.gravitationalPotential]
  split_ifs with h
  · have lt : s.toPointMass.gravitationalPotential p < 3 / 2 * (G * s.mass / s.radius) := by
      have hr : 0 < (p - s.location).len := hR.trans h
      have a : s.toPointMass.gravitationalPotential p < G * s.mass / s.radius := by
        change G * s.mass / (p - s.location).len < _
        gcongr
      have : 0 < G * s.mass / s.radius := by positivity
      linarith
    refine ⟨lt.le, ⟨fun e => absurd e lt.ne, fun e => ?_⟩, fun e => absurd e h.ne'⟩
    subst e
    rw [sub_self, V3.len_eq_zero.2 rfl] at h
    exact absurd h (not_lt.2 hR.le)
  · rw [inside]
    have hs := sq_nonneg (p - s.location).len
    refine ⟨by nlinarith, ⟨fun e => ?_, fun e => by rw [e, sub_self, V3.len_eq_zero.2 rfl]; ring⟩, fun e => by rw [e]; field_simp; ring⟩
    have : G * s.mass / (2 * s.radius ^ 3) * (p - s.location).len ^ 2 = 0 := by linarith
    rcases mul_eq_zero.1 this with h0 | h0
    · exact absurd h0 hk.ne'
    · exact sub_eq_zero.1 (V3.len_eq_zero.1 (pow_eq_zero_iff two_ne_zero |>.1 h0))

end Gravity

/-- Directions as in the theorems, at latitude 45° of a dipole along `(0, 1, 1) / √2`. -/
example : Orthonormal ⟨0, 0, 1⟩ ⟨0, 1, 0⟩ ∧
    (⟨0, cos (π / 4), sin (π / 4)⟩ : V3 ℝ) = sin (π / 4) • (⟨0, 0, 1⟩ : V3 ℝ) + cos (π / 4) • (⟨0, 1, 0⟩ : V3 ℝ) := by
  refine ⟨by simp [Orthonormal, V3.dot], ?_⟩
  ext <;> simp

end Verif
