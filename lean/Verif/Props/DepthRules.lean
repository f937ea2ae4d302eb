import Verif.Spec.Profile
import Verif.Model.Gravity
import Verif.Props.StaticHalfspace

/-!
# C144: Depth rules

On a survey line the anomaly of a buried body is largest above it and decreases on both sides.  The distance at which it has fallen to half, or changes its
sign, is a fixed multiple of the depth. -/

namespace Verif

open V3 Real

theorem profile_sub (o : V3 ℝ) (c s h x : ℝ) : profile o c s h x - o = ⟨x * c, x * s, h⟩ := by ext <;> simp [profile]

theorem profile_len {c s : ℝ} (hcs : c ^ 2 + s ^ 2 = 1) (h x : ℝ) : (⟨x * c, x * s, h⟩ : V3 ℝ).len = √(x ^ 2 + h ^ 2) := by
  rw [V3.len]
  congr 1
  dsimp only
  linear_combination x ^ 2 * hcs

/-- Half of the peak of `1/r³`. -/
theorem half_cube {h x : ℝ} (hh : 0 < h) (e : 2 / √(x ^ 2 + h ^ 2) ^ 3 = 1 / √(0 ^ 2 + h ^ 2) ^ 3) : 0.766 * h < |x| ∧ |x| < 0.767 * h := by
  have hp : 0 < √(x ^ 2 + h ^ 2) := sqrt_pos.2 (by positivity)
  have hs : √(x ^ 2 + h ^ 2) ^ 2 = x ^ 2 + h ^ 2 := sq_sqrt (by positivity)
  rw [show (0:ℝ) ^ 2 + h ^ 2 = h ^ 2 by ring, sqrt_sq hh.le, div_eq_div_iff (by positivity) (by positivity)] at e
  have e2 : (x ^ 2 + h ^ 2) ^ 3 = 4 * h ^ 6 := by
    have : (√(x ^ 2 + h ^ 2) ^ 3) ^ 2 = (2 * h ^ 3) ^ 2 := by rw [e]; ring
    rw [← hs]
    linear_combination this
  have ex : x ^ 2 = |x| ^ 2 := (sq_abs x).symm
  rw [ex] at e2
  have hx := abs_nonneg x
  constructor
  · by_contra hc
    push Not at hc
    have h1 : |x| ^ 2 + h ^ 2 ≤ (0.766 ^ 2 + 1) * h ^ 2 := by nlinarith
    have h2 : (|x| ^ 2 + h ^ 2) ^ 3 ≤ ((0.766 ^ 2 + 1) * h ^ 2) ^ 3 := pow_le_pow_left₀ (by positivity) h1 3
    have h6 : 0 < h ^ 6 := by positivity
    rw [e2, mul_pow] at h2
    norm_num at h2
    nlinarith
  · by_contra hc
    push Not at hc
    have h1 : (0.767 ^ 2 + 1) * h ^ 2 ≤ |x| ^ 2 + h ^ 2 := by nlinarith
    have h2 : ((0.767 ^ 2 + 1) * h ^ 2) ^ 3 ≤ (|x| ^ 2 + h ^ 2) ^ 3 := pow_le_pow_left₀ (by positivity) h1 3
    have h6 : 0 < h ^ 6 := by positivity
    rw [e2, mul_pow] at h2
    norm_num at h2
    nlinarith

theorem cube_decreases {h x y : ℝ} (hh : 0 < h) (hxy : |x| < |y|) : √(x ^ 2 + h ^ 2) ^ 3 < √(y ^ 2 + h ^ 2) ^ 3 := by
  have : x ^ 2 < y ^ 2 := sq_lt_sq.2 hxy
  exact pow_lt_pow_left₀ (sqrt_lt_sqrt (by positivity) (by linarith)) (sqrt_nonneg _) three_ne_zero

namespace Gravity

theorem pointMass_profile (s : PointMass) {c d : ℝ} (hcd : c ^ 2 + d ^ 2 = 1) {h : ℝ} (hh : 0 < h) (x : ℝ) :
    (s.gravitationalField (profile s.location c d h x)).z = -(G * s.mass * h) / √(x ^ 2 + h ^ 2) ^ 3 := by
  have hp : 0 < √(x ^ 2 + h ^ 2) := sqrt_pos.2 (by positivity)
  simp only [PointMass.gravitationalField, profile_sub, profile_len hcd, V3.map]
  field_simp

/-- **C144.** Above a point mass the attraction is downwards and decreases on both sides; at half of its largest value the distance is 0.77 times the depth. -/
theorem PointMass.depth_rule (s : PointMass) (hm : 0 < s.mass) {c d : ℝ} (hcd : c ^ 2 + d ^ 2 = 1) {h : ℝ} (hh : 0 < h) :
    let g := fun x => -(s.gravitationalField (profile s.location c d h x)).z
    (∀ x, 0 < g x) ∧ (∀ x y, |x| < |y| → g y < g x) ∧ ∀ x, g x = g 0 / 2 → 0.766 * h < |x| ∧ |x| < 0.767 * h := by
  have hG : 0 < G := by norm_num [G]
  have hk : 0 < G * s.mass * h := by positivity
  have hp : ∀ x : ℝ, 0 < √(x ^ 2 + h ^ 2) := fun x => sqrt_pos.2 (by positivity)
  simp only [pointMass_profile s hcd hh, neg_div, neg_neg]
  refine ⟨fun x => div_pos hk (pow_pos (hp x) 3), fun x y hxy => div_lt_div_of_pos_left hk (pow_pos (hp x) 3) (cube_decreases hh hxy), fun x e => half_cube hh ?_⟩
  have h1 := hp x
  have h2 := hp 0
  generalize √(x ^ 2 + h ^ 2) = A at *
  generalize √((0:ℝ) ^ 2 + h ^ 2) = B at *
  field_simp at e ⊢
  linarith

/-- **C144.** The same above a sphere that is buried as a whole. -/
theorem Sphere.depth_rule (s : Sphere) (hr : 0 < s.radius) (hd : 0 < s.rho) {c d : ℝ} (hcd : c ^ 2 + d ^ 2 = 1) {h : ℝ} (hh : s.radius < h) :
    let g := fun x => -(s.gravitationalField (profile s.location c d h x)).z
    (∀ x, 0 < g x) ∧ (∀ x y, |x| < |y| → g y < g x) ∧ ∀ x, g x = g 0 / 2 → 0.766 * h < |x| ∧ |x| < 0.767 * h := by
  have e : ∀ x, s.gravitationalField (profile s.location c d h x) = s.toPointMass.gravitationalField (profile s.toPointMass.location c d h x) := fun x => by
    have : s.radius < √(x ^ 2 + h ^ 2) := lt_sqrt_of_sq_lt (by nlinarith [sq_nonneg x])
    simp only [Sphere.gravitationalField, profile_sub, profile_len hcd, gt_iff_lt, if_pos this]
    rfl
  simp only [e]
  exact PointMass.depth_rule s.toPointMass (by simp only [toPointMass, mass]; positivity) hcd (hr.trans hh)

/-- **C144.** The vertical gradient changes its sign where the distance is √2 times the depth. -/
theorem PointMass.gradient_zero (s : PointMass) (hm : s.mass ≠ 0) {c d : ℝ} (hcd : c ^ 2 + d ^ 2 = 1) {h : ℝ} (hh : 0 < h) (x : ℝ) :
    (s.gravitationalGradient (profile s.location c d h x)).z.z = 0 ↔ |x| = √2 * h := by
  have hp : 0 < √(x ^ 2 + h ^ 2) := sqrt_pos.2 (by positivity)
  have hs : √(x ^ 2 + h ^ 2) ^ 2 = x ^ 2 + h ^ 2 := sq_sqrt (by positivity)
  have hG : G ≠ 0 := by norm_num [G]
  simp only [PointMass.gravitationalGradient, profile_sub, profile_len hcd, V3.map]
  have e1 : |x| = √2 * h ↔ x ^ 2 = 2 * h ^ 2 := by
    rw [← sq_eq_sq₀ (abs_nonneg x) (by positivity), sq_abs, mul_pow, sq_sqrt (by norm_num)]
  rw [e1]
  generalize √(x ^ 2 + h ^ 2) = r at *
  have e2 : -G * s.mass * (1 - 3 * (h / r) * (h / r)) / r ^ 3 = -G * s.mass * (r ^ 2 - 3 * h ^ 2) / r ^ 5 := by field_simp
  rw [e2, hs, div_eq_zero_iff, or_iff_left (by positivity), mul_eq_zero, or_iff_right (by simp [hG, hm])]
  constructor <;> intro h <;> linarith

/-- A mass at the depth 2. -/
example : (0 : ℝ) < (⟨1, ⟨0, 0, -2⟩⟩ : PointMass).mass ∧ ((3 / 5 : ℝ)) ^ 2 + (4 / 5) ^ 2 = 1 := by norm_num

end Gravity

namespace Static

/-- **C144.** Above a vertical magnetic dipole the vertical component changes its sign where the distance is √2 times the depth. -/
theorem MagDipole.depth_rule (s : MagDipole) (hm : s.moment ≠ 0) (hmu : 0 < s.mu) (ho : s.orientation = ⟨0, 0, 1⟩) {c d : ℝ} (hcd : c ^ 2 + d ^ 2 = 1)
    {h : ℝ} (hh : 0 < h) (x : ℝ) :
    ((s.magneticFluxDensity (profile s.location c d h x)).z = 0 ↔ |x| = √2 * h) ∧
      ((s.magneticField (profile s.location c d h x)).z = 0 ↔ |x| = √2 * h) := by
  have hp : 0 < √(x ^ 2 + h ^ 2) := sqrt_pos.2 (by positivity)
  have hs : √(x ^ 2 + h ^ 2) ^ 2 = x ^ 2 + h ^ 2 := sq_sqrt (by positivity)
  have e1 : |x| = √2 * h ↔ x ^ 2 = 2 * h ^ 2 := by
    rw [← sq_eq_sq₀ (abs_nonneg x) (by positivity), sq_abs, mul_pow, sq_sqrt (by norm_num)]
  have key : (s.magneticFluxDensity (profile s.location c d h x)).z = 0 ↔ |x| = √2 * h := by
    simp only [MagDipole.magneticFluxDensity, profile_sub, profile_len hcd, V3.map, ho, V3.dot]
    rw [e1]
    generalize √(x ^ 2 + h ^ 2) = r at *
    have e2 : s.moment * s.mu / (4 * π * r ^ 3) * (3 * (x * c / r * 0 + x * d / r * 0 + h / r * 1) * (h / r) - 1) =
        s.moment * s.mu / (4 * π * r ^ 5) * (3 * h ^ 2 - r ^ 2) := by
      field_simp
      ring
    rw [e2, hs, mul_eq_zero, or_iff_right (by have := hmu.ne'; positivity)]
    constructor <;> intro h <;> linarith
  refine ⟨key, ?_⟩
  rw [← key]
  simp only [MagDipole.magneticField, V3.map, div_eq_zero_iff, hmu.ne', or_false]

/-- **C144.** On the ground above a buried electrode the potential is largest above it and decreases on both sides; at half of its largest value the distance is √3
times the depth. -/
theorem PointHalf.depth_rule (mu0 rho current : ℝ) (hc : 0 < current) (location : V3 ℝ) (p : PointHalf) (hp : PointHalf.new mu0 rho current location = .ok p)
    (hz : location.z < 0) {c d : ℝ} (hcd : c ^ 2 + d ^ 2 = 1) :
    ∃ V : ℝ → ℝ, (∀ x, p.potential (profile location c d (-location.z) x) = .ok (V x)) ∧ (∀ x, 0 < V x) ∧ (∀ x y, |x| < |y| → V y < V x) ∧
      ∀ x, V x = V 0 / 2 ↔ |x| = √3 * (-location.z) := by
  have hrho : 0 < rho := ((pointHalf_new_iff mu0 rho current location).1 ⟨p, hp⟩).1
  obtain ⟨h, hdef⟩ : ∃ h, h = -location.z := ⟨_, rfl⟩
  rw [← hdef]
  have hh : 0 < h := by linarith
  have hq : ∀ x : ℝ, 0 < √(x ^ 2 + h ^ 2) := fun x => sqrt_pos.2 (by positivity)
  have hk : 0 < rho * current / (2 * π) := by positivity
  refine ⟨fun x => rho * current / (2 * π) / √(x ^ 2 + h ^ 2), fun x => ?_, fun x => div_pos hk (hq x), fun x y hxy => ?_, fun x => ?_⟩
  · have e1 : profile location c d h x - location = ⟨x * c, x * d, h⟩ := profile_sub _ _ _ _ _
    have e2 : profile location c d h x - ⟨location.x, location.y, -location.z⟩ = ⟨x * c, x * d, -h⟩ := by
      ext <;> simp [profile, hdef]
    rw [pointHalf_potential mu0 rho current location p hp, if_pos (by simp [profile, hdef]), imagePotential, e1, e2, profile_len hcd, profile_len hcd,
      neg_sq]
    have := hq x
    congr 1
    field_simp
    norm_num
  · have : x ^ 2 < y ^ 2 := sq_lt_sq.2 hxy
    exact div_lt_div_of_pos_left hk (hq x) (sqrt_lt_sqrt (by positivity) (by linarith))
  · have h0 : √((0:ℝ) ^ 2 + h ^ 2) = h := by rw [show (0:ℝ) ^ 2 + h ^ 2 = h ^ 2 by ring, sqrt_sq hh.le]
    have hs : √(x ^ 2 + h ^ 2) ^ 2 = x ^ 2 + h ^ 2 := sq_sqrt (by positivity)
    dsimp only
    rw [h0, div_div _ h, div_eq_div_iff (hq x).ne' (by positivity), mul_right_inj' hk.ne', eq_comm, ← sq_eq_sq₀ (hq x).le (by positivity), hs, ← sq_eq_sq₀ (abs_nonneg x) (by positivity), sq_abs, mul_pow √3,
      sq_sqrt (by norm_num)]
    constructor <;> intro h <;> linarith

/-- An electrode at the depth 2. -/
example : ∃ p, PointHalf.new 1 100 1 ⟨0, 0, -2⟩ = .ok p := (pointHalf_new_iff _ _ _ _).2 ⟨by norm_num, by norm_num⟩

end Static

end Verif
