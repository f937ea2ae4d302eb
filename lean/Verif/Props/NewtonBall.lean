import Verif.Lemmas.NewtonBall
import Verif.Model.Gravity
import Verif.Props.PrismNewton
import Verif.Props.FarField

/-!
# C120: a ball attracts as the sum of its parts

The response of `Sphere` is the volume integral of the responses of `PointMass` over the ball (Newton's theorem).
-/

namespace Verif.Ball

open Real MeasureTheory Set Prism Gravity

/-- The three integrals of Newton's law over a ball, at every point. -/
theorem newton_ball (c : V3 ℝ) {a : ℝ} (ha : 0 < a) (p : V3 ℝ) :
    ∫ q in points c a, 1 / (vec q - p).len =
      (if (p - c).len ≤ a then 2 * π / 3 * (3 * a ^ 2 - (p - c).len ^ 2) else 4 / 3 * π * a ^ 3 / (p - c).len) ∧
    (⟨∫ q in points c a, (vec q - p).x / (vec q - p).len ^ 3, ∫ q in points c a, (vec q - p).y / (vec q - p).len ^ 3,
      ∫ q in points c a, (vec q - p).z / (vec q - p).len ^ 3⟩ : V3 ℝ) =
      (if (p - c).len ≤ a then -(4 / 3 * π) else -(4 / 3 * π * a ^ 3 / (p - c).len ^ 3)) • (p - c) := by
  set d := (p - c).len with hd
  have hd0 : 0 ≤ d := V3.len_nonneg _
  obtain ⟨m, hm, hw⟩ := exists_turn (p - c)
  set g : Motion := ⟨m, c, hm⟩ with hg
  have h0 : g.act 0 = c := by ext <;> simp [hg, Motion.act, M3.mulVec, V3.dot]
  have hp : g.act ⟨d, 0, 0⟩ = p := by
    rw [Motion.act, hg]
    simp only [hd, hw]
    abel
  have sub : ∀ v, g.act v - p = g.turn (v - ⟨d, 0, 0⟩) := fun v => by rw [← hp, g.act_sub]
  constructor
  · have h := integral_points_moved g h0 a fun v => 1 / (v - p).len
    simp only [sub, g.turn_len] at h
    rw [h, integral_axis ha hd0]
    split_ifs <;> ring
  · have hx := integral_axis_cube ha hd0
    obtain ⟨hy, hz⟩ := integral_across a d
    obtain ⟨-, ix, iy, iz⟩ := integrable 0 ha ⟨d, 0, 0⟩
    have row : ∀ r : V3 ℝ, ∫ q in points 0 a, r.dot (vec q - ⟨d, 0, 0⟩) / (vec q - ⟨d, 0, 0⟩).len ^ 3 =
        r.x * (2 * π * if d ≤ a then -(2 * d / 3) else -(2 * a ^ 3 / (3 * d ^ 2))) := by
      intro r
      have e : ∀ q : ℝ × ℝ × ℝ, r.dot (vec q - ⟨d, 0, 0⟩) / (vec q - ⟨d, 0, 0⟩).len ^ 3 =
          r.x * ((vec q - ⟨d, 0, 0⟩).x / (vec q - ⟨d, 0, 0⟩).len ^ 3) + r.y * ((vec q - ⟨d, 0, 0⟩).y / (vec q - ⟨d, 0, 0⟩).len ^ 3) +
          r.z * ((vec q - ⟨d, 0, 0⟩).z / (vec q - ⟨d, 0, 0⟩).len ^ 3) := by
        intro q
        simp only [V3.dot]
        ring
      simp only [e]
      have i12 : IntegrableOn (fun q : ℝ × ℝ × ℝ => r.x * ((vec q - ⟨d, 0, 0⟩).x / (vec q - ⟨d, 0, 0⟩).len ^ 3) +
          r.y * ((vec q - ⟨d, 0, 0⟩).y / (vec q - ⟨d, 0, 0⟩).len ^ 3)) (points 0 a) := (ix.const_mul r.x).add (iy.const_mul r.y)
      rw [integral_add i12 (iz.const_mul r.z), integral_add (ix.const_mul r.x) (iy.const_mul r.y)]
      simp only [integral_const_mul, hx, hy, hz]
      ring
    have mv : ∀ F : V3 ℝ → ℝ, ∫ q in points c a, F (vec q - p) = ∫ q in points 0 a, F (g.turn (vec q - ⟨d, 0, 0⟩)) := by
      intro F
      rw [integral_points_moved g h0 a fun v => F (v - p)]
      simp only [sub]
    rw [mv fun v => v.x / v.len ^ 3, mv fun v => v.y / v.len ^ 3, mv fun v => v.z / v.len ^ 3]
    simp only [g.turn_len]
    have hwx := congrArg V3.x hw
    have hwy := congrArg V3.y hw
    have hwz := congrArg V3.z hw
    simp only [M3.mulVec, V3.dot, mul_zero, add_zero, ← hd] at hwx hwy hwz
    have fin : ∀ rx t : ℝ, rx * d = t → rx * (2 * π * if d ≤ a then -(2 * d / 3) else -(2 * a ^ 3 / (3 * d ^ 2))) =
        (if d ≤ a then -(4 / 3 * π) else -(4 / 3 * π * a ^ 3 / d ^ 3)) * t := by
      intro rx t ht
      rw [← ht]
      split_ifs with h
      · ring
      · have : d ≠ 0 := by linarith [not_le.1 h]
        field_simp
        ring
    ext
    · exact (row m.x).trans (fin _ _ hwx)
    · exact (row m.y).trans (fin _ _ hwy)
    · exact (row m.z).trans (fin _ _ hwz)

end Verif.Ball

namespace Verif.Gravity

open MeasureTheory Prism

/-- **C120.** The potential of a ball is the integral of the potentials of its mass elements, at every point: outside, on the surface and
inside. -/
theorem Sphere.potential_is_integral (s : Sphere) (hr : 0 < s.radius) (p : V3 ℝ) :
    IntegrableOn (fun q => (⟨s.rho, vec q⟩ : PointMass).gravitationalPotential p) (Ball.points s.location s.radius) ∧
    s.gravitationalPotential p = ∫ q in Ball.points s.location s.radius, (⟨s.rho, vec q⟩ : PointMass).gravitationalPotential p := by
  have e : ∀ q : ℝ × ℝ × ℝ, (⟨s.rho, vec q⟩ : PointMass).gravitationalPotential p = G * s.rho * (1 / (vec q - p).len) := fun q => by
    simp only [PointMass.gravitationalPotential]
    rw [show (p - vec q).len = (vec q - p).len by rw [← V3.len_neg, neg_sub]]
    ring
  simp only [e, integral_const_mul]
  refine ⟨(Ball.integrable _ hr p).1.const_mul _, ?_⟩
  rw [(Ball.newton_ball _ hr p).1]
  simp only [Sphere.gravitationalPotential, Sphere.toPointMass, Sphere.mass, PointMass.gravitationalPotential]
  by_cases h : (p - s.location).len ≤ s.radius
  · rw [if_pos h, if_neg (not_lt.2 h)]; ring
  · rw [if_neg h, if_pos (not_le.1 h)]; ring

/-- **C120.** The same for the field. -/
theorem Sphere.field_is_integral (s : Sphere) (hr : 0 < s.radius) (p : V3 ℝ) :
    s.gravitationalField p =
      ⟨∫ q in Ball.points s.location s.radius, ((⟨s.rho, vec q⟩ : PointMass).gravitationalField p).x,
       ∫ q in Ball.points s.location s.radius, ((⟨s.rho, vec q⟩ : PointMass).gravitationalField p).y,
       ∫ q in Ball.points s.location s.radius, ((⟨s.rho, vec q⟩ : PointMass).gravitationalField p).z⟩ := by
  have hx : ∀ q : ℝ × ℝ × ℝ, ((⟨s.rho, vec q⟩ : PointMass).gravitationalField p).x = G * s.rho * ((vec q - p).x / (vec q - p).len ^ 3) := fun q => by
    simp only [PointMass.gravitationalField, V3.map_x, V3.sub_x]
    rw [show (p - vec q).len = (vec q - p).len by rw [← V3.len_neg, neg_sub]]
    generalize (vec q - p).len = r
    by_cases h : r = 0
    · simp [h]
    · field_simp; ring
  have hy : ∀ q : ℝ × ℝ × ℝ, ((⟨s.rho, vec q⟩ : PointMass).gravitationalField p).y = G * s.rho * ((vec q - p).y / (vec q - p).len ^ 3) := fun q => by
    simp only [PointMass.gravitationalField, V3.map_y, V3.sub_y]
    rw [show (p - vec q).len = (vec q - p).len by rw [← V3.len_neg, neg_sub]]
    generalize (vec q - p).len = r
    by_cases h : r = 0
    · simp [h]
    · field_simp; ring
  have hz : ∀ q : ℝ × ℝ × ℝ, ((⟨s.rho, vec q⟩ : PointMass).gravitationalField p).z = G * s.rho * ((vec q - p).z / (vec q - p).len ^ 3) := fun q => by
    simp only [PointMass.gravitationalField, V3.map_z, V3.sub_z]
    rw [show (p - vec q).len = (vec q - p).len by rw [← V3.len_neg, neg_sub]]
    generalize (vec q - p).len = r
    by_cases h : r = 0
    · simp [h]
    · field_simp; ring
  simp only [hx, hy, hz, integral_const_mul]
  have h := (Ball.newton_ball s.location hr p).2
  have h1 := congrArg V3.x h
  have h2 := congrArg V3.y h
  have h3 := congrArg V3.z h
  simp only [V3.smul_x, V3.smul_y, V3.smul_z, smul_eq_mul] at h1 h2 h3
  rw [h1, h2, h3]
  simp only [Sphere.gravitationalField, Sphere.toPointMass, Sphere.mass, PointMass.gravitationalField]
  by_cases h : (p - s.location).len ≤ s.radius
  · rw [if_neg (not_lt.2 h)]
    simp only [if_pos h]
    ext <;> simp <;> ring
  · rw [if_pos (not_le.1 h)]
    have : (p - s.location).len ≠ 0 := by linarith [not_le.1 h]
    simp only [if_neg h]
    ext <;> simp only [V3.map_x, V3.map_y, V3.map_z] <;> field_simp

/-- **C120.** The sphere's mass is its density integrated over the ball. -/
theorem Sphere.mass_is_integral (s : Sphere) (hr : 0 < s.radius) : s.mass = ∫ _ in Ball.points s.location s.radius, s.rho := by
  have h : ∫ _ in Ball.points s.location s.radius, (1 : ℝ) = 4 / 3 * Real.pi * s.radius ^ 3 := Ball.integral_one s.location hr
  have e : ∫ _ in Ball.points s.location s.radius, s.rho = s.rho * ∫ _ in Ball.points s.location s.radius, (1 : ℝ) := by
    rw [← integral_const_mul]; simp only [mul_one]
  rw [e, h, Sphere.mass]
  ring

/-- **C120.** A prism within a ball of the same density has no larger potential, and one around the ball no smaller one, at any point. -/
theorem prism_in_sphere (b : GravPrism) (s : Sphere) (hb : b.box.Proper) (hr : 0 < s.radius) (e : b.rho = s.rho) (h : 0 ≤ s.rho) (p : V3 ℝ) :
    (b.box.points ⊆ Ball.points s.location s.radius → b.gravitationalPotential p ≤ s.gravitationalPotential p) ∧
    (Ball.points s.location s.radius ⊆ b.box.points → s.gravitationalPotential p ≤ b.gravitationalPotential p) := by
  obtain ⟨ib, hb⟩ := gravPrism_potential_is_integral b hb p
  obtain ⟨is, hs⟩ := s.potential_is_integral hr p
  have hq : ∀ q : ℝ × ℝ × ℝ, (⟨s.rho, vec q⟩ : PointMass).gravitationalPotential p = G * b.rho / (vec q - p).len := fun q => by
    simp only [PointMass.gravitationalPotential, e]
    rw [show (p - vec q).len = (vec q - p).len by rw [← V3.len_neg, neg_sub]]
  simp only [hq] at is hs
  rw [hb, hs]
  have pos : ∀ q : ℝ × ℝ × ℝ, 0 ≤ G * b.rho / (vec q - p).len := fun q =>
    div_nonneg (mul_nonneg G_pos.le (e ▸ h)) (V3.len_nonneg _)
  exact ⟨fun hh => setIntegral_mono_set is (Filter.Eventually.of_forall pos) hh.eventuallyLE,
    fun hh => setIntegral_mono_set ib (Filter.Eventually.of_forall pos) hh.eventuallyLE⟩

/-- **C120.** The mean of a point mass' potential over a ball that does not contain the mass is the value at the centre of the
ball. -/
theorem PointMass.potential_mean (m : PointMass) (c : V3 ℝ) {a : ℝ} (ha : 0 < a) (h : a < (m.location - c).len) :
    (∫ q in Ball.points c a, m.gravitationalPotential (vec q)) = (∫ _ in Ball.points c a, (1 : ℝ)) * m.gravitationalPotential c := by
  have e : ∀ q : ℝ × ℝ × ℝ, m.gravitationalPotential (vec q) = G * m.mass * (1 / (vec q - m.location).len) := fun q => by
    simp only [PointMass.gravitationalPotential]
    ring
  simp only [e, integral_const_mul]
  rw [(Ball.newton_ball c ha m.location).1, if_neg (not_le.2 h), Ball.integral_one c ha, PointMass.gravitationalPotential,
    show (c - m.location).len = (m.location - c).len by rw [← V3.len_neg, neg_sub]]
  ring

/-- The hypotheses are met by the unit cube, its circumscribed and its inscribed ball. -/
example : (⟨⟨-1, -1, -1⟩, ⟨1, 1, 1⟩⟩ : Box).points ⊆ Ball.points 0 2 ∧ Ball.points 0 (1 / 2) ⊆ (⟨⟨-1, -1, -1⟩, ⟨1, 1, 1⟩⟩ : Box).points := by
  constructor
  · rintro ⟨x, y, z⟩ ⟨⟨h1, h2⟩, ⟨h3, h4⟩, h5, h6⟩
    simp only [Ball.points, Set.mem_setOf_eq, vec, sub_zero, V3.len] at *
    refine Real.sqrt_le_iff.2 ⟨by norm_num, ?_⟩
    nlinarith
  · rintro ⟨x, y, z⟩ h
    simp only [Ball.points, Set.mem_setOf_eq, vec, sub_zero, V3.len] at h
    have := (Real.sqrt_le_left (by norm_num)).1 h
    refine ⟨⟨?_, ?_⟩, ⟨?_, ?_⟩, ?_, ?_⟩ <;> simp only <;> nlinarith

end Verif.Gravity
