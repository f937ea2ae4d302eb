import Verif.Lemmas.Torque
import Verif.Props.Reaction

/-!
# C157: torques balance
-/

namespace Verif.Reaction

open Real MeasureTheory Set Prism Gravity

variable {ρ σ : ℝ} {A B : Set (ℝ × ℝ × ℝ)} {U V : V3 ℝ → ℝ} {f g : V3 ℝ → V3 ℝ}

theorem Attracts.torque (a : Attracts ρ A U f) (b : Attracts σ B V g) (c r : V3 ℝ) :
    ∫ x in A, ρ * r.dot ((vec x - c).cross (g (vec x))) = -∫ q in B, σ * r.dot ((vec q - c).cross (f (vec q))) := by
  obtain ⟨R, hR, hd⟩ := a.near b
  obtain ⟨S, hS⟩ := a.bounded
  have hc : ∀ x ∈ A, (vec x - c).len ≤ S + c.len := fun x hx => by
    have := V3.len_add_le (vec x) (-c)
    rw [← sub_eq_add_neg, V3.len_neg] at this
    linarith [hS x hx]
  have e : ∀ x w : V3 ℝ, r.dot (x.cross w) = (r.cross x).dot w := fun x w => by
    simp only [V3.dot, V3.cross]; ring
  simp only [e, a.field, b.field, integral_const_mul]
  rw [torque_swap a.measurable b.measurable hR a.finite hd hc]
  ring

/-! ### Bodies -/

/-- **C157.** Two prisms, apart, touching or overlapping: about every point `c` and every axis `r`, the torque of each on the other is opposite to that of
the other, so a prism does not turn itself. -/
theorem prism_torque (b d : GravPrism) (hb : b.box.Proper) (hd : d.box.Proper) (c r : V3 ℝ) :
    (∫ x in b.box.points, b.rho * r.dot ((vec x - c).cross (d.gravitationalField (vec x)))) =
      (-∫ x in d.box.points, d.rho * r.dot ((vec x - c).cross (b.gravitationalField (vec x)))) ∧
    (∫ x in b.box.points, b.rho * r.dot ((vec x - c).cross (b.gravitationalField (vec x)))) = 0 := by
  refine ⟨(attracts_prism b hb).torque (attracts_prism d hd) c r, ?_⟩
  linarith [(attracts_prism b hb).torque (attracts_prism b hb) c r]

/-- The field of a ball points along the line to its centre. -/
theorem central_field (s : Sphere) (p : V3 ℝ) : (p - s.location).cross (s.gravitationalField p) = 0 := by
  unfold Sphere.gravitationalField PointMass.gravitationalField
  ext <;> simp only [V3.cross] <;> split_ifs <;>
    simp only [V3.map_x, V3.map_y, V3.map_z, V3.zero_x, V3.zero_y, V3.zero_z, Sphere.toPointMass] <;> ring

/-- **C157.** A prism and a ball; nothing turns a ball about its centre, and a ball has no torque about its centre on anything. -/
theorem ball_torque (b : GravPrism) (s t : Sphere) (hb : b.box.Proper) (hs : 0 < s.radius) (ht : 0 < t.radius) (c r : V3 ℝ) :
    (∫ x in b.box.points, b.rho * r.dot ((vec x - c).cross (s.gravitationalField (vec x)))) =
      (-∫ x in Ball.points s.location s.radius, s.rho * r.dot ((vec x - c).cross (b.gravitationalField (vec x)))) ∧
    (∫ x in Ball.points s.location s.radius, s.rho * r.dot ((vec x - c).cross (t.gravitationalField (vec x)))) =
      (-∫ x in Ball.points t.location t.radius, t.rho * r.dot ((vec x - c).cross (s.gravitationalField (vec x)))) ∧
    (∫ x in Ball.points s.location s.radius, s.rho * r.dot ((vec x - s.location).cross (b.gravitationalField (vec x)))) = 0 ∧
    (∫ x in Ball.points s.location s.radius, s.rho * r.dot ((vec x - s.location).cross (t.gravitationalField (vec x)))) = 0 := by
  have z : ∀ w : V3 ℝ, r.dot ((w - s.location).cross (s.gravitationalField w)) = 0 := fun w => by
    rw [central_field]; simp [V3.dot]
  refine ⟨(attracts_prism b hb).torque (attracts_sphere s hs) c r, (attracts_sphere s hs).torque (attracts_sphere t ht) c r, ?_, ?_⟩
  · rw [(attracts_sphere s hs).torque (attracts_prism b hb)]
    simp [z]
  · rw [(attracts_sphere s hs).torque (attracts_sphere t ht)]
    simp [z]

/-- **C157.** A point mass, anywhere, and a prism: the prism is turned about the mass by nothing. -/
theorem point_torque (m : PointMass) (b : GravPrism) (c r : V3 ℝ) (hb : b.box.Proper) :
    (∫ x in b.box.points, b.rho * r.dot ((vec x - c).cross (m.gravitationalField (vec x)))) =
      -(m.mass * r.dot ((m.location - c).cross (b.gravitationalField m.location))) := by
  have e : ∀ x : ℝ × ℝ × ℝ, r.dot ((vec x - c).cross (m.gravitationalField (vec x))) =
      (r.cross (m.location - c)).dot (m.gravitationalField (vec x)) := fun x => by
    have k := point_field m x (r.cross (vec x - c))
    have k' := point_field m x (r.cross (m.location - c))
    rw [show r.dot ((vec x - c).cross (m.gravitationalField (vec x))) = (r.cross (vec x - c)).dot (m.gravitationalField (vec x)) by
      simp only [V3.dot, V3.cross]; ring, k, k']
    congr 2
    simp only [V3.dot, V3.cross, V3.sub_x, V3.sub_y, V3.sub_z]; ring
  simp only [e]
  rw [((attracts_prism b hb).on_point m _).2]
  congr 2
  simp only [V3.dot, V3.cross]; ring

/-- The hypotheses hold for a prism and a ball lying partly inside it. -/
example : (∫ x in Ball.points ⟨0, 0, 1⟩ 1, 2670 * (⟨1, 2, 3⟩ : V3 ℝ).dot ((vec x - ⟨0, 0, 1⟩).cross
    ((⟨⟨⟨-1, -1, -1⟩, ⟨1, 1, 1⟩⟩, 3000⟩ : GravPrism).gravitationalField (vec x)))) = 0 :=
  (ball_torque ⟨⟨⟨-1, -1, -1⟩, ⟨1, 1, 1⟩⟩, 3000⟩ ⟨1, 2670, ⟨0, 0, 1⟩⟩ ⟨1, 2670, ⟨0, 0, 1⟩⟩ ⟨by norm_num, by norm_num, by norm_num⟩ one_pos one_pos 0 _).2.2.1

end Verif.Reaction

namespace Verif.Static

open V3

/-! ### Dipoles -/

/-- **C157.** Two magnetic dipoles in one medium: the force on each (the gradient of its moment times the other's flux density) is opposite to the
force on the other, and the turning moments on the two together with the moment of the forces cancel. -/
theorem dipoles_balance (a b : MagDipole) (hm : a.mu = b.mu) (h : a.location ≠ b.location) :
    ∃ Fa Fb : V3 ℝ,
      HasGrad (fun p => (b.moment • b.orientation).dot (a.magneticFluxDensity p)) Fb b.location ∧
      HasGrad (fun p => (a.moment • a.orientation).dot (b.magneticFluxDensity p)) Fa a.location ∧
      Fa + Fb = 0 ∧
      (b.moment • b.orientation).cross (a.magneticFluxDensity b.location) + (a.moment • a.orientation).cross (b.magneticFluxDensity a.location) +
        (b.location.cross Fb + a.location.cross Fa) = 0 := by
  refine ⟨_, _, a.hasGrad_energy _ _ h.symm, b.hasGrad_energy _ _ h, ?_, ?_⟩
  · have hl : (a.location - b.location).len = (b.location - a.location).len := by rw [← V3.len_neg, neg_sub]
    have hr := len_sub_ne_zero h.symm
    simp only [MagDipole.pull, hl, hm]
    generalize (b.location - a.location).len = r at hr
    ext <;> simp only [V3.dot, V3.add_x, V3.add_y, V3.add_z, V3.smul_x, V3.smul_y, V3.smul_z, V3.sub_x, V3.sub_y, V3.sub_z, V3.zero_x, V3.zero_y,
      V3.zero_z, smul_eq_mul] <;> field_simp <;> ring
  · have hl : (a.location - b.location).len = (b.location - a.location).len := by rw [← V3.len_neg, neg_sub]
    have hr := len_sub_ne_zero h.symm
    rw [a.magneticFluxDensity_eq _ h.symm, b.magneticFluxDensity_eq _ h]
    simp only [MagDipole.pull, dipF, hl, hm]
    generalize (b.location - a.location).len = r at hr
    ext <;> simp only [V3.dot, V3.cross, sv, V3.map, V3.add_x, V3.add_y, V3.add_z, V3.smul_x, V3.smul_y, V3.smul_z, V3.sub_x, V3.sub_y, V3.sub_z, V3.zero_x, V3.zero_y,
      V3.zero_z, smul_eq_mul] <;> field_simp <;> ring

/-- **C157.** Two dipoles of positive moment pointing the same way attract each other exactly if the line between them is within the cone
`cos² > 1/3` about that direction (so head to tail), and repel exactly outside it (so side by side). -/
theorem dipoles_attract (a b : MagDipole) (hm : 0 < a.mu) (h : a.location ≠ b.location) (ha : 0 < a.moment) (hb : 0 < b.moment)
    (ho : a.orientation = b.orientation) (hu : a.orientation.len = 1) :
    ∃ F : V3 ℝ, HasGrad (fun p => (b.moment • b.orientation).dot (a.magneticFluxDensity p)) F b.location ∧
      (F.dot (b.location - a.location) < 0 ↔ (b.location - a.location).len ^ 2 < 3 * (a.orientation.dot (b.location - a.location)) ^ 2) ∧
      (0 < F.dot (b.location - a.location) ↔ 3 * (a.orientation.dot (b.location - a.location)) ^ 2 < (b.location - a.location).len ^ 2) := by
  refine ⟨_, a.hasGrad_energy _ _ h.symm, ?_⟩
  have hr : 0 < (b.location - a.location).len := lt_of_le_of_ne (V3.len_nonneg _) (len_sub_ne_zero h.symm).symm
  have e : (a.pull (b.moment • b.orientation) b.location).dot (b.location - a.location) =
      3 * (a.moment * a.mu / (4 * Real.pi)) * b.moment / (b.location - a.location).len ^ 5 *
        ((b.location - a.location).len ^ 2 - 3 * (a.orientation.dot (b.location - a.location)) ^ 2) := by
    have h1 := V3.len_sq a.orientation
    rw [hu] at h1
    have h2 := V3.len_sq (b.location - a.location)
    have q : ∀ (k m : ℝ) (o d : V3 ℝ) (r : ℝ), (k • ((m • o).dot d • o + o.dot d • (m • o) + ((m • o).dot o - 5 * (o.dot d * (m • o).dot d) / r ^ 2) • d)).dot d =
        k * (2 * m * (o.dot d) ^ 2 + (m * o.dot o - 5 * m * (o.dot d) ^ 2 / r ^ 2) * d.dot d) := fun k m o d r => by
      simp only [V3.dot, V3.add_x, V3.add_y, V3.add_z, V3.smul_x, V3.smul_y, V3.smul_z, smul_eq_mul]
      ring
    have h1' : a.orientation.dot a.orientation = 1 := by simp only [V3.dot]; linarith
    have h2' : (b.location - a.location).dot (b.location - a.location) = (b.location - a.location).len ^ 2 := by rw [h2]; simp only [V3.dot]; ring
    simp only [MagDipole.pull, ← ho]
    rw [q, h1', h2']
    field_simp
    ring
  rw [e]
  have hk : 0 < 3 * (a.moment * a.mu / (4 * Real.pi)) * b.moment / (b.location - a.location).len ^ 5 := by positivity
  constructor
  · rw [mul_neg_iff]; simp only [hk, true_and, not_lt.2 hk.le, false_and, or_false, sub_neg]
  · rw [mul_pos_iff_of_pos_left hk, sub_pos]

/-- The hypotheses hold for two dipoles head to tail, which attract each other. -/
example : ∃ F : V3 ℝ, HasGrad (fun p => ((2 : ℝ) • (⟨0, 0, 1⟩ : V3 ℝ)).dot ((⟨1, 3, 0, ⟨0, 0, 1⟩⟩ : MagDipole).magneticFluxDensity p)) F ⟨0, 0, 5⟩ ∧ F.z < 0 := by
  have hn : (⟨1, 3, 0, ⟨0, 0, 1⟩⟩ : MagDipole).location ≠ (⟨1, 2, ⟨0, 0, 5⟩, ⟨0, 0, 1⟩⟩ : MagDipole).location := fun h => by
    have := congrArg V3.z h
    norm_num at this
  obtain ⟨F, h, k, -⟩ := dipoles_attract ⟨1, 3, 0, ⟨0, 0, 1⟩⟩ ⟨1, 2, ⟨0, 0, 5⟩, ⟨0, 0, 1⟩⟩ one_pos hn (by norm_num) (by norm_num) rfl (by simp [V3.len])
  refine ⟨F, h, ?_⟩
  have := k.2 (by rw [V3.len_sq]; norm_num [V3.dot])
  simp only [V3.dot, V3.sub_x, V3.sub_y, V3.sub_z, V3.zero_x, V3.zero_y, V3.zero_z] at this
  linarith

end Verif.Static
