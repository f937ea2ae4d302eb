import Verif.Lemmas.Reaction
import Verif.Props.NewtonBall
import Verif.Props.PlaneTotal
import Verif.Props.PrismEverywhere
import Verif.Props.StaticHalfspace

/-!
# C151: action and reaction, mean values, no equilibrium in free space
-/

namespace Verif.Reaction

open Real MeasureTheory Set Prism Gravity

/-! ### Bodies -/

/-- A bounded body of density `ρ` filling `S`, its potential and its field. -/
structure Attracts (ρ : ℝ) (S : Set (ℝ × ℝ × ℝ)) (U : V3 ℝ → ℝ) (g : V3 ℝ → V3 ℝ) : Prop where
  measurable : MeasurableSet S
  finite : volume S ≠ ⊤
  bounded : ∃ R, ∀ q ∈ S, (vec q).len ≤ R
  potential : ∀ p, U p = G * ρ * ∫ q in S, 1 / (vec q - p).len
  field : ∀ (p r : V3 ℝ), r.dot (g p) = G * ρ * ∫ q in S, r.dot (vec q - p) / (vec q - p).len ^ 3

theorem attracts_prism (b : GravPrism) (h : b.box.Proper) : Attracts b.rho b.box.points b.gravitationalPotential b.gravitationalField where
  measurable := b.box.measurableSet_points
  finite := Box.finite_points b.box h
  bounded := by
    obtain ⟨R, hR⟩ := (b.box.isCompact_closed.image (Ball.continuous_dist 0)).bddAbove
    refine ⟨R, fun q hq => ?_⟩
    have hc : q ∈ b.box.closed := ⟨Ioc_subset_Icc_self hq.1, Ioc_subset_Icc_self hq.2.1, Ioc_subset_Icc_self hq.2.2⟩
    have := hR ⟨q, hc, rfl⟩
    simpa only [sub_zero] using this
  potential p := by
    obtain ⟨-, hp⟩ := gravPrism_potential_is_integral b h p
    rw [hp, ← integral_const_mul]
    simp only [mul_one_div]
  field p r := by
    obtain ⟨⟨-, -⟩, ⟨ix, hx⟩, ⟨iy, hy⟩, iz, hz⟩ := newton_box b.box h p
    have e : ∀ q : ℝ × ℝ × ℝ, r.dot (vec q - p) / (vec q - p).len ^ 3 = r.x * ((q.1 - p.x) / (vec q - p).len ^ 3) +
        r.y * ((q.2.1 - p.y) / (vec q - p).len ^ 3) + r.z * ((q.2.2 - p.z) / (vec q - p).len ^ 3) := fun q => by
      simp only [V3.dot, V3.sub_x, V3.sub_y, V3.sub_z, vec]; ring
    simp only [e]
    have i12 : IntegrableOn (fun q : ℝ × ℝ × ℝ => r.x * ((q.1 - p.x) / (vec q - p).len ^ 3) + r.y * ((q.2.1 - p.y) / (vec q - p).len ^ 3)) b.box.points :=
      (ix.const_mul r.x).add (iy.const_mul r.y)
    rw [integral_add i12 (iz.const_mul r.z), integral_add (ix.const_mul r.x) (iy.const_mul r.y)]
    simp only [integral_const_mul, hx, hy, hz, GravPrism.gravitationalField, V3.dot]
    ring

theorem attracts_sphere (s : Sphere) (h : 0 < s.radius) :
    Attracts s.rho (Ball.points s.location s.radius) s.gravitationalPotential s.gravitationalField where
  measurable := Ball.measurableSet_points _ _
  finite := ball_finite s.location h
  bounded := ⟨s.radius + s.location.len, fun q hq => by
    have h1 : (vec q - s.location).len ≤ s.radius := hq
    have h2 := V3.len_add_le (vec q - s.location) s.location
    rw [sub_add_cancel] at h2
    linarith⟩
  potential p := by
    rw [(s.potential_is_integral h p).2, ← integral_const_mul]
    refine integral_congr_ae (Filter.Eventually.of_forall fun q => ?_)
    simp only [PointMass.gravitationalPotential]
    rw [show (p - vec q).len = (vec q - p).len by rw [← V3.len_neg, neg_sub], mul_one_div]
  field p r := by
    obtain ⟨-, ix, iy, iz⟩ := Ball.integrable s.location h p
    have e : ∀ q : ℝ × ℝ × ℝ, r.dot (vec q - p) / (vec q - p).len ^ 3 = r.x * ((vec q - p).x / (vec q - p).len ^ 3) +
        r.y * ((vec q - p).y / (vec q - p).len ^ 3) + r.z * ((vec q - p).z / (vec q - p).len ^ 3) := fun q => by
      simp only [V3.dot]; ring
    simp only [e]
    have i12 : IntegrableOn (fun q : ℝ × ℝ × ℝ => r.x * ((vec q - p).x / (vec q - p).len ^ 3) + r.y * ((vec q - p).y / (vec q - p).len ^ 3))
      (Ball.points s.location s.radius) := (ix.const_mul r.x).add (iy.const_mul r.y)
    rw [integral_add i12 (iz.const_mul r.z), integral_add (ix.const_mul r.x) (iy.const_mul r.y)]
    rw [s.field_is_integral h p]
    have hq : ∀ q : ℝ × ℝ × ℝ, (⟨s.rho, vec q⟩ : PointMass).gravitationalField p = (G * s.rho / (vec q - p).len ^ 3) • (vec q - p) := fun q => by
      simp only [PointMass.gravitationalField]
      rw [show (p - vec q).len = (vec q - p).len by rw [← V3.len_neg, neg_sub]]
      generalize (vec q - p).len = l
      by_cases hl : l = 0
      · ext <;> simp [hl]
      · ext <;> simp only [V3.map_x, V3.map_y, V3.map_z, V3.smul_x, V3.smul_y, V3.smul_z, smul_eq_mul, V3.sub_x, V3.sub_y, V3.sub_z] <;> field_simp <;> ring
    have hs : ∀ x l : ℝ, G * s.rho / l * x = G * s.rho * (x / l) := fun x l => by ring
    simp only [hq, V3.smul_x, V3.smul_y, V3.smul_z, smul_eq_mul, V3.dot, hs, integral_const_mul]
    ring

variable {ρ σ : ℝ} {A B : Set (ℝ × ℝ × ℝ)} {U V : V3 ℝ → ℝ} {f g : V3 ℝ → V3 ℝ}

theorem Attracts.near (a : Attracts ρ A U f) (b : Attracts σ B V g) : ∃ R, 0 < R ∧ ∀ x ∈ A, ∀ q ∈ B, (vec q - vec x).len ≤ R := by
  obtain ⟨R, hR⟩ := a.bounded
  obtain ⟨S, hS⟩ := b.bounded
  refine ⟨max (R + S) 1, lt_max_of_lt_right one_pos, fun x hx q hq => le_max_of_le_left ?_⟩
  have := V3.len_add_le (vec q) (-vec x)
  rw [← sub_eq_add_neg, V3.len_neg] at this
  linarith [hR x hx, hS q hq]

theorem Attracts.energy (a : Attracts ρ A U f) (b : Attracts σ B V g) : ∫ x in A, ρ * V (vec x) = ∫ q in B, σ * U (vec q) := by
  obtain ⟨R, hR, hd⟩ := a.near b
  simp only [a.potential, b.potential, integral_const_mul]
  rw [energy_swap a.measurable b.measurable hR a.finite hd]
  ring

theorem Attracts.reaction (a : Attracts ρ A U f) (b : Attracts σ B V g) (r : V3 ℝ) :
    ∫ x in A, ρ * r.dot (g (vec x)) = -∫ q in B, σ * r.dot (f (vec q)) := by
  obtain ⟨R, hR, hd⟩ := a.near b
  simp only [a.field, b.field, integral_const_mul]
  rw [force_swap a.measurable hR a.finite hd]
  ring

/-! ### Action and reaction -/

/-- **C151.** Two prisms, apart, touching or overlapping: the force of each on the other, in every direction `r`, is opposite to that of the other, and
the potential energy is the same either way. -/
theorem prism_prism (b c : GravPrism) (hb : b.box.Proper) (hc : c.box.Proper) :
    (∫ x in b.box.points, b.rho * c.gravitationalPotential (vec x)) = (∫ x in c.box.points, c.rho * b.gravitationalPotential (vec x)) ∧
    ∀ r : V3 ℝ, (∫ x in b.box.points, b.rho * r.dot (c.gravitationalField (vec x))) = -∫ x in c.box.points, c.rho * r.dot (b.gravitationalField (vec x)) :=
  ⟨(attracts_prism b hb).energy (attracts_prism c hc), (attracts_prism b hb).reaction (attracts_prism c hc)⟩

/-- **C151.** A prism and a ball. -/
theorem prism_sphere (b : GravPrism) (s : Sphere) (hb : b.box.Proper) (hs : 0 < s.radius) :
    (∫ x in b.box.points, b.rho * s.gravitationalPotential (vec x)) =
      (∫ x in Ball.points s.location s.radius, s.rho * b.gravitationalPotential (vec x)) ∧
    ∀ r : V3 ℝ, (∫ x in b.box.points, b.rho * r.dot (s.gravitationalField (vec x))) =
      -∫ x in Ball.points s.location s.radius, s.rho * r.dot (b.gravitationalField (vec x)) :=
  ⟨(attracts_prism b hb).energy (attracts_sphere s hs), (attracts_prism b hb).reaction (attracts_sphere s hs)⟩

/-- **C151.** Two balls. -/
theorem sphere_sphere (s t : Sphere) (hs : 0 < s.radius) (ht : 0 < t.radius) :
    (∫ x in Ball.points s.location s.radius, s.rho * t.gravitationalPotential (vec x)) =
      (∫ x in Ball.points t.location t.radius, t.rho * s.gravitationalPotential (vec x)) ∧
    ∀ r : V3 ℝ, (∫ x in Ball.points s.location s.radius, s.rho * r.dot (t.gravitationalField (vec x))) =
      -∫ x in Ball.points t.location t.radius, t.rho * r.dot (s.gravitationalField (vec x)) :=
  ⟨(attracts_sphere s hs).energy (attracts_sphere t ht), (attracts_sphere s hs).reaction (attracts_sphere t ht)⟩

/-- **C151.** No body moves itself. -/
theorem no_self_force (b : GravPrism) (s : Sphere) (hb : b.box.Proper) (hs : 0 < s.radius) (r : V3 ℝ) :
    (∫ x in b.box.points, b.rho * r.dot (b.gravitationalField (vec x))) = 0 ∧
    (∫ x in Ball.points s.location s.radius, s.rho * r.dot (s.gravitationalField (vec x))) = 0 := by
  have h1 := (prism_prism b b hb hb).2 r
  have h2 := (sphere_sphere s s hs hs).2 r
  constructor <;> linarith

theorem point_field (m : PointMass) (x : ℝ × ℝ × ℝ) (r : V3 ℝ) :
    r.dot (m.gravitationalField (vec x)) = -(G * m.mass) * (r.dot (vec x - m.location) / (vec x - m.location).len ^ 3) := by
  simp only [PointMass.gravitationalField]
  generalize vec x - m.location = d
  by_cases h : d.len = 0
  · have := V3.len_eq_zero.1 h
    subst this
    simp [V3.dot]
  · simp only [V3.dot, V3.map_x, V3.map_y, V3.map_z]
    field_simp
    ring

theorem Attracts.on_point (a : Attracts ρ A U f) (m : PointMass) (r : V3 ℝ) :
    (∫ x in A, ρ * m.gravitationalPotential (vec x)) = m.mass * U m.location ∧
    (∫ x in A, ρ * r.dot (m.gravitationalField (vec x))) = -(m.mass * r.dot (f m.location)) := by
  constructor
  · rw [a.potential]
    have e : ∀ x : ℝ × ℝ × ℝ, ρ * m.gravitationalPotential (vec x) = ρ * (G * m.mass) * (1 / (vec x - m.location).len) := fun x => by
      simp only [PointMass.gravitationalPotential]; ring
    simp only [e, integral_const_mul]
    ring
  · rw [a.field]
    simp only [point_field, ← mul_assoc, integral_const_mul]
    ring

/-- **C151.** A point mass, anywhere, and a prism or a ball. -/
theorem point_bodies (m : PointMass) (b : GravPrism) (s : Sphere) (hb : b.box.Proper) (hs : 0 < s.radius) (r : V3 ℝ) :
    ((∫ x in b.box.points, b.rho * m.gravitationalPotential (vec x)) = m.mass * b.gravitationalPotential m.location ∧
      (∫ x in b.box.points, b.rho * r.dot (m.gravitationalField (vec x))) = -(m.mass * r.dot (b.gravitationalField m.location))) ∧
    (∫ x in Ball.points s.location s.radius, s.rho * m.gravitationalPotential (vec x)) = m.mass * s.gravitationalPotential m.location ∧
      (∫ x in Ball.points s.location s.radius, s.rho * r.dot (m.gravitationalField (vec x))) = -(m.mass * r.dot (s.gravitationalField m.location)) :=
  ⟨(attracts_prism b hb).on_point m r, (attracts_sphere s hs).on_point m r⟩

/-! ### Mean values -/

theorem newton_outside (c : V3 ℝ) {a : ℝ} (ha : 0 < a) {p : V3 ℝ} (hp : a ≤ (p - c).len) (r : V3 ℝ) :
    (∫ x in Ball.points c a, 1 / (vec x - p).len) = 4 / 3 * π * a ^ 3 * (1 / (p - c).len) ∧
    (∫ x in Ball.points c a, r.dot (vec x - p) / (vec x - p).len ^ 3) = -(4 / 3 * π * a ^ 3 * (r.dot (p - c) / (p - c).len ^ 3)) := by
  obtain ⟨h1, h2⟩ := Ball.newton_ball c ha p
  obtain ⟨-, ix, iy, iz⟩ := Ball.integrable c ha p
  have e : ∀ q : ℝ × ℝ × ℝ, r.dot (vec q - p) / (vec q - p).len ^ 3 = r.x * ((vec q - p).x / (vec q - p).len ^ 3) +
      r.y * ((vec q - p).y / (vec q - p).len ^ 3) + r.z * ((vec q - p).z / (vec q - p).len ^ 3) := fun q => by
    simp only [V3.dot]; ring
  have i12 : IntegrableOn (fun q : ℝ × ℝ × ℝ => r.x * ((vec q - p).x / (vec q - p).len ^ 3) + r.y * ((vec q - p).y / (vec q - p).len ^ 3))
    (Ball.points c a) := (ix.const_mul r.x).add (iy.const_mul r.y)
  have hl : 0 < (p - c).len := ha.trans_le hp
  constructor
  · rw [h1]
    split_ifs with h
    · rw [le_antisymm h hp]
      field_simp
      ring
    · ring
  · simp only [e]
    rw [integral_add i12 (iz.const_mul r.z), integral_add (ix.const_mul r.x) (iy.const_mul r.y)]
    simp only [integral_const_mul]
    have hx := congrArg V3.x h2
    have hy := congrArg V3.y h2
    have hz := congrArg V3.z h2
    simp only [V3.smul_x, V3.smul_y, V3.smul_z, smul_eq_mul] at hx hy hz
    rw [hx, hy, hz]
    have k : (if (p - c).len ≤ a then -(4 / 3 * π) else -(4 / 3 * π * a ^ 3 / (p - c).len ^ 3)) = -(4 / 3 * π * a ^ 3 / (p - c).len ^ 3) := by
      split_ifs with h
      · rw [le_antisymm h hp]
        field_simp
      · rfl
    rw [k, V3.dot]
    ring

/-- **C151.** The mean over a ball of a point mass' potential, and of its field in every direction, is the value at the centre, if the mass is not in the ball. -/
theorem point_mean (m : PointMass) (c : V3 ℝ) {a : ℝ} (ha : 0 < a) (h : a ≤ (m.location - c).len) (r : V3 ℝ) :
    (∫ x in Ball.points c a, m.gravitationalPotential (vec x)) = 4 / 3 * π * a ^ 3 * m.gravitationalPotential c ∧
    (∫ x in Ball.points c a, r.dot (m.gravitationalField (vec x))) = 4 / 3 * π * a ^ 3 * r.dot (m.gravitationalField c) := by
  obtain ⟨h1, h2⟩ := newton_outside c ha h r
  constructor
  · have e : ∀ x : ℝ × ℝ × ℝ, m.gravitationalPotential (vec x) = G * m.mass * (1 / (vec x - m.location).len) := fun x => by
      simp only [PointMass.gravitationalPotential]; ring
    simp only [e, integral_const_mul, h1]
    simp only [PointMass.gravitationalPotential]
    rw [show (c - m.location).len = (m.location - c).len by rw [← V3.len_neg, neg_sub]]
    ring
  · have hc := point_field m (c.x, c.y, c.z) r
    rw [show vec (c.x, c.y, c.z) = c from rfl] at hc
    simp only [point_field, integral_const_mul, h2, hc]
    rw [show (c - m.location).len = (m.location - c).len by rw [← V3.len_neg, neg_sub],
      show r.dot (c - m.location) = -r.dot (m.location - c) by simp only [V3.dot, V3.sub_x, V3.sub_y, V3.sub_z]; ring]
    ring

/-- **C151.** The same for a prism that reaches at most to the surface of the ball. -/
theorem prism_mean (b : GravPrism) (hb : b.box.Proper) (c : V3 ℝ) {a : ℝ} (ha : 0 < a) (h : ∀ q ∈ b.box.points, a ≤ (vec q - c).len) (r : V3 ℝ) :
    (∫ x in Ball.points c a, b.gravitationalPotential (vec x)) = 4 / 3 * π * a ^ 3 * b.gravitationalPotential c ∧
    (∫ x in Ball.points c a, r.dot (b.gravitationalField (vec x))) = 4 / 3 * π * a ^ 3 * r.dot (b.gravitationalField c) := by
  have ab := attracts_prism b hb
  have as := attracts_sphere ⟨a, 1, c⟩ ha
  obtain ⟨R, hR, hd⟩ := as.near ab
  constructor
  · simp only [ab.potential, integral_const_mul]
    rw [energy_swap as.measurable ab.measurable hR as.finite hd,
      setIntegral_congr_fun ab.measurable fun q hq => (newton_outside c ha (h q hq) r).1, integral_const_mul]
    ring
  · simp only [ab.field, integral_const_mul]
    rw [force_swap as.measurable hR as.finite hd,
      setIntegral_congr_fun ab.measurable fun q hq => (newton_outside c ha (h q hq) r).2, integral_neg, integral_const_mul]
    ring

/-! ### No equilibrium -/

theorem other_points {f : V3 ℝ → ℝ} {c : V3 ℝ} {a : ℝ} (ha : 0 < a) (hi : IntegrableOn (fun x => f (vec x)) (Ball.points c a))
    (hm : ∫ x in Ball.points c a, f (vec x) = 4 / 3 * π * a ^ 3 * f c) :
    ∃ p, p ≠ c ∧ (p - c).len ≤ a ∧ f c ≤ f p := by
  by_contra hn
  push Not at hn
  have hV := Ball.integral_one c ha
  have hfin := ball_finite c ha
  have hz : ∫ x in Ball.points c a, (f c - f (vec x)) = 0 := by
    rw [integral_sub (f := fun _ => f c) (integrableOn_const hfin) hi, hm]
    have : ∫ _ in Ball.points c a, f c = f c * ∫ _ in Ball.points c a, (1 : ℝ) := by rw [← integral_const_mul]; simp only [mul_one]
    rw [this, hV]
    ring
  have hpos : ∀ x ∈ Ball.points c a, 0 ≤ f c - f (vec x) := fun x hx => by
    by_cases hxc : vec x = c
    · rw [hxc, sub_self]
    · exact sub_nonneg.2 (hn _ hxc hx).le
  have h0 := (setIntegral_eq_zero_iff_of_nonneg_ae (ae_restrict_of_forall_mem (Ball.measurableSet_points c a) hpos) ((integrableOn_const hfin).sub hi)).1 hz
  have hsingle : ∀ᵐ x ∂(volume.restrict (Ball.points c a)), x ∈ ({(c.x, c.y, c.z)} : Set (ℝ × ℝ × ℝ)) := by
    filter_upwards [h0, ae_restrict_mem (Ball.measurableSet_points c a)] with x hx hmem
    by_contra hne
    have hxc : vec x ≠ c := fun e => hne (by rw [← e]; rfl)
    have := hn _ hxc hmem
    simp only [Pi.zero_apply] at hx
    linarith
  have hv : (volume (Ball.points c a)).toReal = 4 / 3 * π * a ^ 3 := by
    rw [← hV]; simp [Measure.real]
  have hnull : volume.restrict (Ball.points c a) univ = 0 := by
    have h1 : volume.restrict (Ball.points c a) ({(c.x, c.y, c.z)} : Set (ℝ × ℝ × ℝ))ᶜ = 0 := hsingle
    have h2 : volume.restrict (Ball.points c a) ({(c.x, c.y, c.z)} : Set (ℝ × ℝ × ℝ)) = 0 :=
      le_antisymm ((Measure.restrict_apply_le _ _).trans (by
        rw [Measure.volume_eq_prod, ← singleton_prod_singleton, Measure.prod_prod]
        simp)) bot_le
    rw [← union_compl_self ({(c.x, c.y, c.z)} : Set (ℝ × ℝ × ℝ))]
    exact le_antisymm ((measure_union_le _ _).trans (by rw [h1, h2, add_zero])) bot_le
  rw [Measure.restrict_apply_univ] at hnull
  rw [hnull] at hv
  have : (0 : ℝ) < 4 / 3 * π * a ^ 3 := by positivity
  simp at hv
  linarith

/-- **C151.** The potential of a point mass has no strict extremum off the mass: in every ball around a point there are other points where it is no smaller and
others where it is no larger. -/
theorem point_no_extremum (m : PointMass) {c : V3 ℝ} (hc : c ≠ m.location) {a : ℝ} (ha : 0 < a) :
    (∃ p, p ≠ c ∧ (p - c).len ≤ a ∧ m.gravitationalPotential c ≤ m.gravitationalPotential p) ∧
    ∃ p, p ≠ c ∧ (p - c).len ≤ a ∧ m.gravitationalPotential p ≤ m.gravitationalPotential c := by
  have hl : 0 < (m.location - c).len := V3.len_sub_pos fun e => hc e.symm
  have hr : 0 < min a (m.location - c).len := lt_min ha hl
  have e : ∀ x : ℝ × ℝ × ℝ, m.gravitationalPotential (vec x) = G * m.mass * (1 / (vec x - m.location).len) := fun x => by
    simp only [PointMass.gravitationalPotential]; ring
  have hi : IntegrableOn (fun x => m.gravitationalPotential (vec x)) (Ball.points c (min a (m.location - c).len)) := by
    simp only [e]
    exact (Ball.integrable c hr m.location).1.const_mul _
  have hm := (point_mean m c hr (min_le_right _ _) 0).1
  obtain ⟨p, h1, h2, h3⟩ := other_points hr hi hm
  obtain ⟨q, k1, k2, k3⟩ := other_points (f := fun p => -m.gravitationalPotential p) hr hi.neg (by rw [integral_neg, hm]; ring)
  exact ⟨⟨p, h1, h2.trans (min_le_left _ _), h3⟩, q, k1, k2.trans (min_le_left _ _), neg_le_neg_iff.1 k3⟩

/-- **C151.** Nor has that of a prism outside it. -/
theorem prism_no_extremum (b : GravPrism) (hb : b.box.Proper) {c : V3 ℝ} (hc : (c.x, c.y, c.z) ∉ b.box.closed) {a : ℝ} (ha : 0 < a) :
    (∃ p, p ≠ c ∧ (p - c).len ≤ a ∧ b.gravitationalPotential c ≤ b.gravitationalPotential p) ∧
    ∃ p, p ≠ c ∧ (p - c).len ≤ a ∧ b.gravitationalPotential p ≤ b.gravitationalPotential c := by
  -- the distance to the prism
  obtain ⟨d, hd, hdist⟩ : ∃ d > 0, ∀ q ∈ b.box.points, d ≤ (vec q - c).len := by
    have hne : b.box.closed.Nonempty := ⟨(b.box.min.x, b.box.min.y, b.box.min.z),
      ⟨le_rfl, hb.1.le⟩, ⟨le_rfl, hb.2.1.le⟩, le_rfl, hb.2.2.le⟩
    obtain ⟨q0, hq0, hmin⟩ := b.box.isCompact_closed.exists_isMinOn hne (Ball.continuous_dist c).continuousOn
    refine ⟨(vec q0 - c).len, V3.len_sub_pos fun e => hc (by rw [← e]; exact hq0), fun q hq => ?_⟩
    exact hmin ⟨Ioc_subset_Icc_self hq.1, Ioc_subset_Icc_self hq.2.1, Ioc_subset_Icc_self hq.2.2⟩
  have hr : 0 < min a d := lt_min ha hd
  have hi : IntegrableOn (fun x => b.gravitationalPotential (vec x)) (Ball.points c (min a d)) := by
    have ab := attracts_prism b hb
    have as := attracts_sphere ⟨min a d, 1, c⟩ hr
    obtain ⟨R, hR, hd⟩ := as.near ab
    have := (energy_integrable as.measurable ab.measurable hR as.finite hd).integral_prod_left
    simp only [ab.potential]
    exact this.const_mul _
  have hm := (prism_mean b hb c hr (fun q hq => (min_le_right _ _).trans (hdist q hq)) 0).1
  obtain ⟨p, h1, h2, h3⟩ := other_points hr hi hm
  obtain ⟨q, k1, k2, k3⟩ := other_points (f := fun p => -b.gravitationalPotential p) hr hi.neg (by rw [integral_neg, hm]; ring)
  exact ⟨⟨p, h1, h2.trans (min_le_left _ _), h3⟩, q, k1, k2.trans (min_le_left _ _), neg_le_neg_iff.1 k3⟩

end Verif.Reaction

namespace Verif.Static

open Real MeasureTheory Prism Reaction

/-- **C151.** Nor has that of an electrode inside the ground, off the electrode. -/
theorem PointHalf.no_extremum {mu0 rho current : ℝ} {location : V3 ℝ} {s : PointHalf} (hs : PointHalf.new mu0 rho current location = .ok s)
    {c : V3 ℝ} (hz : c.z < 0) (hc : c ≠ location) {a : ℝ} (ha : 0 < a) :
    ∃ v p q w u, s.potential c = .ok v ∧ s.potential p = .ok w ∧ s.potential q = .ok u ∧ p ≠ c ∧ q ≠ c ∧ (p - c).len ≤ a ∧ (q - c).len ≤ a ∧
      v ≤ w ∧ u ≤ v := by
  obtain ⟨hrho, hl, -⟩ := pointHalf_new_eq hs
  have hV := pointHalf_potential mu0 rho current location s hs
  have hc' := ne_mirror hl hz.le hc
  have d1 : 0 < (location - c).len := V3.len_sub_pos fun e => hc e.symm
  have d2 : 0 < (mirror location - c).len := V3.len_sub_pos fun e => hc' e.symm
  set R := min (min a (-c.z)) (min (location - c).len (mirror location - c).len) with hRdef
  have hR : 0 < R := lt_min (lt_min ha (by linarith)) (lt_min d1 d2)
  have r1 : R ≤ (location - c).len := (min_le_right _ _).trans (min_le_left _ _)
  have r2 : R ≤ (mirror location - c).len := (min_le_right _ _).trans (min_le_right _ _)
  have r3 : R ≤ a := (min_le_left _ _).trans (min_le_left _ _)
  have r4 : R ≤ -c.z := (min_le_left _ _).trans (min_le_right _ _)
  have e : ∀ p : V3 ℝ, imagePotential rho current location p = rho * current / (4 * π) * (1 / (p - location).len) +
      rho * current / (4 * π) * (1 / (p - mirror location).len) := fun p => by
    simp only [imagePotential, mirror, mul_one_div]
  have i1 := (Ball.integrable c hR location).1.const_mul (rho * current / (4 * π))
  have i2 := (Ball.integrable c hR (mirror location)).1.const_mul (rho * current / (4 * π))
  have hi : IntegrableOn (fun x => imagePotential rho current location (vec x)) (Ball.points c R) := by
    simp only [e]
    exact i1.add i2
  have hm : ∫ x in Ball.points c R, imagePotential rho current location (vec x) = 4 / 3 * π * R ^ 3 * imagePotential rho current location c := by
    simp only [e]
    rw [integral_add i1 i2, integral_const_mul, integral_const_mul, (newton_outside c hR r1 0).1, (newton_outside c hR r2 0).1,
      show (c - location).len = (location - c).len by rw [← V3.len_neg, neg_sub],
      show (c - mirror location).len = (mirror location - c).len by rw [← V3.len_neg, neg_sub]]
    ring
  obtain ⟨p, h1, h2, h3⟩ := other_points hR hi hm
  obtain ⟨q, k1, k2, k3⟩ := other_points (f := fun p => -imagePotential rho current location p) hR hi.neg (by rw [integral_neg, hm]; ring)
  have low : ∀ p : V3 ℝ, (p - c).len ≤ R → p.z ≤ 0 := fun p hp => by
    have := (FarField.abs_z_le (p - c)).trans (hp.trans r4)
    rw [V3.sub_z, abs_le] at this
    linarith
  exact ⟨_, p, q, _, _, (hV c).trans (if_pos hz.le), (hV p).trans (if_pos (low p h2)), (hV q).trans (if_pos (low q k2)), h1, k1, h2.trans r3, k2.trans r3, h3,
    neg_le_neg_iff.1 k3⟩

end Verif.Static

/-! ### Non-vacuity -/

namespace Verif.Reaction

open Prism Gravity

/-- A cube and a ball that overlap. -/
example : (∫ x in (⟨⟨0, 0, 0⟩, ⟨1, 1, 1⟩⟩ : Box).points, (3 : ℝ) * (⟨1, 2, 0⟩ : Sphere).gravitationalPotential (vec x)) =
    ∫ x in Ball.points 0 1, (2 : ℝ) * (⟨⟨⟨0, 0, 0⟩, ⟨1, 1, 1⟩⟩, 3⟩ : GravPrism).gravitationalPotential (vec x) :=
  (prism_sphere ⟨⟨⟨0, 0, 0⟩, ⟨1, 1, 1⟩⟩, 3⟩ ⟨1, 2, 0⟩ ⟨by norm_num, by norm_num, by norm_num⟩ (by norm_num)).1

/-- A station above a cube. -/
example : ((⟨0, 0, 5⟩ : V3 ℝ).x, (⟨0, 0, 5⟩ : V3 ℝ).y, (⟨0, 0, 5⟩ : V3 ℝ).z) ∉ (⟨⟨-1, -1, -1⟩, ⟨1, 1, 1⟩⟩ : Box).closed := by
  rintro ⟨-, -, h⟩
  exact absurd h.2 (by norm_num)

end Verif.Reaction
