import Verif.Props.NewtonBall
import Verif.Props.GravitySphere
import Verif.Props.Voxels
import Verif.Props.PlaneTotal

/-!
# C160: layered and hollow balls (the shell theorem)

A ball with layers or a cavity is put together from `Sphere`s, each with the density by which it differs from what is around it.
-/

namespace Verif.Gravity

open Real MeasureTheory Set Prism

/-! ### Specification: concentric balls and the mass in them -/

/-- Balls with the common centre `c`. -/
def Concentric (c : V3 ℝ) (l : List Sphere) : Prop := ∀ s ∈ l, s.location = c ∧ 0 < s.radius

open Classical in
/-- The density at a point: the sum of those of the balls the point is in. -/
noncomputable def densityAt (l : List Sphere) (p : V3 ℝ) : ℝ := (l.map fun s => if (p - s.location).len ≤ s.radius then s.rho else 0).sum

/-- The mass within the distance `r` from `c`. -/
noncomputable def massWithin (l : List Sphere) (c : V3 ℝ) (r : ℝ) : ℝ := ∫ q in Ball.points c r, densityAt l (vec q)

/-- The field of several balls. -/
noncomputable def fieldOf (l : List Sphere) (p : V3 ℝ) : V3 ℝ := (l.map fun s => s.gravitationalField p).sum

/-- The potential of several balls. -/
noncomputable def potentialOf (l : List Sphere) (p : V3 ℝ) : ℝ := (l.map fun s => s.gravitationalPotential p).sum

/-! ### The mass within a distance -/

theorem layer_eq (s : Sphere) :
    (fun q : ℝ × ℝ × ℝ => densityAt [s] (vec q)) = (Ball.points s.location s.radius).indicator fun _ => s.rho := by
  funext q
  simp only [densityAt, List.map_cons, List.map_nil, List.sum_cons, List.sum_nil, add_zero, indicator]
  rfl

theorem layer_integrable (s : Sphere) {r : ℝ} (hr : 0 < r) : IntegrableOn (fun q => densityAt [s] (vec q)) (Ball.points s.location r) := by
  rw [layer_eq]
  exact (integrableOn_const (ball_finite _ hr)).indicator (Ball.measurableSet_points _ _)

theorem layer_mass (s : Sphere) (hs : 0 < s.radius) {r : ℝ} (hr : 0 < r) :
    massWithin [s] s.location r = 4 / 3 * π * (min s.radius r) ^ 3 * s.rho := by
  rw [massWithin, layer_eq, setIntegral_indicator (Ball.measurableSet_points _ _)]
  have e : Ball.points s.location r ∩ Ball.points s.location s.radius = Ball.points s.location (min s.radius r) := by
    ext q
    show (_ ≤ r ∧ _ ≤ s.radius) ↔ _ ≤ min s.radius r
    rw [le_min_iff, and_comm]
  rw [e, setIntegral_const, smul_eq_mul, Voxels.real_ball _ (lt_min hs hr)]

theorem massWithin_cons (s : Sphere) (l : List Sphere) {c : V3 ℝ} (h : Concentric c (s :: l)) {r : ℝ} (hr : 0 < r) :
    massWithin (s :: l) c r = 4 / 3 * π * (min s.radius r) ^ 3 * s.rho + massWithin l c r ∧ IntegrableOn (fun q => densityAt l (vec q)) (Ball.points c r) := by
  have hl : IntegrableOn (fun q => densityAt l (vec q)) (Ball.points c r) := by
    clear hr
    induction l with
    | nil => simp [densityAt]
    | cons t l ih =>
      have ht := (h t (by simp)).1
      have := ih fun u hu => h u (by simp only [List.mem_cons] at hu ⊢; tauto)
      rcases le_or_gt r 0 with hr | hr
      · exact ((layer_integrable t one_pos).mono_set (by
          rw [ht]
          exact fun q hq => le_trans (show (vec q - c).len ≤ r from hq) (hr.trans zero_le_one))).add this |>.congr (by
            refine Filter.Eventually.of_forall fun q => ?_
            simp [densityAt])
      · have k := layer_integrable t hr
        rw [ht] at k
        exact (k.add this).congr (Filter.Eventually.of_forall fun q => by simp [densityAt])
  refine ⟨?_, hl⟩
  obtain ⟨hc, hs⟩ := h s (by simp)
  have k := layer_integrable s hr
  have m := layer_mass s hs hr
  rw [hc] at k m
  rw [← m, massWithin, massWithin, massWithin, ← integral_add k hl]
  refine integral_congr_ae (Filter.Eventually.of_forall fun q => ?_)
  simp [densityAt]

/-! ### Layered balls -/

theorem Sphere.field_within (s : Sphere) (hs : 0 < s.radius) {p : V3 ℝ} (hp : 0 < (p - s.location).len) :
    s.gravitationalField p = (-(G * (4 / 3 * π * (min s.radius (p - s.location).len) ^ 3 * s.rho) / (p - s.location).len ^ 3)) • (p - s.location) := by
  simp only [gravitationalField, toPointMass, mass, PointMass.gravitationalField]
  split_ifs with h
  · rw [min_eq_left h.le]
    ext <;> simp only [V3.map_x, V3.map_y, V3.map_z, V3.smul_x, V3.smul_y, V3.smul_z, smul_eq_mul] <;> field_simp
  · rw [min_eq_right (not_lt.1 h)]
    ext <;> simp only [V3.map_x, V3.map_y, V3.map_z, V3.smul_x, V3.smul_y, V3.smul_z, smul_eq_mul] <;> field_simp

/-- **C160.** The field of a layered ball at a distance `r` from its centre is that of the mass within `r`, as if it were all at the centre; what lies
further out has no effect. -/
theorem layered_field (l : List Sphere) (c : V3 ℝ) (h : Concentric c l) (p : V3 ℝ) (hp : p ≠ c) :
    fieldOf l p = (⟨massWithin l c (p - c).len, c⟩ : PointMass).gravitationalField p := by
  have hr : 0 < (p - c).len := lt_of_le_of_ne (V3.len_nonneg _) fun e => hp (sub_eq_zero.1 (V3.len_eq_zero.1 e.symm))
  have main : fieldOf l p = (-(G * massWithin l c (p - c).len / (p - c).len ^ 3)) • (p - c) := by
    induction l with
    | nil => simp [fieldOf, massWithin, densityAt]
    | cons s l ih =>
      have hl : Concentric c l := fun u hu => h u (by simp [hu])
      obtain ⟨hc, hs⟩ := h s (by simp)
      have e : fieldOf (s :: l) p = s.gravitationalField p + fieldOf l p := by simp [fieldOf]
      rw [e, ih hl, (massWithin_cons s l h hr).1, s.field_within hs (by rw [hc]; exact hr), hc, ← add_smul]
      congr 1
      ring
  rw [main]
  simp only [PointMass.gravitationalField]
  ext <;> simp only [V3.map_x, V3.map_y, V3.map_z, V3.smul_x, V3.smul_y, V3.smul_z, smul_eq_mul] <;> field_simp

/-- **C160.** From outside, nothing but the mass shows: two layered balls of the same mass have the same field beyond the larger one. -/
theorem layers_invisible (l k : List Sphere) (c : V3 ℝ) (hl : Concentric c l) (hk : Concentric c k) {R : ℝ} (hlR : ∀ s ∈ l, s.radius ≤ R)
    (hkR : ∀ s ∈ k, s.radius ≤ R) (hm : (l.map Sphere.mass).sum = (k.map Sphere.mass).sum) (p : V3 ℝ) (hp : R < (p - c).len) :
    fieldOf l p = fieldOf k p ∧ potentialOf l p = potentialOf k p := by
  have out : ∀ n : List Sphere, Concentric c n → (∀ s ∈ n, s.radius ≤ R) →
      fieldOf n p = (-(G * (n.map Sphere.mass).sum / (p - c).len ^ 3)) • (p - c) ∧ potentialOf n p = G * (n.map Sphere.mass).sum / (p - c).len := by
    intro n hn hnR
    induction n with
    | nil => simp [fieldOf, potentialOf]
    | cons s n ih =>
      obtain ⟨e1, e2⟩ := ih (fun u hu => hn u (by simp [hu])) fun u hu => hnR u (by simp [hu])
      obtain ⟨hc, hs⟩ := hn s (by simp)
      have hsp : s.radius < (p - s.location).len := by rw [hc]; exact (hnR s (by simp)).trans_lt hp
      have hsp' := hc ▸ hsp
      have e : fieldOf (s :: n) p = s.gravitationalField p + fieldOf n p := by simp [fieldOf]
      have e' : potentialOf (s :: n) p = s.gravitationalPotential p + potentialOf n p := by simp [potentialOf]
      have r0 : 0 < (p - s.location).len := hs.trans hsp
      rw [e, e', e1, e2]
      constructor
      · rw [s.field_within hs r0, min_eq_left hsp.le, hc, ← add_smul]
        congr 1
        simp only [List.map_cons, List.sum_cons, Sphere.mass]
        ring
      · simp only [Sphere.gravitationalPotential, gt_iff_lt, if_pos hsp', Sphere.toPointMass, PointMass.gravitationalPotential, hc, List.map_cons,
          List.sum_cons]
        ring
  obtain ⟨a1, a2⟩ := out l hl hlR
  obtain ⟨b1, b2⟩ := out k hk hkR
  rw [a1, a2, b1, b2, hm]
  exact ⟨rfl, rfl⟩

/-! ### Hollow balls -/

/-- **C160.** In a cavity of a ball, anywhere in it, the field is the same in strength and direction at every point: that of the density times the
vector between the centres. -/
theorem cavity_uniform (s t : Sphere) (ht : t.rho = -s.rho) (hin : (t.location - s.location).len + t.radius ≤ s.radius) (p : V3 ℝ)
    (hp : (p - t.location).len ≤ t.radius) :
    s.gravitationalField p + t.gravitationalField p = (-(4 / 3 * π * G * s.rho)) • (t.location - s.location) := by
  have h1 : (p - s.location).len ≤ s.radius := by
    have := V3.len_add_le (p - t.location) (t.location - s.location)
    rw [sub_add_sub_cancel] at this
    linarith
  simp only [Sphere.gravitationalField, gt_iff_lt, not_lt.2 h1, not_lt.2 hp, if_false, ht]
  ext <;> simp only [V3.map_x, V3.map_y, V3.map_z, V3.smul_x, V3.smul_y, V3.smul_z, V3.add_x, V3.add_y, V3.add_z, V3.sub_x, V3.sub_y, V3.sub_z, smul_eq_mul] <;> ring

/-- **C160.** So the gradients in the cavity cancel. -/
theorem cavity_gradient (s t : Sphere) (ht : t.rho = -s.rho) (hin : (t.location - s.location).len + t.radius ≤ s.radius) (p : V3 ℝ)
    (hp : (p - t.location).len < t.radius) :
    ∃ m n, s.gravitationalGradient p = some m ∧ t.gravitationalGradient p = some n ∧ ∀ v, m.mulVec v + n.mulVec v = 0 := by
  have h1 : (p - s.location).len < s.radius := by
    have := V3.len_add_le (p - t.location) (t.location - s.location)
    rw [sub_add_sub_cancel] at this
    linarith
  refine ⟨_, _, by simp only [Sphere.gravitationalGradient, h1.ne, gt_iff_lt, not_lt.2 h1.le, if_false]; rfl,
    by simp only [Sphere.gravitationalGradient, hp.ne, gt_iff_lt, not_lt.2 hp.le, if_false]; rfl, fun v => ?_⟩
  ext <;> simp [M3.mulVec, V3.dot, ht]

/-- **C160.** In a concentric shell there is no field, and the potential is the same everywhere; outside, the field is that of its mass at the
centre. -/
theorem shell (c : V3 ℝ) {a b : ℝ} (rho : ℝ) (ha : 0 < a) (hab : a ≤ b) (p : V3 ℝ) :
    ((p - c).len ≤ a → fieldOf [⟨b, rho, c⟩, ⟨a, -rho, c⟩] p = 0 ∧
      potentialOf [⟨b, rho, c⟩, ⟨a, -rho, c⟩] p = 2 * π * G * rho * (b ^ 2 - a ^ 2)) ∧
    (b < (p - c).len → fieldOf [⟨b, rho, c⟩, ⟨a, -rho, c⟩] p =
      (⟨rho * (volume.real (Ball.points c b \ Ball.points c a)), c⟩ : PointMass).gravitationalField p) := by
  constructor
  · intro hp
    have h := cavity_uniform ⟨b, rho, c⟩ ⟨a, -rho, c⟩ rfl (by simp [V3.len_eq_zero.2 rfl, hab]) p hp
    simp only [sub_self, smul_zero] at h
    refine ⟨by simpa [fieldOf] using h, ?_⟩
    simp only [potentialOf, List.map_cons, List.map_nil, List.sum_cons, List.sum_nil, add_zero, Sphere.gravitationalPotential, gt_iff_lt,
      not_lt.2 hp, not_lt.2 (hp.trans hab), if_false]
    ring
  · intro hp
    have hb := ha.trans_le hab
    have hsub : Ball.points c a ⊆ Ball.points c b := fun q hq => le_trans (show (vec q - c).len ≤ a from hq) hab
    have hv : volume.real (Ball.points c b \ Ball.points c a) = 4 / 3 * π * b ^ 3 - 4 / 3 * π * a ^ 3 := by
      rw [measureReal_sdiff hsub (Ball.measurableSet_points c a) (ball_finite c hb), Voxels.real_ball c hb, Voxels.real_ball c ha]
    rw [hv]
    simp only [fieldOf, List.map_cons, List.map_nil, List.sum_cons, List.sum_nil, add_zero, Sphere.gravitationalField, gt_iff_lt, if_pos hp,
      if_pos (hab.trans_lt hp), Sphere.toPointMass, Sphere.mass, PointMass.gravitationalField]
    ext <;> simp only [V3.map_x, V3.map_y, V3.map_z, V3.add_x, V3.add_y, V3.add_z] <;> ring

/-- Non-vacuity: an earth with a core, seen from a point in the mantle; and a cavity off the centre. -/
example : Concentric 0 [⟨6371, 4.5, 0⟩, ⟨3480, 6.5, 0⟩] ∧ (⟨5000, 0, 0⟩ : V3 ℝ) ≠ 0 := by
  refine ⟨fun s hs => ?_, fun h => by simpa using congrArg V3.x h⟩
  simp only [List.mem_cons, List.not_mem_nil, or_false] at hs
  rcases hs with rfl | rfl <;> norm_num

example : ((⟨1, 0, 0⟩ : V3 ℝ) - (⟨3, 2, 0⟩ : Sphere).location).len + 1 ≤ (⟨3, 2, 0⟩ : Sphere).radius := by
  simp only [V3.len, sub_zero]
  norm_num

end Verif.Gravity
