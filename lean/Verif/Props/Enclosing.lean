import Verif.Props.Reaction
import Verif.Props.PrismTotals
import Verif.Props.FarField
import Verif.Props.PoissonRelation
import Mathlib.MeasureTheory.Measure.Haar.Unique

/-!
# C165: the mean field in a ball around a body tells where its mass is
-/

namespace Verif.Enclosing

open Real MeasureTheory Set Prism Gravity Reaction

/-! ### Specification -/

/-- The field `g` integrated over the ball of radius `a` around `c` is `4πG/3` times the mass times the vector from `c` to the centre of mass: the mean
of the field is `G m (p - c) / a³`. -/
def MeanField (g : V3 ℝ → V3 ℝ) (m : ℝ) (p c : V3 ℝ) (a : ℝ) : Prop :=
  ∀ r : V3 ℝ, ∫ q in Ball.points c a, r.dot (g (vec q)) = 4 / 3 * π * a ^ 3 * r.dot ((G * m / a ^ 3) • (p - c))

/-! ### Moments of the mass -/

theorem sphere_inside (c : V3 ℝ) {a : ℝ} {p : V3 ℝ} (hp : (p - c).len ≤ a) (r : V3 ℝ) :
    r.dot ((⟨a, 1, c⟩ : Sphere).gravitationalField p) = -(4 / 3 * π * G) * r.dot (p - c) := by
  simp only [Sphere.gravitationalField, gt_iff_lt, if_neg (not_lt.2 hp), V3.dot, V3.map_x, V3.map_y, V3.map_z]
  ring

theorem spread (m a : ℝ) (ha : 0 < a) (p c r : V3 ℝ) : 4 / 3 * π * a ^ 3 * r.dot ((G * m / a ^ 3) • (p - c)) = 4 / 3 * π * G * m * r.dot (p - c) := by
  simp only [V3.dot, V3.smul_x, V3.smul_y, V3.smul_z, smul_eq_mul]
  field_simp

theorem Attracts.enclosed {ρ : ℝ} {A : Set (ℝ × ℝ × ℝ)} {U : V3 ℝ → ℝ} {g : V3 ℝ → V3 ℝ} (h : Attracts ρ A U g) (c : V3 ℝ) {a : ℝ} (ha : 0 < a)
    (hA : ∀ q ∈ A, (vec q - c).len ≤ a) (r : V3 ℝ) :
    ∫ q in Ball.points c a, r.dot (g (vec q)) = 4 / 3 * π * G * ρ * ∫ q in A, r.dot (vec q - c) := by
  have k := h.reaction (attracts_sphere ⟨a, 1, c⟩ ha) r
  rw [setIntegral_congr_fun h.measurable fun q hq => by rw [sphere_inside c (hA q hq) r]] at k
  simp only [one_mul] at k
  rw [← neg_eq_iff_eq_neg.2 k, ← integral_const_mul, ← integral_neg]
  refine integral_congr_ae (Filter.Eventually.of_forall fun q => ?_)
  ring

theorem box_moment (b : Box) (h : b.Proper) (r c : V3 ℝ) : ∫ q in b.points, r.dot (vec q - c) = b.volume * r.dot (b.location - c) := by
  have hc := b.isCompact_closed
  have hs := b.points_subset_closed
  have i1 : IntegrableOn (fun q : ℝ × ℝ × ℝ => q.1) b.points := (continuous_fst.continuousOn.integrableOn_compact hc).mono_set hs
  have i2 : IntegrableOn (fun q : ℝ × ℝ × ℝ => q.2.1) b.points := ((continuous_fst.comp continuous_snd).continuousOn.integrableOn_compact hc).mono_set hs
  have i3 : IntegrableOn (fun q : ℝ × ℝ × ℝ => q.2.2) b.points := ((continuous_snd.comp continuous_snd).continuousOn.integrableOn_compact hc).mono_set hs
  have i0 : IntegrableOn (fun _ : ℝ × ℝ × ℝ => r.dot c) b.points := integrableOn_const (Box.finite_points b h)
  have e : (fun q : ℝ × ℝ × ℝ => r.dot (vec q - c)) = fun q => r.x * q.1 + r.y * q.2.1 + r.z * q.2.2 - r.dot c := by
    funext q
    simp only [V3.dot, vec, V3.sub_x, V3.sub_y, V3.sub_z]
    ring
  obtain ⟨c1, c2, c3⟩ := location_is_centroid b h
  have j2 : IntegrableOn (fun q : ℝ × ℝ × ℝ => r.x * q.1 + r.y * q.2.1) b.points := (i1.const_mul _).add (i2.const_mul _)
  have j3 : IntegrableOn (fun q : ℝ × ℝ × ℝ => r.x * q.1 + r.y * q.2.1 + r.z * q.2.2) b.points := j2.add (i3.const_mul _)
  rw [e, integral_sub j3 i0, integral_add j2 (i3.const_mul _), integral_add (i1.const_mul _) (i2.const_mul _), integral_const_mul, integral_const_mul,
    integral_const_mul, c1, c2, c3, setIntegral_const, smul_eq_mul, Measure.real, (volume_is_measure b h).1]
  simp only [V3.dot, V3.sub_x, V3.sub_y, V3.sub_z]
  ring

theorem ball_odd (p : V3 ℝ) (a : ℝ) (r : V3 ℝ) : ∫ q in Ball.points p a, r.dot (vec q - p) = 0 := by
  have i2 : (volume : Measure (ℝ × ℝ)).IsAddHaarMeasure := by rw [Measure.volume_eq_prod]; exact Measure.prod.instIsAddHaarMeasure _ _
  have i3 : (volume : Measure (ℝ × ℝ × ℝ)).IsAddHaarMeasure := by rw [Measure.volume_eq_prod]; exact Measure.prod.instIsAddHaarMeasure _ _
  rw [← integral_indicator (Ball.measurableSet_points _ _)]
  set f := (Ball.points p a).indicator fun q => r.dot (vec q - p) with hf
  have h := integral_sub_left_eq_self f volume ((2 * p.x, 2 * p.y, 2 * p.z) : ℝ × ℝ × ℝ)
  have o : ∀ q : ℝ × ℝ × ℝ, f ((2 * p.x, 2 * p.y, 2 * p.z) - q) = -f q := fun q => by
    have v : vec ((2 * p.x, 2 * p.y, 2 * p.z) - q) - p = -(vec q - p) := by
      ext <;> simp only [vec, V3.sub_x, V3.sub_y, V3.sub_z, V3.neg_x, V3.neg_y, V3.neg_z, Prod.fst_sub, Prod.snd_sub] <;> ring
    have m : (2 * p.x, 2 * p.y, 2 * p.z) - q ∈ Ball.points p a ↔ q ∈ Ball.points p a := by
      show (_ ≤ a) ↔ (_ ≤ a)
      rw [v, V3.len_neg]
    by_cases hq : q ∈ Ball.points p a
    · rw [hf, indicator_of_mem hq, indicator_of_mem (m.2 hq), v]
      simp only [V3.dot, V3.neg_x, V3.neg_y, V3.neg_z]
      ring
    · rw [hf, indicator_of_notMem hq, indicator_of_notMem (fun k => hq (m.1 k)), neg_zero]
  simp only [o, integral_neg] at h
  linarith

theorem ball_moment (p : V3 ℝ) {a : ℝ} (ha : 0 < a) (r c : V3 ℝ) : ∫ q in Ball.points p a, r.dot (vec q - c) = 4 / 3 * π * a ^ 3 * r.dot (p - c) := by
  have e : (fun q : ℝ × ℝ × ℝ => r.dot (vec q - c)) = fun q => r.dot (vec q - p) + r.dot (p - c) * 1 := by
    funext q
    simp only [V3.dot, V3.sub_x, V3.sub_y, V3.sub_z]
    ring
  have i0 : IntegrableOn (fun _ : ℝ × ℝ × ℝ => r.dot (p - c) * 1) (Ball.points p a) := integrableOn_const (ball_finite p ha)
  have i1 : IntegrableOn (fun q : ℝ × ℝ × ℝ => r.dot (vec q - p)) (Ball.points p a) := by
    have cont : Continuous fun q : ℝ × ℝ × ℝ => r.dot (vec q - p) := by
      simp only [V3.dot, vec, V3.sub_x, V3.sub_y, V3.sub_z]
      fun_prop
    exact (cont.continuousOn.integrableOn_compact (Ball.around p a).isCompact_closed).mono_set
      ((Ball.points_subset p ha).trans (Ball.around p a).points_subset_closed)
  rw [e, integral_add i1 i0, ball_odd, integral_const_mul, Ball.integral_one p ha]
  ring

/-! ### Properties -/

/-- **C165.** A prism in the ball. -/
theorem prism (b : GravPrism) (hb : b.box.Proper) (c : V3 ℝ) {a : ℝ} (ha : 0 < a) (h : b.box.points ⊆ Ball.points c a) :
    MeanField b.gravitationalField b.mass b.box.location c a := fun r => by
  rw [Attracts.enclosed (attracts_prism b hb) c ha (fun q hq => h hq) r, box_moment b.box hb, spread _ _ ha, GravPrism.mass]
  ring

/-- **C165.** A ball in the ball. -/
theorem sphere (s : Sphere) (hs : 0 < s.radius) (c : V3 ℝ) {a : ℝ} (ha : 0 < a) (h : Ball.points s.location s.radius ⊆ Ball.points c a) :
    MeanField s.gravitationalField s.mass s.location c a := fun r => by
  rw [Attracts.enclosed (attracts_sphere s hs) c ha (fun q hq => h hq) r, ball_moment _ hs, spread _ _ ha, Sphere.mass]
  ring

/-- **C165.** A point mass in the ball. -/
theorem point (m : PointMass) (c : V3 ℝ) {a : ℝ} (ha : 0 < a) (h : (m.location - c).len ≤ a) :
    MeanField m.gravitationalField m.mass m.location c a := fun r => by
  have k := (Attracts.on_point (attracts_sphere ⟨a, 1, c⟩ ha) m r).2
  simp only [one_mul] at k
  rw [k, sphere_inside c h, spread _ _ ha]
  ring

/-- Where the mass is can be read off: two bodies of the same mass in the ball have the same mean field only if their centres are the same. -/
theorem tells_centre {g g' : V3 ℝ → V3 ℝ} {m : ℝ} (hm : m ≠ 0) {p p' c : V3 ℝ} {a : ℝ} (ha : 0 < a) (h : MeanField g m p c a) (h' : MeanField g' m p' c a)
    (e : ∀ r : V3 ℝ, ∫ q in Ball.points c a, r.dot (g (vec q)) = ∫ q in Ball.points c a, r.dot (g' (vec q))) : p = p' := by
  have hG : G ≠ 0 := by norm_num [G]
  have key : ∀ r : V3 ℝ, r.dot (p - c) = r.dot (p' - c) := fun r => by
    have k := e r
    rw [h r, h' r, spread _ _ ha, spread _ _ ha] at k
    exact mul_left_cancel₀ (by positivity) k
  have k1 := key ⟨1, 0, 0⟩
  have k2 := key ⟨0, 1, 0⟩
  have k3 := key ⟨0, 0, 1⟩
  simp only [V3.dot, V3.sub_x, V3.sub_y, V3.sub_z] at k1 k2 k3
  ext <;> linarith

/-- **C165.** The scalar potential of a magnetised prism, integrated over a ball around it, is a third of the moment along the vector from the centre of the
ball to that of the prism.  (The sign is that of the code, `H = +∇φ`.) -/
theorem magnetic_prism (s : MagPrism) (hb : s.box.Proper) (c : V3 ℝ) {a : ℝ} (ha : 0 < a) (h : s.box.points ⊆ Ball.points c a) :
    ∫ q in Ball.points c a, s.scalarPotential (vec q) = 1 / 3 * s.moment.dot (s.box.location - c) := by
  have k := prism ⟨s.box, 1⟩ hb c ha h s.magnetization
  have hG : G ≠ 0 := by norm_num [G]
  rw [spread _ _ ha] at k
  simp only [fun p => s.poisson_potential (one_ne_zero (α := ℝ)) p, integral_div, k]
  simp only [GravPrism.mass, MagPrism.moment, V3.dot, V3.map_x, V3.map_y, V3.map_z]
  field_simp

/-- **C165.** What a sphere in a uniform field adds to the potential, integrated over a ball around the sphere, is a third of the volume of the sphere times
its polarisation along the vector from the sphere to the centre of the ball. -/
theorem electro_sphere (s : Verif.Sphere.Electro) (hr : 0 < s.radius) (h1 : 0 < s.sigmaSphere) (h0 : 0 < s.sigmaBackground) (c : V3 ℝ) {a : ℝ} (ha : 0 < a)
    (h : Ball.points s.location s.radius ⊆ Ball.points c a) :
    ∫ q in Ball.points c a, (s.potentialTotal (vec q) - s.potentialPrimary (vec q)) =
      1 / 3 * (4 / 3 * π * s.radius ^ 3) *
        ((1 / s.sigmaBackground) • (s.currentTotal s.location - s.sigmaBackground • s.fieldTotal s.location)).dot (c - s.location) := by
  have hG : G ≠ 0 := by norm_num [G]
  simp only [fun p => s.poisson hr h1 h0 (one_ne_zero (α := ℝ)) p]
  generalize (1 / s.sigmaBackground) • (s.currentTotal s.location - s.sigmaBackground • s.fieldTotal s.location) = P
  have k := sphere ⟨s.radius, 1, s.location⟩ hr c ha h P
  rw [spread _ _ ha] at k
  rw [integral_div, integral_neg, k]
  simp only [Sphere.mass, V3.dot, V3.sub_x, V3.sub_y, V3.sub_z]
  field_simp
  ring

example : (⟨⟨⟨0, 0, 0⟩, ⟨1, 2, 3⟩⟩, 5⟩ : GravPrism).box.Proper ∧ (⟨⟨⟨0, 0, 0⟩, ⟨1, 2, 3⟩⟩, 5⟩ : GravPrism).box.points ⊆ Ball.points 0 4 := by
  refine ⟨⟨by norm_num, by norm_num, by norm_num⟩, fun q hq => ?_⟩
  obtain ⟨⟨h1, h2⟩, ⟨h3, h4⟩, h5, h6⟩ := hq
  simp only at h1 h2 h3 h4 h5 h6
  show (vec q - 0).len ≤ 4
  rw [V3.len, Real.sqrt_le_left (by norm_num)]
  simp only [vec, sub_zero]
  nlinarith

end Verif.Enclosing
