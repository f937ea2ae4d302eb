import Verif.Lemmas.MotionPrism
import Verif.Props.PrismOffSurface

/-!
# C103: the responses do not depend on where the origin is and how the axes point — prisms

A prism has its faces along the axes, so a motion takes it to a prism when it turns the axes into each other (`Motion.Moves`).
-/

namespace Verif.Prism

open MeasureTheory Gravity Motion

variable {g : Motion} {b b' : Box}

theorem turned_integral (hp : b.Proper) (h : g.Moves b b') (k : ℝ) (p : V3 ℝ) :
    (⟨∫ q in b'.points, k * (vec q - g.act p).x / (vec q - g.act p).len ^ 3,
      ∫ q in b'.points, k * (vec q - g.act p).y / (vec q - g.act p).len ^ 3,
      ∫ q in b'.points, k * (vec q - g.act p).z / (vec q - g.act p).len ^ 3⟩ : V3 ℝ) =
    g.turn ⟨∫ q in b.points, k * (vec q - p).x / (vec q - p).len ^ 3, ∫ q in b.points, k * (vec q - p).y / (vec q - p).len ^ 3,
      ∫ q in b.points, k * (vec q - p).z / (vec q - p).len ^ 3⟩ := by
  obtain ⟨-, ⟨ix, -⟩, ⟨iy, -⟩, iz, -⟩ := newton_box b hp p
  have row : ∀ r : V3 ℝ, ∫ q in b.points, k * r.dot (vec q - p) / (vec q - p).len ^ 3 =
      r.dot ⟨∫ q in b.points, k * (vec q - p).x / (vec q - p).len ^ 3, ∫ q in b.points, k * (vec q - p).y / (vec q - p).len ^ 3,
      ∫ q in b.points, k * (vec q - p).z / (vec q - p).len ^ 3⟩ := by
    intro r
    have e : ∀ q : ℝ × ℝ × ℝ, k * r.dot (vec q - p) / (vec q - p).len ^ 3 =
        k * r.x * ((q.1 - p.x) / (vec q - p).len ^ 3) + k * r.y * ((q.2.1 - p.y) / (vec q - p).len ^ 3) +
        k * r.z * ((q.2.2 - p.z) / (vec q - p).len ^ 3) := by
      intro q
      simp only [V3.dot, vec, V3.sub_x, V3.sub_y, V3.sub_z]
      ring
    simp only [e]
    have i1 := ix.const_mul (k * r.x)
    have i2 := iy.const_mul (k * r.y)
    have i3 := iz.const_mul (k * r.z)
    have i12 : IntegrableOn (fun q : ℝ × ℝ × ℝ => k * r.x * ((q.1 - p.x) / (vec q - p).len ^ 3) +
        k * r.y * ((q.2.1 - p.y) / (vec q - p).len ^ 3)) b.points := i1.add i2
    rw [integral_add i12 i3, integral_add i1 i2]
    simp only [integral_const_mul, mul_div_assoc, V3.dot, vec, V3.sub_x, V3.sub_y, V3.sub_z]
    ring
  have mv : ∀ F : V3 ℝ → ℝ, ∫ q in b'.points, F (vec q - g.act p) = ∫ q in b.points, F (g.turn (vec q - p)) := by
    intro F
    rw [g.integral_moved h fun v => F (v - g.act p)]
    simp only [g.act_sub]
  rw [mv fun d => k * d.x / d.len ^ 3, mv fun d => k * d.y / d.len ^ 3, mv fun d => k * d.z / d.len ^ 3]
  simp only [g.turn_len]
  ext
  · exact row g.rot.x
  · exact row g.rot.y
  · exact row g.rot.z

theorem turned_kernels (hp : b.Proper) (hp' : b'.Proper) (h : g.Moves b b') (p : V3 ℝ) :
    b'.evalDefInt Py.prismF (g.act p) 0 = b.evalDefInt Py.prismF p 0 ∧
    (⟨b'.evalDefInt Py.prismFz (g.act p) 1, b'.evalDefInt Py.prismFz (g.act p) 2, b'.evalDefInt Py.prismFz (g.act p) 0⟩ : V3 ℝ) =
      g.turn ⟨b.evalDefInt Py.prismFz p 1, b.evalDefInt Py.prismFz p 2, b.evalDefInt Py.prismFz p 0⟩ := by
  obtain ⟨⟨-, w⟩, ⟨-, x⟩, ⟨-, y⟩, -, z⟩ := newton_box b hp p
  obtain ⟨⟨-, w'⟩, ⟨-, x'⟩, ⟨-, y'⟩, -, z'⟩ := newton_box b' hp' (g.act p)
  constructor
  · have e := g.integral_moved h fun v => 1 / (v - g.act p).len
    simp only [g.act_sub, g.turn_len] at e
    linarith
  · have e := turned_integral hp h (-1) p
    simp only [neg_mul, one_mul, neg_div, integral_neg] at e
    simp only [vec, V3.sub_x, V3.sub_y, V3.sub_z] at e x y z x' y' z'
    rw [x, y, z, x', y', z'] at e
    simpa only [neg_neg] using e

/-- The faces of a prism and of the prism moved are in the same places. -/
theorem offSurface_moved (h : g.Moves b b') {p : V3 ℝ} (hs : b.OffSurface p) : b'.OffSurface (g.act p) := by
  rcases hs with hs | hs
  · exact .inl fun hc => hs ((h.closed p).1 hc)
  · exact .inr (h.inside p hs)

theorem offSurface_near {p : V3 ℝ} (hs : b.OffSurface p) (w : V3 ℝ) : ∀ᶠ t : ℝ in nhds 0, b.OffSurface (p + t • w) := by
  rcases hs with hs | ⟨⟨x1, x2⟩, ⟨y1, y2⟩, z1, z2⟩
  · filter_upwards [line_out b p hs w] with t ht
    exact .inl ht
  · have c : ∀ a d : ℝ, ContinuousAt (fun t : ℝ => a + t * d) 0 := fun a d => by fun_prop
    have lo : ∀ {a d m : ℝ}, m < a → ∀ᶠ t : ℝ in nhds 0, m < a + t * d := fun {a d m} h =>
      (c a d).eventually (lt_mem_nhds (by simpa using h))
    have hi : ∀ {a d m : ℝ}, a < m → ∀ᶠ t : ℝ in nhds 0, a + t * d < m := fun {a d m} h =>
      (c a d).eventually (gt_mem_nhds (by simpa using h))
    filter_upwards [lo x1, hi x2, lo y1, hi y2, lo z1, hi z2] with t a1 a2 a3 a4 a5 a6
    rw [line_eq]
    exact .inr ⟨⟨a1, a2⟩, ⟨a3, a4⟩, a5, a6⟩

/-- **C103.** Gravity of a prism: potential and field at every point, gradient off the surface. -/
theorem gravPrism_moved (hp : b.Proper) (hp' : b'.Proper) (h : g.Moves b b') (rho : ℝ) (p : V3 ℝ) :
    (⟨b', rho⟩ : GravPrism).gravitationalPotential (g.act p) = (⟨b, rho⟩ : GravPrism).gravitationalPotential p ∧
    (⟨b', rho⟩ : GravPrism).gravitationalField (g.act p) = g.turn ((⟨b, rho⟩ : GravPrism).gravitationalField p) ∧
    (b.OffSurface p →
      (⟨b', rho⟩ : GravPrism).gravitationalGradient (g.act p) = g.turnT ((⟨b, rho⟩ : GravPrism).gravitationalGradient p)) := by
  have hf : ∀ p, (⟨b', rho⟩ : GravPrism).gravitationalField (g.act p) = g.turn ((⟨b, rho⟩ : GravPrism).gravitationalField p) := by
    intro p
    have e := congrArg (fun v : V3 ℝ => v.map (-G * rho * ·)) (turned_kernels hp hp' h p).2
    rw [← g.turn_map _ _ _ fun c => rfl] at e
    exact e
  refine ⟨?_, hf p, fun hs => ?_⟩
  · simp only [GravPrism.gravitationalPotential, (turned_kernels hp hp' h p).1]
  · exact g.jac_moved (fun w => Filter.Eventually.of_forall fun t => hf _) (gravPrism_gradient_is_jacobian_off_surface ⟨b, rho⟩ hp p hs)
      (gravPrism_gradient_is_jacobian_off_surface ⟨b', rho⟩ hp' _ (offSurface_moved h hs))

/-- **C103.** Magnetic prism: scalar potential at every point; field, flux density and gradient off the surface. -/
theorem magPrism_moved (hp : b.Proper) (hp' : b'.Proper) (h : g.Moves b b') (m p : V3 ℝ) :
    (⟨b', g.turn m⟩ : MagPrism).scalarPotential (g.act p) = (⟨b, m⟩ : MagPrism).scalarPotential p ∧
    (b.OffSurface p →
      (⟨b', g.turn m⟩ : MagPrism).magneticField (g.act p) = g.turn ((⟨b, m⟩ : MagPrism).magneticField p) ∧
      (⟨b', g.turn m⟩ : MagPrism).magneticFluxDensity (g.act p) = g.turn ((⟨b, m⟩ : MagPrism).magneticFluxDensity p) ∧
      (⟨b', g.turn m⟩ : MagPrism).magneticFieldGradient (g.act p) = g.turnT ((⟨b, m⟩ : MagPrism).magneticFieldGradient p)) := by
  have hV : ∀ p, (⟨b', g.turn m⟩ : MagPrism).scalarPotential (g.act p) = (⟨b, m⟩ : MagPrism).scalarPotential p := by
    intro p
    have e := g.turn_dot ⟨b.evalDefInt Py.prismFz p 1, b.evalDefInt Py.prismFz p 2, b.evalDefInt Py.prismFz p 0⟩ m
    rw [← (turned_kernels hp hp' h p).2] at e
    exact congrArg (-1.0 / (4 * Real.pi) * ·) e
  have hH : ∀ p, b.OffSurface p → (⟨b', g.turn m⟩ : MagPrism).magneticField (g.act p) = g.turn ((⟨b, m⟩ : MagPrism).magneticField p) :=
    fun p hs => g.grad_moved hV (magPrism_field_is_gradient_off_surface ⟨b, m⟩ hp p hs)
      (magPrism_field_is_gradient_off_surface ⟨b', g.turn m⟩ hp' _ (offSurface_moved h hs))
  refine ⟨hV p, fun hs => ⟨hH p hs, ?_, ?_⟩⟩
  · have hin : (⟨b', g.turn m⟩ : MagPrism).isInside (g.act p) ↔ (⟨b, m⟩ : MagPrism).isInside p := by
      have := h.closed p
      simp only [Box.closed, Set.mem_prod, Set.mem_Icc] at this
      simp only [MagPrism.isInside, ge_iff_le]
      tauto
    simp only [MagPrism.magneticFluxDensity, hH p hs]
    by_cases hi : (⟨b, m⟩ : MagPrism).isInside p
    · rw [if_pos hi, if_pos (hin.2 hi), ← g.turn_add, ← g.turn_map _ _ _ fun c => rfl]
    · rw [if_neg hi, if_neg (fun hc => hi (hin.1 hc)), ← g.turn_map _ _ _ fun c => rfl]
  · refine g.jac_moved (fun w => ?_) (magPrism_gradient_is_jacobian_off_surface ⟨b, m⟩ hp p hs)
      (magPrism_gradient_is_jacobian_off_surface ⟨b', g.turn m⟩ hp' _ (offSurface_moved h hs))
    filter_upwards [offSurface_near hs w] with t ht
    exact hH _ ht

/-- A quarter turn about the vertical and a shift, and a prism it takes to another prism. -/
def quarter : Motion := ⟨⟨⟨0, -1, 0⟩, ⟨1, 0, 0⟩, ⟨0, 0, 1⟩⟩, ⟨5, 6, 7⟩, by
  constructor
  · ext <;> simp [M3.mul, M3.transpose, M3.one, M3.mulVec, V3.dot]
  · simp [M3.det, V3.dot, V3.cross]⟩

example : quarter.Moves ⟨⟨0, 0, 0⟩, ⟨1, 2, 3⟩⟩ ⟨⟨3, 6, 7⟩, ⟨5, 7, 10⟩⟩ ∧ Box.Proper ⟨⟨0, 0, 0⟩, ⟨1, 2, 3⟩⟩ ∧ Box.Proper ⟨⟨3, 6, 7⟩, ⟨5, 7, 10⟩⟩ := by
  refine ⟨?_, by simp [Box.Proper], by norm_num [Box.Proper]⟩
  rintro ⟨x, y, z⟩
  simp only [quarter, actP, act, M3.mulVec, V3.dot, vec, Box.closed, Set.mem_prod, Set.mem_Icc, V3.add_x, V3.add_y, V3.add_z]
  constructor <;> rintro ⟨⟨h1, h2⟩, ⟨h3, h4⟩, h5, h6⟩ <;> refine ⟨⟨?_, ?_⟩, ⟨?_, ?_⟩, ?_, ?_⟩ <;> linarith

end Verif.Prism
