import Verif.Props.Mirror
import Verif.Props.MotionPrism
import Verif.Lemmas.MirrorPrism

/-!
# C119: mirror images — prisms

`g.Moves b.flip b'` says that the prism `b'` is the mirror image of the prism `b`.
-/

namespace Verif.Prism

open Gravity Motion

variable {g : Motion} {b b' : Box}

/-- Reflected in the plane `y = 0`. -/
theorem gravPrism_flipped (hp : b.Proper) (rho : ℝ) (p : V3 ℝ) :
    (⟨b.flip, rho⟩ : GravPrism).gravitationalPotential p.flip = (⟨b, rho⟩ : GravPrism).gravitationalPotential p ∧
    (⟨b.flip, rho⟩ : GravPrism).gravitationalField p.flip = ((⟨b, rho⟩ : GravPrism).gravitationalField p).flip ∧
    (b.OffSurface p →
      (⟨b.flip, rho⟩ : GravPrism).gravitationalGradient p.flip = ((⟨b, rho⟩ : GravPrism).gravitationalGradient p).flip) := by
  have hf : ∀ p, (⟨b.flip, rho⟩ : GravPrism).gravitationalField p.flip = ((⟨b, rho⟩ : GravPrism).gravitationalField p).flip := by
    intro p
    have e := congrArg (fun v : V3 ℝ => v.map (-G * rho * ·)) (flip_kernels hp p).2
    refine e.trans ?_
    simp only [V3.map, V3.flip, GravPrism.gravitationalField, mul_neg]
  refine ⟨?_, hf p, fun hs => ?_⟩
  · simp only [GravPrism.gravitationalPotential, (flip_kernels hp p).1]
  · exact jac_flipped (fun w => Filter.Eventually.of_forall fun t => hf _) (gravPrism_gradient_is_jacobian_off_surface ⟨b, rho⟩ hp p hs)
      (gravPrism_gradient_is_jacobian_off_surface ⟨b.flip, rho⟩ (Box.flip_proper hp) _ (Box.flip_offSurface hs))

/-- **C119.** Gravity of a prism: potential and field at every point, gradient off the surface. -/
theorem gravPrism_mirrored (hp : b.Proper) (hp' : b'.Proper) (h : g.Moves b.flip b') (rho : ℝ) (p : V3 ℝ) :
    (⟨b', rho⟩ : GravPrism).gravitationalPotential (g.mirror p) = (⟨b, rho⟩ : GravPrism).gravitationalPotential p ∧
    (⟨b', rho⟩ : GravPrism).gravitationalField (g.mirror p) = g.polar ((⟨b, rho⟩ : GravPrism).gravitationalField p) ∧
    (b.OffSurface p →
      (⟨b', rho⟩ : GravPrism).gravitationalGradient (g.mirror p) = g.mirrorT ((⟨b, rho⟩ : GravPrism).gravitationalGradient p)) := by
  obtain ⟨m1, m2, m3⟩ := gravPrism_moved (Box.flip_proper hp) hp' h rho p.flip
  obtain ⟨f1, f2, f3⟩ := gravPrism_flipped hp rho p
  exact ⟨m1.trans f1, m2.trans (congrArg g.turn f2), fun hs => (m3 (Box.flip_offSurface hs)).trans (congrArg g.turnT (f3 hs))⟩

/-- Reflected in the plane `y = 0`: the moment is axial and so is the field, and the scalar potential changes its sign. -/
theorem magPrism_flipped (hp : b.Proper) (m p : V3 ℝ) :
    (⟨b.flip, m.antiflip⟩ : MagPrism).scalarPotential p.flip = -(⟨b, m⟩ : MagPrism).scalarPotential p ∧
    (b.OffSurface p →
      (⟨b.flip, m.antiflip⟩ : MagPrism).magneticField p.flip = ((⟨b, m⟩ : MagPrism).magneticField p).antiflip ∧
      (⟨b.flip, m.antiflip⟩ : MagPrism).magneticFluxDensity p.flip = ((⟨b, m⟩ : MagPrism).magneticFluxDensity p).antiflip ∧
      (⟨b.flip, m.antiflip⟩ : MagPrism).magneticFieldGradient p.flip = -((⟨b, m⟩ : MagPrism).magneticFieldGradient p).flip) := by
  have hV : ∀ p, (⟨b.flip, m.antiflip⟩ : MagPrism).scalarPotential p.flip = -(⟨b, m⟩ : MagPrism).scalarPotential p := by
    intro p
    have e := (flip_kernels hp p).2
    have e1 := congrArg V3.x e
    have e2 := congrArg V3.y e
    have e3 := congrArg V3.z e
    simp only [V3.flip] at e1 e2 e3
    simp only [MagPrism.scalarPotential, V3.flip, V3.antiflip, e1, e2, e3]
    generalize (-1.0 / (4 * Real.pi) : ℝ) = c
    ring
  have hH : ∀ p, b.OffSurface p → (⟨b.flip, m.antiflip⟩ : MagPrism).magneticField p.flip = ((⟨b, m⟩ : MagPrism).magneticField p).antiflip := by
    intro p hs
    have h1 := (magPrism_field_is_gradient_off_surface ⟨b, m⟩ hp p hs).neg
    have h2 := magPrism_field_is_gradient_off_surface ⟨b.flip, m.antiflip⟩ (Box.flip_proper hp) p.flip (Box.flip_offSurface hs)
    have e := grad_flipped (fun q => ?_) h1 h2
    · rw [e]
      ext <;> simp [V3.flip, V3.antiflip]
    · simp only [hV]
  refine ⟨hV p, fun hs => ⟨hH p hs, ?_, ?_⟩⟩
  · have hin : (⟨b.flip, m.antiflip⟩ : MagPrism).isInside p.flip ↔ (⟨b, m⟩ : MagPrism).isInside p := by
      have := b.flip_closed p
      simp only [Box.closed, Set.mem_prod, Set.mem_Icc] at this
      simp only [MagPrism.isInside, ge_iff_le]
      tauto
    simp only [MagPrism.magneticFluxDensity, hH p hs]
    by_cases hi : (⟨b, m⟩ : MagPrism).isInside p
    · rw [if_pos hi, if_pos (hin.2 hi)]
      ext <;> simp [V3.antiflip] <;> ring
    · rw [if_neg hi, if_neg (fun hc => hi (hin.1 hc))]
      ext <;> simp [V3.antiflip]
  · obtain ⟨j1, j2, j3⟩ := magPrism_gradient_is_jacobian_off_surface ⟨b, m⟩ hp p hs
    have hJ : HasJac (fun q => -(⟨b, m⟩ : MagPrism).magneticField q) (-(⟨b, m⟩ : MagPrism).magneticFieldGradient p) p := ⟨j1.neg, j2.neg, j3.neg⟩
    have e := jac_flipped (fun w => ?_) hJ
      (magPrism_gradient_is_jacobian_off_surface ⟨b.flip, m.antiflip⟩ (Box.flip_proper hp) _ (Box.flip_offSurface hs))
    · rw [e]
      ext <;> simp [M3.flip]
    · filter_upwards [offSurface_near hs w] with t ht
      rw [hH _ ht]
      ext <;> simp [V3.flip, V3.antiflip]

/-- **C119.** Magnetic prism: scalar potential at every point; field, flux density and gradient off the surface. -/
theorem magPrism_mirrored (hp : b.Proper) (hp' : b'.Proper) (h : g.Moves b.flip b') (m p : V3 ℝ) :
    (⟨b', g.axial m⟩ : MagPrism).scalarPotential (g.mirror p) = -(⟨b, m⟩ : MagPrism).scalarPotential p ∧
    (b.OffSurface p →
      (⟨b', g.axial m⟩ : MagPrism).magneticField (g.mirror p) = g.axial ((⟨b, m⟩ : MagPrism).magneticField p) ∧
      (⟨b', g.axial m⟩ : MagPrism).magneticFluxDensity (g.mirror p) = g.axial ((⟨b, m⟩ : MagPrism).magneticFluxDensity p) ∧
      (⟨b', g.axial m⟩ : MagPrism).magneticFieldGradient (g.mirror p) = -g.mirrorT ((⟨b, m⟩ : MagPrism).magneticFieldGradient p)) := by
  obtain ⟨m1, m2⟩ := magPrism_moved (Box.flip_proper hp) hp' h m.antiflip p.flip
  obtain ⟨f1, f2⟩ := magPrism_flipped hp m p
  refine ⟨m1.trans f1, fun hs => ?_⟩
  obtain ⟨a1, a2, a3⟩ := m2 (Box.flip_offSurface hs)
  obtain ⟨b1, b2, b3⟩ := f2 hs
  refine ⟨a1.trans (congrArg g.turn b1), a2.trans (congrArg g.turn b2), (a3.trans (congrArg g.turnT b3)).trans ?_⟩
  ext <;> simp [mirrorT, turnT, M3.flip, M3.mul, M3.transpose, M3.mulVec, V3.dot] <;> ring

/-- A prism and its mirror image in a plane `x = y`. -/
example : (⟨⟨⟨0, -1, 0⟩, ⟨1, 0, 0⟩, ⟨0, 0, 1⟩⟩, 0, quarter.isRot⟩ : Motion).Moves (Box.flip ⟨⟨0, 0, 0⟩, ⟨1, 2, 3⟩⟩) ⟨⟨0, 0, 0⟩, ⟨2, 1, 3⟩⟩ ∧
    Box.Proper ⟨⟨0, 0, 0⟩, ⟨1, 2, 3⟩⟩ ∧ Box.Proper ⟨⟨0, 0, 0⟩, ⟨2, 1, 3⟩⟩ := by
  refine ⟨?_, by simp [Box.Proper], by norm_num [Box.Proper]⟩
  rintro ⟨x, y, z⟩
  simp only [actP, act, M3.mulVec, V3.dot, vec, Box.flip, Box.closed, Set.mem_prod, Set.mem_Icc, V3.add_x, V3.add_y, V3.add_z, V3.zero_x,
    V3.zero_y, V3.zero_z]
  constructor <;> rintro ⟨⟨h1, h2⟩, ⟨h3, h4⟩, h5, h6⟩ <;> refine ⟨⟨?_, ?_⟩, ⟨?_, ?_⟩, ?_, ?_⟩ <;> linarith

end Verif.Prism
