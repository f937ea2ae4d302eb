import Verif.Lemmas.PrismEverywhere
import Verif.Props.PrismNewton

/-! # C18 without exceptions: the prism's field is the gradient of its potential, and is continuous, at every point of space -/

namespace Verif.Prism

open Real

/-- Differentiating the corner sum of a kernel that is differentiable everywhere. -/
theorem hasGrad_evalDefInt_all (b : Box) {f fx fy fz : ℝ → ℝ → ℝ → ℝ}
    (h : ∀ x y z, KGrad f (fx x y z) (fy x y z) (fz x y z) x y z) (p : V3 ℝ) :
    HasGrad (fun q => b.evalDefInt f q 0)
      ⟨-b.evalDefInt fx p 0, -b.evalDefInt fy p 0, -b.evalDefInt fz p 0⟩ p := by
  intro v
  have key : ∀ x y z : ℝ,
      HasDerivAt (fun t : ℝ => f (x - (p + t • v).x) (y - (p + t • v).y) (z - (p + t • v).z))
        (-(v.x * fx (x - p.x) (y - p.y) (z - p.z) + v.y * fy (x - p.x) (y - p.y) (z - p.z)
          + v.z * fz (x - p.x) (y - p.y) (z - p.z))) 0 := by
    intro x y z
    have hk := h (x - p.x) (y - p.y) (z - p.z) (-v.x) (-v.y) (-v.z)
    refine (hk.congr_of_eventuallyEq (Filter.Eventually.of_forall fun t => ?_)).congr_deriv (by ring)
    simp only [V3.add_x, V3.add_y, V3.add_z, V3.smul_x, V3.smul_y, V3.smul_z, smul_eq_mul]
    congr 1 <;> ring
  simp only [Box.evalDefInt, cycleN]
  refine ((((((((key _ _ _).sub (key _ _ _)).sub (key _ _ _)).add
    (key _ _ _)).sub (key _ _ _)).add (key _ _ _)).add
    (key _ _ _)).sub (key _ _ _)).congr_deriv ?_
  simp only [V3.app, smul_eq_mul]
  ring

theorem evalDefInt_dF (b : Box) (p : V3 ℝ) :
    b.evalDefInt dF p 0 = -b.evalDefInt Py.prismFz p 1 ∧
    b.evalDefInt (fun x y z => dF y z x) p 0 = -b.evalDefInt Py.prismFz p 2 ∧
    b.evalDefInt (fun x y z => dF z x y) p 0 = -b.evalDefInt Py.prismFz p 0 := by
  simp only [Box.evalDefInt, cycleN, dF]
  refine ⟨?_, ?_, ?_⟩ <;> ring

/-- **C18.** The field is the gradient of the potential at every point: inside, outside, on faces, edges and corners. -/
theorem gravPrism_field_is_gradient_everywhere (s : GravPrism) (p : V3 ℝ) :
    HasGrad s.gravitationalPotential (s.gravitationalField p) p := by
  intro v
  have h := (hasGrad_evalDefInt_all s.box kgrad_prismF_all p v).const_mul (-Gravity.G * s.rho)
  obtain ⟨e1, e2, e3⟩ := evalDefInt_dF s.box p
  refine h.congr_deriv ?_
  simp only [V3.app, GravPrism.gravitationalField, e1, e2, e3, smul_eq_mul]
  ring

theorem continuous_evalDefInt (b : Box) {f : ℝ → ℝ → ℝ → ℝ} (h : Continuous fun p : ℝ × ℝ × ℝ => f p.1 p.2.1 p.2.2) :
    Continuous fun q => b.evalDefInt f (vec q) 0 := by
  have key : ∀ x y z : ℝ, Continuous fun q : ℝ × ℝ × ℝ => f (x - (vec q).x) (y - (vec q).y) (z - (vec q).z) := fun x y z =>
    h.comp (f := fun q : ℝ × ℝ × ℝ => (x - q.1, y - q.2.1, z - q.2.2)) (by fun_prop)
  simp only [Box.evalDefInt, cycleN]
  exact (((((((key _ _ _).sub (key _ _ _)).sub (key _ _ _)).add (key _ _ _)).sub (key _ _ _)).add (key _ _ _)).add
    (key _ _ _)).sub (key _ _ _)

theorem continuous_fz (b : Box) :
    Continuous (fun q => b.evalDefInt Py.prismFz (vec q) 1) ∧ Continuous (fun q => b.evalDefInt Py.prismFz (vec q) 2) ∧
    Continuous (fun q => b.evalDefInt Py.prismFz (vec q) 0) := by
  refine ⟨?_, ?_, continuous_evalDefInt b continuous_prismFz⟩
  · simp only [evalDefInt_cycle1]
    exact continuous_evalDefInt b (continuous_prismFz.comp (f := fun p : ℝ × ℝ × ℝ => (p.2.1, p.2.2, p.1)) (by fun_prop))
  · simp only [evalDefInt_cycle2]
    exact continuous_evalDefInt b (continuous_prismFz.comp (f := fun p : ℝ × ℝ × ℝ => (p.2.2, p.1, p.2.1)) (by fun_prop))

/-- **C18.** The potential and the field are continuous on all of space. -/
theorem gravPrism_continuous_everywhere (s : GravPrism) :
    Continuous (fun q => s.gravitationalPotential (vec q)) ∧ Continuous (fun q => (s.gravitationalField (vec q)).x) ∧
    Continuous (fun q => (s.gravitationalField (vec q)).y) ∧ Continuous (fun q => (s.gravitationalField (vec q)).z) := by
  obtain ⟨h1, h2, h3⟩ := continuous_fz s.box
  exact ⟨continuous_const.mul (continuous_evalDefInt s.box continuous_prismF), continuous_const.mul h1, continuous_const.mul h2,
    continuous_const.mul h3⟩

/-- **C24.** The magnetic prism's scalar potential is continuous on all of space. -/
theorem magPrism_potential_continuous (s : MagPrism) : Continuous fun q => s.scalarPotential (vec q) := by
  obtain ⟨h1, h2, h3⟩ := continuous_fz s.box
  exact continuous_const.mul (((h1.mul continuous_const).add (h2.mul continuous_const)).add (h3.mul continuous_const))

/-- At a corner of the unit cube. -/
example : HasGrad (GravPrism.gravitationalPotential ⟨⟨⟨0, 0, 0⟩, ⟨1, 1, 1⟩⟩, 1⟩)
    (GravPrism.gravitationalField ⟨⟨⟨0, 0, 0⟩, ⟨1, 1, 1⟩⟩, 1⟩ ⟨1, 1, 1⟩) ⟨1, 1, 1⟩ :=
  gravPrism_field_is_gradient_everywhere _ _

end Verif.Prism
