import Verif.Lemmas.PrismNewton
import Verif.Props.PrismTotals
import Verif.Model.Gravity

/-!
# C81: a prism's potential and field are Newton's integrals over its volume, at every point of space

Inside the prism, on its faces, edges and corners and on the extensions of its faces, where the kernels take their special branches.
-/

namespace Verif.Prism

open Real Set MeasureTheory Gravity

/-- A point of the box as a vector. -/
def vec (q : ℝ × ℝ × ℝ) : V3 ℝ := ⟨q.1, q.2.1, q.2.2⟩

theorem len_vec_sub (q : ℝ × ℝ × ℝ) (p : V3 ℝ) :
    (vec q - p).len = rr (q - (p.x, p.y, p.z)).1 (q - (p.x, p.y, p.z)).2.1 (q - (p.x, p.y, p.z)).2.2 := by
  simp only [V3.len, vec, rr, V3.sub_x, V3.sub_y, V3.sub_z, Prod.fst_sub, Prod.snd_sub]
  congr 1; ring

theorem points_eq_preimage (b : Box) (p : V3 ℝ) :
    b.points = (fun q : ℝ × ℝ × ℝ => q - (p.x, p.y, p.z)) ⁻¹' (Ioc (b.min.x - p.x) (b.max.x - p.x) ×ˢ
      Ioc (b.min.y - p.y) (b.max.y - p.y) ×ˢ Ioc (b.min.z - p.z) (b.max.z - p.z)) := by
  ext q
  simp [Box.points, mem_prod]

theorem measurePreserving_shift (v : ℝ × ℝ × ℝ) :
    MeasurePreserving (fun q : ℝ × ℝ × ℝ => q - v) volume volume := by
  have i2 : (volume : Measure (ℝ × ℝ)).IsAddHaarMeasure := by
    rw [Measure.volume_eq_prod]; exact Measure.prod.instIsAddHaarMeasure _ _
  have i3 : (volume : Measure (ℝ × ℝ × ℝ)).IsAddHaarMeasure := by
    rw [Measure.volume_eq_prod]; exact Measure.prod.instIsAddHaarMeasure _ _
  exact measurePreserving_sub_right volume v

theorem integral_shift (b : Box) (p : V3 ℝ) (g : ℝ × ℝ × ℝ → ℝ) :
    ∫ q in b.points, g (q - (p.x, p.y, p.z)) =
      ∫ q in Ioc (b.min.x - p.x) (b.max.x - p.x) ×ˢ Ioc (b.min.y - p.y) (b.max.y - p.y) ×ˢ
        Ioc (b.min.z - p.z) (b.max.z - p.z), g q := by
  rw [points_eq_preimage b p]
  exact (measurePreserving_shift _).setIntegral_preimage_emb (MeasurableEquiv.subRight _).measurableEmbedding g _

theorem integrableOn_shift (b : Box) (p : V3 ℝ) {g : ℝ × ℝ × ℝ → ℝ}
    (h : IntegrableOn g (Ioc (b.min.x - p.x) (b.max.x - p.x) ×ˢ Ioc (b.min.y - p.y) (b.max.y - p.y) ×ˢ
        Ioc (b.min.z - p.z) (b.max.z - p.z))) :
    IntegrableOn (fun q => g (q - (p.x, p.y, p.z))) b.points := by
  rw [points_eq_preimage b p]
  exact ((measurePreserving_shift _).integrableOn_comp_preimage (MeasurableEquiv.subRight _).measurableEmbedding).2 h

theorem evalDefInt_neg_corners (b : Box) (f : ℝ → ℝ → ℝ → ℝ) (p : V3 ℝ) :
    corners (fun x y z => -f x y z) (b.min.x - p.x) (b.max.x - p.x) (b.min.y - p.y) (b.max.y - p.y)
      (b.min.z - p.z) (b.max.z - p.z) = -b.evalDefInt f p 0 := by
  simp only [corners, Box.evalDefInt, cycleN]
  ring

/-- The three integrals of Newton's law over a box, at every point. -/
theorem newton_box (b : Box) (h : b.Proper) (p : V3 ℝ) :
    (IntegrableOn (fun q => 1 / (vec q - p).len) b.points ∧ ∫ q in b.points, 1 / (vec q - p).len = -b.evalDefInt Py.prismF p 0) ∧
    (IntegrableOn (fun q => (q.1 - p.x) / (vec q - p).len ^ 3) b.points ∧
      ∫ q in b.points, (q.1 - p.x) / (vec q - p).len ^ 3 = -b.evalDefInt Py.prismFz p 1) ∧
    (IntegrableOn (fun q => (q.2.1 - p.y) / (vec q - p).len ^ 3) b.points ∧
      ∫ q in b.points, (q.2.1 - p.y) / (vec q - p).len ^ 3 = -b.evalDefInt Py.prismFz p 2) ∧
    (IntegrableOn (fun q => (q.2.2 - p.z) / (vec q - p).len ^ 3) b.points ∧
      ∫ q in b.points, (q.2.2 - p.z) / (vec q - p).len ^ 3 = -b.evalDefInt Py.prismFz p 0) := by
  have h1 : b.min.x - p.x ≤ b.max.x - p.x := by linarith [h.1]
  have h2 : b.min.y - p.y ≤ b.max.y - p.y := by linarith [h.2.1]
  have h3 : b.min.z - p.z ≤ b.max.z - p.z := by linarith [h.2.2]
  simp only [len_vec_sub]
  refine ⟨⟨?_, ?_⟩, ⟨?_, ?_⟩, ⟨?_, ?_⟩, ?_, ?_⟩
  · exact integrableOn_shift b p (integrableOn_inv ..)
  · rw [integral_shift b p fun q => 1 / rr q.1 q.2.1 q.2.2, integral_inv_r h1 h2 h3, evalDefInt_neg_corners]
  · exact integrableOn_shift b p (g := fun q => q.1 / rr q.1 q.2.1 q.2.2 ^ 3)
      (integrableOn_cube _ _ _ _ _ _ (c := fun q => q.1) (by fun_prop) fun q => (abs_le_rr q.1 q.2.1 q.2.2).1)
  · rw [evalDefInt_cycle1, ← evalDefInt_neg_corners, ← integral_x h1 h2 h3]
    exact integral_shift b p fun q => q.1 / rr q.1 q.2.1 q.2.2 ^ 3
  · exact integrableOn_shift b p (g := fun q => q.2.1 / rr q.1 q.2.1 q.2.2 ^ 3)
      (integrableOn_cube _ _ _ _ _ _ (c := fun q => q.2.1) (by fun_prop) fun q => (abs_le_rr q.1 q.2.1 q.2.2).2.1)
  · rw [evalDefInt_cycle2, ← evalDefInt_neg_corners, ← integral_y h1 h2 h3]
    exact integral_shift b p fun q => q.2.1 / rr q.1 q.2.1 q.2.2 ^ 3
  · exact integrableOn_shift b p (g := fun q => q.2.2 / rr q.1 q.2.1 q.2.2 ^ 3)
      (integrableOn_cube _ _ _ _ _ _ (c := fun q => q.2.2) (by fun_prop) fun q => (abs_le_rr q.1 q.2.1 q.2.2).2.2)
  · rw [← evalDefInt_neg_corners, ← integral_z h1 h2 h3]
    exact integral_shift b p fun q => q.2.2 / rr q.1 q.2.1 q.2.2 ^ 3

/-- **C81.** The prism's potential is `G ρ ∭ dq / |q - p|`, a convergent integral, at every point `p`. -/
theorem gravPrism_potential_is_integral (s : GravPrism) (h : s.box.Proper) (p : V3 ℝ) :
    IntegrableOn (fun q => G * s.rho / (vec q - p).len) s.box.points ∧
    s.gravitationalPotential p = ∫ q in s.box.points, G * s.rho / (vec q - p).len := by
  obtain ⟨⟨hi, he⟩, -⟩ := newton_box s.box h p
  have e : ∀ q, G * s.rho / (vec q - p).len = G * s.rho * (1 / (vec q - p).len) := fun q => by ring
  simp only [e]
  refine ⟨hi.const_mul _, ?_⟩
  rw [integral_const_mul, he, GravPrism.gravitationalPotential]
  ring

/-- **C81.** The prism's field is `G ρ ∭ (q - p) / |q - p|³ dq`, a convergent integral, at every point `p`. -/
theorem gravPrism_field_is_integral (s : GravPrism) (h : s.box.Proper) (p : V3 ℝ) :
    (s.gravitationalField p).x = ∫ q in s.box.points, G * s.rho * (vec q - p).x / (vec q - p).len ^ 3 ∧
    (s.gravitationalField p).y = ∫ q in s.box.points, G * s.rho * (vec q - p).y / (vec q - p).len ^ 3 ∧
    (s.gravitationalField p).z = ∫ q in s.box.points, G * s.rho * (vec q - p).z / (vec q - p).len ^ 3 := by
  obtain ⟨-, ⟨-, hx⟩, ⟨-, hy⟩, -, hz⟩ := newton_box s.box h p
  simp only [mul_div_assoc, integral_const_mul]
  simp only [vec, V3.sub_x, V3.sub_y, V3.sub_z] at hx hy hz ⊢
  rw [hx, hy, hz]
  simp only [GravPrism.gravitationalField]
  refine ⟨?_, ?_, ?_⟩ <;> ring

/-- **C81.** The integrals of the field converge. -/
theorem gravPrism_field_integrable (s : GravPrism) (h : s.box.Proper) (p : V3 ℝ) :
    IntegrableOn (fun q => G * s.rho * (vec q - p).x / (vec q - p).len ^ 3) s.box.points ∧
    IntegrableOn (fun q => G * s.rho * (vec q - p).y / (vec q - p).len ^ 3) s.box.points ∧
    IntegrableOn (fun q => G * s.rho * (vec q - p).z / (vec q - p).len ^ 3) s.box.points := by
  obtain ⟨-, ⟨hx, -⟩, ⟨hy, -⟩, hz, -⟩ := newton_box s.box h p
  simp only [mul_div_assoc]
  exact ⟨hx.const_mul _, hy.const_mul _, hz.const_mul _⟩

/-- **C81.** The magnetic prism's potential is the integral of the dipole potentials of its volume elements, at every point. -/
theorem magPrism_potential_is_integral (s : MagPrism) (h : s.box.Proper) (p : V3 ℝ) :
    s.scalarPotential p = ∫ q in s.box.points, 1 / (4 * π) * s.magnetization.dot (vec q - p) / (vec q - p).len ^ 3 := by
  obtain ⟨-, ⟨ix, hx⟩, ⟨iy, hy⟩, iz, hz⟩ := newton_box s.box h p
  have e : ∀ q : ℝ × ℝ × ℝ, 1 / (4 * π) * s.magnetization.dot (vec q - p) / (vec q - p).len ^ 3 =
      1 / (4 * π) * (s.magnetization.x * ((q.1 - p.x) / (vec q - p).len ^ 3) + s.magnetization.y * ((q.2.1 - p.y) / (vec q - p).len ^ 3) +
        s.magnetization.z * ((q.2.2 - p.z) / (vec q - p).len ^ 3)) := by
    intro q
    generalize (vec q - p).len = l
    simp only [V3.dot, vec, V3.sub_x, V3.sub_y, V3.sub_z]
    ring
  simp only [e]
  rw [integral_const_mul, integral_add (f := fun q : ℝ × ℝ × ℝ => s.magnetization.x * ((q.1 - p.x) / (vec q - p).len ^ 3) +
      s.magnetization.y * ((q.2.1 - p.y) / (vec q - p).len ^ 3)) ((ix.const_mul _).add (iy.const_mul _)) (iz.const_mul _),
    integral_add (ix.const_mul _) (iy.const_mul _), integral_const_mul, integral_const_mul, integral_const_mul, hx, hy, hz]
  have ek : (-1.0 : ℝ) = -1 := by norm_num
  simp only [MagPrism.scalarPotential, ek]
  ring

/-- The hypotheses are met, at a corner of the box. -/
example : (GravPrism.gravitationalPotential ⟨⟨⟨0, 0, 0⟩, ⟨1, 2, 3⟩⟩, 5⟩ ⟨0, 0, 0⟩) =
    ∫ q in Box.points ⟨⟨0, 0, 0⟩, ⟨1, 2, 3⟩⟩, G * 5 / (vec q - ⟨0, 0, 0⟩).len :=
  (gravPrism_potential_is_integral ⟨⟨⟨0, 0, 0⟩, ⟨1, 2, 3⟩⟩, 5⟩ ⟨by norm_num, by norm_num, by norm_num⟩ _).2

end Verif.Prism
