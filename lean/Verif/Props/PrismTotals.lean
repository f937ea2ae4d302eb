import Verif.Model.Prism
import Verif.Props.PrismPoisson
import Mathlib.MeasureTheory.Measure.Lebesgue.Basic
import Mathlib.MeasureTheory.Integral.Prod
import Mathlib.MeasureTheory.Measure.Haar.OfBasis
import Mathlib.Analysis.SpecialFunctions.Integrals.Basic

/-!
# C71: volume, centre, mass and moment of a prism are the integrals over the box
-/

namespace Verif.Prism

open MeasureTheory

/-- The points of the box between the two corners. -/
def Box.points (b : Box) : Set (ℝ × ℝ × ℝ) :=
  Set.Ioc b.min.x b.max.x ×ˢ Set.Ioc b.min.y b.max.y ×ˢ Set.Ioc b.min.z b.max.z

/-- The integral of a product of functions of one coordinate each over the box. -/
theorem integral_points (b : Box) (h : b.Proper) (f g k : ℝ → ℝ) :
    ∫ p in b.points, f p.1 * (g p.2.1 * k p.2.2) =
      (∫ x in b.min.x..b.max.x, f x) * ((∫ y in b.min.y..b.max.y, g y) * ∫ z in b.min.z..b.max.z, k z) := by
  rw [intervalIntegral.integral_of_le h.1.le, intervalIntegral.integral_of_le h.2.1.le,
    intervalIntegral.integral_of_le h.2.2.le, Box.points, Measure.volume_eq_prod,
    setIntegral_prod_mul f (fun q : ℝ × ℝ => g q.1 * k q.2) _ _, Measure.volume_eq_prod,
    setIntegral_prod_mul g k]

/-- `volume` is the Lebesgue measure of the box, and it is positive. -/
theorem volume_is_measure (b : Box) (h : b.Proper) :
    (MeasureTheory.volume b.points).toReal = b.volume ∧ 0 < b.volume := by
  obtain ⟨hx, hy, hz⟩ := h
  constructor
  · rw [Box.points, Measure.volume_eq_prod, Measure.prod_prod, Measure.volume_eq_prod, Measure.prod_prod]
    simp only [Real.volume_Ioc, ENNReal.toReal_mul]
    rw [ENNReal.toReal_ofReal (by linarith), ENNReal.toReal_ofReal (by linarith), ENNReal.toReal_ofReal (by linarith)]
    simp only [Box.volume, V3.sub_x, V3.sub_y, V3.sub_z]
    ring
  · have h1 := sub_pos.2 hx
    have h2 := sub_pos.2 hy
    have h3 := sub_pos.2 hz
    simp only [Box.volume, V3.sub_x, V3.sub_y, V3.sub_z]
    positivity

/-- `location` is the centre of mass: the mean position over the box. -/
theorem location_is_centroid (b : Box) (h : b.Proper) :
    ∫ p in b.points, p.1 = b.volume * b.location.x ∧
    ∫ p in b.points, p.2.1 = b.volume * b.location.y ∧
    ∫ p in b.points, p.2.2 = b.volume * b.location.z := by
  have key := integral_points b h
  refine ⟨?_, ?_, ?_⟩
  · have := key id (fun _ => 1) (fun _ => 1)
    simp only [id, mul_one, integral_id, intervalIntegral.integral_const, smul_eq_mul] at this
    rw [this]
    simp only [Box.volume, Box.location, V3.sub_x, V3.sub_y, V3.sub_z, V3.add_x]
    ring
  · have := key (fun _ => 1) id (fun _ => 1)
    simp only [id, mul_one, one_mul, integral_id, intervalIntegral.integral_const, smul_eq_mul] at this
    rw [this]
    simp only [Box.volume, Box.location, V3.sub_x, V3.sub_y, V3.sub_z, V3.add_y]
    ring
  · have := key (fun _ => 1) (fun _ => 1) id
    simp only [id, mul_one, one_mul, integral_id, intervalIntegral.integral_const, smul_eq_mul] at this
    rw [this]
    simp only [Box.volume, Box.location, V3.sub_x, V3.sub_y, V3.sub_z, V3.add_z]
    ring

/-- `mass` is the density integrated over the box. -/
theorem mass_is_integral (s : GravPrism) (h : s.box.Proper) : s.mass = ∫ _p in s.box.points, s.rho := by
  have := (volume_is_measure s.box h).1
  simp [GravPrism.mass, ← this, Measure.real]

/-- `moment` is the magnetization integrated over the box. -/
theorem moment_is_integral (s : MagPrism) (h : s.box.Proper) :
    s.moment.x = ∫ _p in s.box.points, s.magnetization.x ∧
    s.moment.y = ∫ _p in s.box.points, s.magnetization.y ∧
    s.moment.z = ∫ _p in s.box.points, s.magnetization.z := by
  have := (volume_is_measure s.box h).1
  simp [MagPrism.moment, V3.map, ← this, Measure.real]

/-- A proper box that is not a cube. -/
example : (⟨⟨-1, 0, 2⟩, ⟨1, 3, 7⟩⟩ : Box).Proper ∧ (⟨⟨-1, 0, 2⟩, ⟨1, 3, 7⟩⟩ : Box).volume = 30 := by
  constructor
  · refine ⟨?_, ?_, ?_⟩ <;> norm_num
  · simp only [Box.volume, V3.sub_x, V3.sub_y, V3.sub_z]; norm_num

end Verif.Prism
