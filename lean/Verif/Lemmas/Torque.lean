import Verif.Lemmas.Reaction
import Verif.Props.StaticDipole

/-! # Torques (helper lemmas) -/

namespace Verif.Reaction

open Real MeasureTheory Set Prism

variable {A B : Set (ℝ × ℝ × ℝ)} {ρ R : ℝ}

/-- The torque of one bounded body on another can be integrated. -/
theorem torque_integrable (hA : MeasurableSet A) (hB : MeasurableSet B) (hρ : 0 < ρ) (fA : volume A ≠ ⊤)
    (hd : ∀ x ∈ A, ∀ q ∈ B, (vec q - vec x).len ≤ ρ) {c : V3 ℝ} (hR : ∀ x ∈ A, (vec x - c).len ≤ R) (r : V3 ℝ) :
    Integrable (fun z : (ℝ × ℝ × ℝ) × (ℝ × ℝ × ℝ) => (r.cross (vec z.1 - c)).dot (vec z.2 - vec z.1) / (vec z.2 - vec z.1).len ^ 3)
      ((volume.restrict A).prod (volume.restrict B)) := by
  have i1 := (kernel_integrable hA hρ fA hd ⟨1, 0, 0⟩).norm
  have i2 := (kernel_integrable hA hρ fA hd ⟨0, 1, 0⟩).norm
  have i3 := (kernel_integrable hA hρ fA hd ⟨0, 0, 1⟩).norm
  refine (((i1.add i2).add i3).const_mul (2 * r.len * R)).mono' ?_ ?_
  · refine Measurable.aestronglyMeasurable ?_
    simp only [V3.dot, V3.cross, V3.len, vec, V3.sub_x, V3.sub_y, V3.sub_z]
    fun_prop
  · rw [Measure.prod_restrict]
    refine ae_restrict_of_forall_mem (hA.prod hB) fun z hz => ?_
    have hx := hR z.1 hz.1
    simp only [Pi.add_apply, V3.dot, one_mul, zero_mul, add_zero, zero_add]
    generalize vec z.2 - vec z.1 = d
    generalize vec z.1 - c = x at hx
    have h0 := V3.len_nonneg d
    have hR0 : 0 ≤ R := (V3.len_nonneg x).trans hx
    have hr0 := V3.len_nonneg r
    have key : ∀ a b c e : ℝ, |a| ≤ r.len → |b| ≤ R → |c| ≤ r.len → |e| ≤ R → |a * b - c * e| ≤ 2 * r.len * R := by
      intro a b c e h1 h2 h3 h4
      have k1 : |a * b| ≤ r.len * R := by rw [abs_mul]; exact mul_le_mul h1 h2 (abs_nonneg _) hr0
      have k2 : |c * e| ≤ r.len * R := by rw [abs_mul]; exact mul_le_mul h3 h4 (abs_nonneg _) hr0
      have := abs_sub (a * b) (c * e)
      linarith
    have cx := key r.y x.z r.z x.y (FarField.abs_y_le r) ((FarField.abs_z_le x).trans hx) (FarField.abs_z_le r) ((FarField.abs_y_le x).trans hx)
    have cy := key r.z x.x r.x x.z (FarField.abs_z_le r) ((FarField.abs_x_le x).trans hx) (FarField.abs_x_le r) ((FarField.abs_z_le x).trans hx)
    have cz := key r.x x.y r.y x.x (FarField.abs_x_le r) ((FarField.abs_y_le x).trans hx) (FarField.abs_y_le r) ((FarField.abs_x_le x).trans hx)
    simp only [norm_div, norm_eq_abs]
    rw [← add_div, ← add_div, mul_div_assoc']
    refine div_le_div_of_nonneg_right ?_ (abs_nonneg _)
    simp only [V3.cross]
    have t1 := abs_add_le ((r.y * x.z - r.z * x.y) * d.x + (r.z * x.x - r.x * x.z) * d.y) ((r.x * x.y - r.y * x.x) * d.z)
    have t2 := abs_add_le ((r.y * x.z - r.z * x.y) * d.x) ((r.z * x.x - r.x * x.z) * d.y)
    rw [abs_mul (r.y * x.z - r.z * x.y), abs_mul (r.z * x.x - r.x * x.z)] at t2
    rw [abs_mul (r.x * x.y - r.y * x.x)] at t1
    have u1 := mul_le_mul_of_nonneg_right cx (abs_nonneg d.x)
    have u2 := mul_le_mul_of_nonneg_right cy (abs_nonneg d.y)
    have u3 := mul_le_mul_of_nonneg_right cz (abs_nonneg d.z)
    linarith

/-- The torques are opposite. -/
theorem torque_swap (hA : MeasurableSet A) (hB : MeasurableSet B) (hρ : 0 < ρ) (fA : volume A ≠ ⊤)
    (hd : ∀ x ∈ A, ∀ q ∈ B, (vec q - vec x).len ≤ ρ) {c : V3 ℝ} (hR : ∀ x ∈ A, (vec x - c).len ≤ R) (r : V3 ℝ) :
    ∫ x in A, ∫ q in B, (r.cross (vec x - c)).dot (vec q - vec x) / (vec q - vec x).len ^ 3 =
      -∫ q in B, ∫ x in A, (r.cross (vec q - c)).dot (vec x - vec q) / (vec x - vec q).len ^ 3 := by
  rw [integral_integral_swap (torque_integrable hA hB hρ fA hd hR r), ← integral_neg]
  refine integral_congr_ae (Filter.Eventually.of_forall fun q => ?_)
  dsimp only
  rw [← integral_neg]
  refine integral_congr_ae (Filter.Eventually.of_forall fun x => ?_)
  dsimp only
  rw [show (vec x - vec q).len = (vec q - vec x).len by rw [← V3.len_neg, neg_sub], ← neg_div]
  congr 1
  simp only [V3.dot, V3.cross, V3.sub_x, V3.sub_y, V3.sub_z]
  ring

end Verif.Reaction

namespace Verif.Static

open V3

/-- The force on a dipole `m` at `p` in the flux density of a magnetic dipole. -/
noncomputable def MagDipole.pull (s : MagDipole) (m p : V3 ℝ) : V3 ℝ :=
  let d := p - s.location
  let r := d.len
  (3 * (s.moment * s.mu / (4 * Real.pi)) / r ^ 5) •
    (m.dot d • s.orientation + s.orientation.dot d • m + (m.dot s.orientation - 5 * (s.orientation.dot d * m.dot d) / r ^ 2) • d)

/-- It is the gradient of `m · B`. -/
theorem MagDipole.hasGrad_energy (s : MagDipole) (m p : V3 ℝ) (hp : p ≠ s.location) :
    HasGrad (fun q => m.dot (s.magneticFluxDensity q)) (s.pull m p) p := by
  have hr := len_sub_ne_zero hp
  obtain ⟨J, hJ, e⟩ := dipF_jac (o := s.orientation) hr
    (hasDerivAt_const_div_pow (3 * (s.moment * s.mu / (4 * Real.pi))) 5 hr)
    (hasDerivAt_const_div_pow (-(s.moment * s.mu / (4 * Real.pi))) 3 hr)
  obtain ⟨jx, jy, jz⟩ := hJ.congr_off hp (fun q hq => s.magneticFluxDensity_eq q hq)
  have h := ((jx.const_mul m.x).add (jy.const_mul m.y)).add (jz.const_mul m.z)
  refine h.congr ?_
  rw [e]
  have hr2 : (p - s.location).len ≠ 0 := hr
  ext <;> simp only [MagDipole.pull, V3.dot, V3.map, V3.add_x, V3.add_y, V3.add_z, V3.smul_x, V3.smul_y, V3.smul_z, smul_eq_mul] <;>
    field_simp <;> ring

end Verif.Static
