import Verif.Lemmas.ElasticStress
import Verif.Lemmas.PlaneIntegrals

/-!
# The specification of a surface force is the right one

The displacement fields used by the specification of fault displacements are in equilibrium inside the halfspace, leave its surface free
of traction away from the point of application, and transmit exactly one unit of force through every horizontal plane.
-/

namespace Verif.Elastic

open Real MeasureTheory

variable {lam mu : ℝ}

theorem stress_force_x (hmu : mu ≠ 0) (hl : lam + mu ≠ 0) {p : V3 ℝ} (h : 0 < p.len - p.z) :
    stress lam mu (jac (fun q => (surfaceForce lam mu q).x) p) = (1 / (2 * π)) • stressX (mu / (lam + mu)) p := by
  rw [jac_surfaceForce_x lam mu h]
  exact stress_smul lam mu _ _ _ _ rfl hmu hl rfl (stress_jacX _ h)

theorem stress_force_y (hmu : mu ≠ 0) (hl : lam + mu ≠ 0) {p : V3 ℝ} (h : 0 < p.len - p.z) :
    stress lam mu (jac (fun q => (surfaceForce lam mu q).y) p) = (1 / (2 * π)) • stressY (mu / (lam + mu)) p := by
  rw [jac_surfaceForce_y lam mu h]
  exact stress_smul lam mu _ _ _ _ rfl hmu hl rfl (stress_jacY _ h)

theorem stress_force_z (hmu : mu ≠ 0) (hl : lam + mu ≠ 0) {p : V3 ℝ} (h : 0 < p.len - p.z) :
    stress lam mu (jac (fun q => (surfaceForce lam mu q).z) p) = (1 / (2 * π)) • stressZ (mu / (lam + mu)) p := by
  rw [jac_surfaceForce_z lam mu h]
  exact stress_smul lam mu _ _ _ _ rfl hmu hl rfl (stress_jacZ _ h)

/-- The condition holds near a point where it holds. -/
theorem eventually_below {p : V3 ℝ} (h : 0 < p.len - p.z) (v : V3 ℝ) : ∀ᶠ t : ℝ in nhds 0, 0 < (p + t • v).len - (p + t • v).z := by
  have hg := ((hasGrad_len (len_pos_of h)).sub (hasGrad_z p)) v
  have := hg.continuousAt.eventually_const_lt (u := 0) (by simpa using h)
  simpa using this

theorem hasDiv_transfer {p : V3 ℝ} {S : V3 ℝ → M3 ℝ} {T : V3 ℝ → M3 ℝ} {k : ℝ} (row : M3 ℝ → V3 ℝ) (hrow : ∀ M, row (k • M) = k • row M)
    (hS : ∀ q : V3 ℝ, 0 < q.len - q.z → S q = k • T q) (h : 0 < p.len - p.z) (hT : HasDiv (fun q => row (T q)) 0 p) :
    HasDiv (fun q => row (S q)) 0 p := by
  obtain ⟨J, hJ, htr⟩ := hT
  obtain ⟨j1, j2, j3⟩ := hasJac_smul k hJ
  have e : ∀ v : V3 ℝ, ∀ᶠ t : ℝ in nhds 0, row (S (p + t • v)) = k • row (T (p + t • v)) := by
    intro v
    filter_upwards [eventually_below h v] with t ht
    rw [hS _ ht, hrow]
  refine ⟨k • J, ⟨j1.congr_of_lines fun v => ?_, j2.congr_of_lines fun v => ?_, j3.congr_of_lines fun v => ?_⟩, ?_⟩
  · filter_upwards [e v] with t ht; rw [ht]
  · filter_upwards [e v] with t ht; rw [ht]
  · filter_upwards [e v] with t ht; rw [ht]
  · simp only [M3.trace, V3.smul_x, V3.smul_y, V3.smul_z, smul_eq_mul] at *
    linear_combination k * htr

/-- No body force acts at any point of the halfspace other than the point of application. -/
theorem surfaceForce_in_equilibrium (hmu : mu ≠ 0) (hl : lam + mu ≠ 0) {p : V3 ℝ} (hz : p.z ≤ 0) (hp : p ≠ 0) :
    InEquilibrium lam mu (fun q => (surfaceForce lam mu q).x) p ∧ InEquilibrium lam mu (fun q => (surfaceForce lam mu q).y) p ∧
      InEquilibrium lam mu (fun q => (surfaceForce lam mu q).z) p := by
  have hl0 : 0 < p.len := lt_of_le_of_ne (V3.len_nonneg p) (Ne.symm fun h0 => hp (by
    have := V3.len_sq p
    rw [h0] at this
    ext <;> simp <;> nlinarith [sq_nonneg p.x, sq_nonneg p.y, sq_nonneg p.z]))
  have h : 0 < p.len - p.z := by linarith
  refine ⟨⟨?_, ?_, ?_⟩, ⟨?_, ?_, ?_⟩, ⟨?_, ?_, ?_⟩⟩
  · exact hasDiv_transfer (fun M => M.x) (fun _ => rfl) (fun q hq => stress_force_x hmu hl hq) h (hasDiv_stressX_x _ h)
  · exact hasDiv_transfer (fun M => M.y) (fun _ => rfl) (fun q hq => stress_force_x hmu hl hq) h (hasDiv_stressX_y _ h)
  · exact hasDiv_transfer (fun M => M.z) (fun _ => rfl) (fun q hq => stress_force_x hmu hl hq) h (hasDiv_stressX_z _ h)
  · exact hasDiv_transfer (fun M => M.x) (fun _ => rfl) (fun q hq => stress_force_y hmu hl hq) h (hasDiv_stressY_x _ h)
  · exact hasDiv_transfer (fun M => M.y) (fun _ => rfl) (fun q hq => stress_force_y hmu hl hq) h (hasDiv_stressY_y _ h)
  · exact hasDiv_transfer (fun M => M.z) (fun _ => rfl) (fun q hq => stress_force_y hmu hl hq) h (hasDiv_stressY_z _ h)
  · exact hasDiv_transfer (fun M => M.x) (fun _ => rfl) (fun q hq => stress_force_z hmu hl hq) h (hasDiv_stressZ_x _ h)
  · exact hasDiv_transfer (fun M => M.y) (fun _ => rfl) (fun q hq => stress_force_z hmu hl hq) h (hasDiv_stressZ_y _ h)
  · exact hasDiv_transfer (fun M => M.z) (fun _ => rfl) (fun q hq => stress_force_z hmu hl hq) h (hasDiv_stressZ_z _ h)

/-- The surface is free of traction away from the point of application. -/
theorem surfaceForce_traction_free (hmu : mu ≠ 0) (hl : lam + mu ≠ 0) {p : V3 ℝ} (hz : p.z = 0) (hp : p ≠ 0) :
    traction (stress lam mu (jac (fun q => (surfaceForce lam mu q).x) p)) ⟨0, 0, 1⟩ = 0 ∧
    traction (stress lam mu (jac (fun q => (surfaceForce lam mu q).y) p)) ⟨0, 0, 1⟩ = 0 ∧
    traction (stress lam mu (jac (fun q => (surfaceForce lam mu q).z) p)) ⟨0, 0, 1⟩ = 0 := by
  have hl0 : 0 < p.len := lt_of_le_of_ne (V3.len_nonneg p) (Ne.symm fun h0 => hp (by
    have := V3.len_sq p
    rw [h0] at this
    ext <;> simp <;> nlinarith [sq_nonneg p.x, sq_nonneg p.y, sq_nonneg p.z]))
  have h : 0 < p.len - p.z := by linarith
  rw [stress_force_x hmu hl h, stress_force_y hmu hl h, stress_force_z hmu hl h]
  refine ⟨?_, ?_, ?_⟩ <;> ext <;> simp [traction, V3.dot, stressX, stressY, stressZ, hz]

theorem U_plane (x y h : ℝ) : U ⟨x, y, -h⟩ = (√((x ^ 2 + h ^ 2) + y ^ 2))⁻¹ := by
  rw [U, V3.len]; congr 2; ring

/-- Through every horizontal plane the unit force is transmitted, and no other. -/
theorem surfaceForce_is_unit (hmu : mu ≠ 0) (hl : lam + mu ≠ 0) {h : ℝ} (hh : 0 < h) :
    planeForce lam mu (fun q => (surfaceForce lam mu q).x) h = ⟨1, 0, 0⟩ ∧
    planeForce lam mu (fun q => (surfaceForce lam mu q).y) h = ⟨0, 1, 0⟩ ∧
    planeForce lam mu (fun q => (surfaceForce lam mu q).z) h = ⟨0, 0, 1⟩ := by
  have hA : ∀ x : ℝ, 0 < x ^ 2 + h ^ 2 := fun x => by positivity
  have hb : ∀ x y : ℝ, 0 < (⟨x, y, -h⟩ : V3 ℝ).len - (⟨x, y, -h⟩ : V3 ℝ).z := fun x y => by
    have := V3.len_nonneg (⟨x, y, -h⟩ : V3 ℝ); simp only; linarith
  have i0 : ∀ a b : ℝ, ∀ x : ℝ, ∫ y, a * x ^ 2 * b * (√((x ^ 2 + h ^ 2) + y ^ 2))⁻¹ ^ 5 = a * b * (4 / 3) * (x ^ 2 * (1 / (x ^ 2 + h ^ 2) ^ 2)) := by
    intro a b x
    rw [integral_const_mul, integral_inv5 (hA x)]
    have := (hA x).ne'
    field_simp
  have iI : ∀ a : ℝ, ∀ x : ℝ, ∫ y, a * (√((x ^ 2 + h ^ 2) + y ^ 2))⁻¹ ^ 5 = a * (4 / 3) * (1 / (x ^ 2 + h ^ 2) ^ 2) := by
    intro a x
    rw [integral_const_mul, integral_inv5 (hA x)]
    have := (hA x).ne'
    field_simp
  have iS : ∀ a : ℝ, ∀ x : ℝ, ∫ y, a * (y ^ 2 * (√((x ^ 2 + h ^ 2) + y ^ 2))⁻¹ ^ 5) = a * (2 / 3) * (1 / (x ^ 2 + h ^ 2)) := by
    intro a x
    rw [integral_const_mul, integral_sq_inv5 (hA x)]
    have := (hA x).ne'
    field_simp
  have iO : ∀ a : ℝ, ∀ x : ℝ, ∫ y, a * (y * (√((x ^ 2 + h ^ 2) + y ^ 2))⁻¹ ^ 5) = 0 := by
    intro a x
    rw [integral_const_mul, integral_odd_inv5, mul_zero]
  have hp := pi_ne_zero
  have hne := hh.ne'
  refine ⟨?_, ?_, ?_⟩
  · simp only [planeForce, stress_force_x hmu hl (hb _ _), traction, V3.dot, V3.smul_x, V3.smul_y, V3.smul_z, smul_eq_mul, stressX, U_plane,
      mul_zero, mul_one, zero_add]
    have e1 : ∀ x y : ℝ, 1 / (2 * π) * (-3 * x ^ 2 * -h * (√((x ^ 2 + h ^ 2) + y ^ 2))⁻¹ ^ 5) =
        (1 / (2 * π) * (3 * h)) * x ^ 2 * 1 * (√((x ^ 2 + h ^ 2) + y ^ 2))⁻¹ ^ 5 := fun x y => by ring
    have e2 : ∀ x y : ℝ, 1 / (2 * π) * (-3 * x * y * -h * (√((x ^ 2 + h ^ 2) + y ^ 2))⁻¹ ^ 5) =
        (1 / (2 * π) * (3 * h) * x) * (y * (√((x ^ 2 + h ^ 2) + y ^ 2))⁻¹ ^ 5) := fun x y => by ring
    have e3 : ∀ x y : ℝ, 1 / (2 * π) * (-3 * x * (-h) ^ 2 * (√((x ^ 2 + h ^ 2) + y ^ 2))⁻¹ ^ 5) =
        (1 / (2 * π) * (-3 * h ^ 2) * x) * (√((x ^ 2 + h ^ 2) + y ^ 2))⁻¹ ^ 5 := fun x y => by ring
    simp only [e1, e2, e3, i0, iO, iI]
    ext
    · simp only
      rw [integral_const_mul, integral_frac_sq hh]
      field_simp
      norm_num
    · simp
    · simp only
      exact integral_odd fun x => by simp only [neg_sq]; ring
  · simp only [planeForce, stress_force_y hmu hl (hb _ _), traction, V3.dot, V3.smul_x, V3.smul_y, V3.smul_z, smul_eq_mul, stressY, U_plane,
      mul_zero, mul_one, zero_add]
    have e1 : ∀ x y : ℝ, 1 / (2 * π) * (-3 * x * y * -h * (√((x ^ 2 + h ^ 2) + y ^ 2))⁻¹ ^ 5) =
        (1 / (2 * π) * (3 * h) * x) * (y * (√((x ^ 2 + h ^ 2) + y ^ 2))⁻¹ ^ 5) := fun x y => by ring
    have e2 : ∀ x y : ℝ, 1 / (2 * π) * (-3 * y ^ 2 * -h * (√((x ^ 2 + h ^ 2) + y ^ 2))⁻¹ ^ 5) =
        (1 / (2 * π) * (3 * h)) * (y ^ 2 * (√((x ^ 2 + h ^ 2) + y ^ 2))⁻¹ ^ 5) := fun x y => by ring
    have e3 : ∀ x y : ℝ, 1 / (2 * π) * (-3 * y * (-h) ^ 2 * (√((x ^ 2 + h ^ 2) + y ^ 2))⁻¹ ^ 5) =
        (1 / (2 * π) * (-3 * h ^ 2)) * (y * (√((x ^ 2 + h ^ 2) + y ^ 2))⁻¹ ^ 5) := fun x y => by ring
    simp only [e1, e2, e3, iS, iO]
    ext
    · simp
    · simp only
      rw [integral_const_mul, integral_inv_one hh]
      field_simp
    · simp
  · simp only [planeForce, stress_force_z hmu hl (hb _ _), traction, V3.dot, V3.smul_x, V3.smul_y, V3.smul_z, smul_eq_mul, stressZ, U_plane,
      mul_zero, mul_one, zero_add]
    have e1 : ∀ x y : ℝ, 1 / (2 * π) * (-3 * x * (-h) ^ 2 * (√((x ^ 2 + h ^ 2) + y ^ 2))⁻¹ ^ 5) =
        (1 / (2 * π) * (-3 * h ^ 2) * x) * (√((x ^ 2 + h ^ 2) + y ^ 2))⁻¹ ^ 5 := fun x y => by ring
    have e2 : ∀ x y : ℝ, 1 / (2 * π) * (-3 * y * (-h) ^ 2 * (√((x ^ 2 + h ^ 2) + y ^ 2))⁻¹ ^ 5) =
        (1 / (2 * π) * (-3 * h ^ 2)) * (y * (√((x ^ 2 + h ^ 2) + y ^ 2))⁻¹ ^ 5) := fun x y => by ring
    have e3 : ∀ x y : ℝ, 1 / (2 * π) * (-3 * (-h) ^ 3 * (√((x ^ 2 + h ^ 2) + y ^ 2))⁻¹ ^ 5) =
        (1 / (2 * π) * (3 * h ^ 3)) * (√((x ^ 2 + h ^ 2) + y ^ 2))⁻¹ ^ 5 := fun x y => by ring
    simp only [e1, e2, e3, iI, iO]
    ext
    · simp only
      exact integral_odd fun x => by simp only [neg_sq]; ring
    · simp
    · simp only
      rw [integral_const_mul, integral_inv_sq hh]
      field_simp
      norm_num

/-- Not vacuous: an ordinary medium and a point at depth one. -/
example : InEquilibrium 1 1 (fun q => (surfaceForce 1 1 q).x) ⟨0, 0, -1⟩ ∧ planeForce 1 1 (fun q => (surfaceForce 1 1 q).z) 1 = ⟨0, 0, 1⟩ :=
  ⟨(surfaceForce_in_equilibrium (by norm_num) (by norm_num) (by norm_num) (by simp [V3.ext_iff])).1,
    (surfaceForce_is_unit (by norm_num) (by norm_num) one_pos).2.2⟩

end Verif.Elastic
