import Verif.Props.OkadaAdditive
import Verif.Spec.Units
import Verif.Lemmas.Rotation
import Mathlib.Analysis.Calculus.Deriv.CompMul

/-!
# C111: the results do not depend on the system of units (rectangular fault)

The code compares lengths with the fixed numbers `1e-6` and `1e-14`, so the displacement keeps its meaning only where no coordinate is rounded
in either system of units.
-/

namespace Verif.Elastic

theorem V3.len_scale {a : ℝ} (ha : 0 < a) (p : V3 ℝ) : (a • p).len = a * p.len := by rw [V3.len_smul, abs_of_pos ha]

/-- The displacement of a point force falls off as one over the distance. -/
theorem surfaceForce_scale {a : ℝ} (ha : 0 < a) (lam mu : ℝ) (p : V3 ℝ) : surfaceForce lam mu (a • p) = a⁻¹ • surfaceForce lam mu p := by
  simp only [surfaceForce, V3.len_scale ha, V3.smul_x, V3.smul_y, V3.smul_z, smul_eq_mul, ← mul_sub]
  generalize p.len - p.z = t
  generalize p.len = R
  generalize mu / (lam + mu) = m
  generalize 1 / (4 * Real.pi * mu) = k
  ext <;> simp only [V3.smul_x, V3.smul_y, V3.smul_z, smul_eq_mul] <;> field_simp

theorem deriv_scale {a : ℝ} (ha : 0 < a) (f g : ℝ → ℝ) (x : ℝ) (h : ∀ t, g (a * t) = a⁻¹ * f t) : deriv g (a * x) = (a ^ 2)⁻¹ * deriv f x := by
  have e : (fun t => f t) = fun t => a * g (a * t) := by
    funext t
    rw [h]
    field_simp
  have h1 : deriv f x = a * (a * deriv g (a * x)) := by
    rw [show f = fun t => a * g (a * t) from e, deriv_const_mul_field, deriv_comp_mul_left, smul_eq_mul]
  rw [h1]
  field_simp

theorem jac_scale {a : ℝ} (ha : 0 < a) (F : V3 ℝ → V3 ℝ) (h : ∀ q, F (a • q) = a⁻¹ • F q) (p : V3 ℝ) : jac F (a • p) = (a ^ 2)⁻¹ • jac F p := by
  have hx (t y z : ℝ) : F ⟨a * t, a * y, a * z⟩ = a⁻¹ • F ⟨t, y, z⟩ := h ⟨t, y, z⟩
  ext <;> simp only [jac, V3.smul_x, V3.smul_y, V3.smul_z, smul_eq_mul] <;>
    exact deriv_scale ha _ _ _ fun t => by rw [hx]; rfl

/-- Volterra's kernel falls off as one over the square of the distance. -/
theorem dislocation_scale {a : ℝ} (ha : 0 < a) (lam mu : ℝ) (b n p : V3 ℝ) : dislocation lam mu b n (a • p) = (a ^ 2)⁻¹ • dislocation lam mu b n p := by
  have hs (q : V3 ℝ) := surfaceForce_scale ha lam mu q
  have h1 := jac_scale ha (fun q => (surfaceForce lam mu q).x) (fun q => by rw [hs]; rfl) p
  have h2 := jac_scale ha (fun q => (surfaceForce lam mu q).y) (fun q => by rw [hs]; rfl) p
  have h3 := jac_scale ha (fun q => (surfaceForce lam mu q).z) (fun q => by rw [hs]; rfl) p
  simp only [dislocation, h1, h2, h3]
  ext <;> simp only [stress, traction, V3.dot, V3.smul_x, V3.smul_y, V3.smul_z, smul_eq_mul] <;> ring

theorem dislocation_slip (lam mu k : ℝ) (b n p : V3 ℝ) : dislocation lam mu (k • b) n p = k • dislocation lam mu b n p := by
  ext <;> simp only [dislocation, V3.dot, V3.smul_x, V3.smul_y, V3.smul_z, smul_eq_mul] <;> ring

theorem integral_scale {a : ℝ} (ha : 0 < a) (f g : ℝ → ℝ → ℝ) (h : ∀ x w, g (a * x) (a * w) = a⁻¹ * f x w) (a1 a2 w1 w2 : ℝ) :
    ∫ w in a * w1..a * w2, ∫ x in a * a1..a * a2, g x w = a * ∫ w in w1..w2, ∫ x in a1..a2, f x w := by
  rw [← intervalIntegral.smul_integral_comp_mul_left, smul_eq_mul]
  refine congrArg (a * ·) ?_
  refine intervalIntegral.integral_congr fun w _ => ?_
  rw [← intervalIntegral.smul_integral_comp_mul_left, smul_eq_mul]
  simp only [h]
  rw [intervalIntegral.integral_const_mul, ← mul_assoc, mul_inv_cancel₀ ha.ne', one_mul]

end Verif.Elastic

namespace Verif.Okada

open Elastic

/-- The fault with its lengths and slips in another unit of length. -/
noncomputable def Fault.inUnits (u : Units) (f : Fault) : Fault :=
  ⟨f.alpha, f.dip, u.length * f.al1, u.length * f.al2, u.length * f.aw1, u.length * f.aw2, u.length * f.disl1, u.length * f.disl2⟩

/-- The station in another unit of length. -/
noncomputable def Station.inUnits (u : Units) (p : Station) : Station := ⟨u.length * p.X, u.length * p.Y⟩

theorem volterra_units (u : Units) (f : Fault) (lam mu : ℝ) (p : Station) :
    volterra (f.inUnits u) lam mu (p.inUnits u) = u.length • volterra f lam mu p := by
  have ha := u.length_pos
  set s := (dipConstants f.dip).1
  set c := (dipConstants f.dip).2
  have key (x w : ℝ) : dislocation lam mu ⟨u.length * f.disl1, u.length * f.disl2 * c, u.length * f.disl2 * s⟩ ⟨0, -s, c⟩
      (⟨u.length * x, u.length * w * c, u.length * w * s⟩ - ⟨u.length * p.X, u.length * p.Y, 0⟩) =
      u.length⁻¹ • dislocation lam mu ⟨f.disl1, f.disl2 * c, f.disl2 * s⟩ ⟨0, -s, c⟩ (⟨x, w * c, w * s⟩ - ⟨p.X, p.Y, 0⟩) := by
    have e1 : (⟨u.length * f.disl1, u.length * f.disl2 * c, u.length * f.disl2 * s⟩ : V3 ℝ) = u.length • ⟨f.disl1, f.disl2 * c, f.disl2 * s⟩ := by
      ext <;> simp only [V3.smul_x, V3.smul_y, V3.smul_z, smul_eq_mul] <;> ring
    have e2 : (⟨u.length * x, u.length * w * c, u.length * w * s⟩ - ⟨u.length * p.X, u.length * p.Y, 0⟩ : V3 ℝ) =
        u.length • (⟨x, w * c, w * s⟩ - ⟨p.X, p.Y, 0⟩) := by
      ext <;> simp only [V3.smul_x, V3.smul_y, V3.smul_z, V3.sub_x, V3.sub_y, V3.sub_z, smul_eq_mul] <;> ring
    rw [e1, e2, dislocation_slip, dislocation_scale ha, smul_smul]
    congr 1
    field_simp
  ext
  · exact integral_scale ha _ _ (fun x w => congrArg V3.x (key x w)) _ _ _ _
  · exact integral_scale ha _ _ (fun x w => congrArg V3.y (key x w)) _ _ _ _
  · exact integral_scale ha _ _ (fun x w => congrArg V3.z (key x w)) _ _ _ _

/-- **C111, in part.** The displacement is a length, where no coordinate is rounded in either system of units. -/
theorem units_partial (u : Units) {f : Fault} {st : List Station} {lam mu : ℝ} (hmu : mu ≠ 0) (hl2 : lam + 2 * mu ≠ 0)
    (halpha : f.alpha = (lam + mu) / (lam + 2 * mu)) (hst : st.length = 1 ∨ st.length = 3) (hslip : f.disl1 ≠ 0 ∨ f.disl2 ≠ 0)
    (hres : Resolved f st) (hb : Buried f) (hres' : Resolved (f.inUnits u) (st.map (·.inUnits u))) :
    ∃ vs : List (V3 ℝ), dc3d3 f st = .ok (asColumns vs) ∧ dc3d3 (f.inUnits u) (st.map (·.inUnits u)) = .ok (asColumns (vs.map (u.length • ·))) := by
  have ha := u.length_pos
  refine ⟨_, displacement_is_volterra hmu hl2 halpha hst hslip hres hb, ?_⟩
  have hb' : Buried (f.inUnits u) := by
    obtain ⟨h1, h2⟩ := hb
    refine ⟨?_, ?_⟩ <;> simp only [Fault.inUnits, mul_assoc] <;> exact mul_nonpos_of_nonneg_of_nonpos ha.le (by assumption)
  rw [displacement_is_volterra (f := f.inUnits u) hmu hl2 halpha (by simpa using hst)
    (by simpa [Fault.inUnits, ha.ne'] using hslip) hres' hb']
  congr 2
  simp only [columnStations, List.length_map]
  split_ifs <;> simp [Function.comp_def, volterra_units]

/-- In too large a unit of length every coordinate is rounded to zero and the code raises. -/
theorem depends_on_units : ∃ (u : Units) (f : Fault) (p : Station), (∃ A, dc3d3 f [p] = .ok A) ∧ dc3d3 (f.inUnits u) [p.inUnits u] = .error .exception := by
  refine ⟨⟨1 / 10 ^ 7, 1, 1, 1, by norm_num, by norm_num, by norm_num, by norm_num⟩, sampleFault, ⟨2, 1⟩, ?_, ?_⟩
  · exact ⟨_, displacement_is_volterra (st := [⟨2, 1⟩]) (lam := 1) (mu := 1) (by norm_num) (by norm_num) (by simp [sampleFault]; norm_num) (.inl rfl)
      (.inl (by simp [sampleFault])) (by
        obtain ⟨M, hM, h⟩ := sample_resolved
        exact ⟨M, hM, fun p hp => h p (by simp at hp; simp [hp])⟩) sample_buried⟩
  · have h : dipConstants (-90) = (-1, 0) := dipConstants_vertical
    have hs (m v : ℝ) (hv : |v| < eps) : snap m v = 0 := by rw [snap, if_pos (Or.inr hv)]
    have key : turn (Fault.inUnits ⟨1 / 10 ^ 7, 1, 1, 1, by norm_num, by norm_num, by norm_num, by norm_num⟩ sampleFault) (-1) 0
        [(⟨1 / 10 ^ 7 * 2, 1 / 10 ^ 7 * 1⟩ : Station)] 1 1 [1 / 10 ^ 7 * 1 * 0 - 1 / 10 ^ 7 * 1] [1 / 10 ^ 7 * 1 * -1] (.vector 0) =
        .error .exception := by
      rw [turn]
      simp only [List.map_cons, List.map_nil, List.zip_cons_cons, List.zip_nil_right, List.zipWith_cons_cons, List.zipWith_nil_right, if_true]
      rw [if_neg (by simp), if_pos]
      refine ⟨_, List.mem_cons_self, ?_⟩
      rw [hs _ _ (by norm_num [Fault.inUnits, sampleFault, eps, abs_of_pos]), hs _ _ (by rw [abs_lt]; norm_num [eps]),
        hs _ _ (by rw [abs_lt]; norm_num [eps])]
      simp [Corner.r]
    rw [dc3d3]
    have hd : (Fault.inUnits ⟨1 / 10 ^ 7, 1, 1, 1, by norm_num, by norm_num, by norm_num, by norm_num⟩ sampleFault).dip = -90 := rfl
    have hw : (Fault.inUnits ⟨1 / 10 ^ 7, 1, 1, 1, by norm_num, by norm_num, by norm_num, by norm_num⟩ sampleFault).aw1 = 1 / 10 ^ 7 * 1 := rfl
    simp only [hd, hw, h, List.map_cons, List.map_nil, Station.inUnits]
    rw [key]
    rfl

end Verif.Okada
