import Verif.Props.UnitsTransient
import Verif.Model.StaticHalfspace
import Verif.Model.StaticSphere
import Verif.Model.CircularLoop
import Verif.Props.WireFinite

/-!
# C111: the results do not depend on the system of units (static sources)
-/

namespace Verif

theorem V3.unit_smul {a : ℝ} (ha : 0 < a) (v : V3 ℝ) : (a • v).map (· / (a • v).len) = v.map (· / v.len) := by
  rw [V3.len_smul, abs_of_pos ha]
  ext <;> simp only [V3.map, V3.smul_x, V3.smul_y, V3.smul_z, smul_eq_mul] <;> exact mul_div_mul_left _ _ ha.ne'

namespace Static

/-- The magnetic dipole in other units. -/
noncomputable def MagDipole.inUnits (u : Units) (s : MagDipole) : MagDipole :=
  ⟨u.permeability * s.mu, u.magneticMoment * s.moment, u.length • s.location, s.orientation⟩

/-- The magnetic pole in other units.  Its `moment` is measured in ampere metres. -/
noncomputable def MagDipole.poleInUnits (u : Units) (s : MagDipole) : MagDipole :=
  ⟨u.permeability * s.mu, u.current * u.length * s.moment, u.length • s.location, s.orientation⟩

/-- **C111.** Static magnetic dipole. -/
theorem MagDipole.units (u : Units) (s : MagDipole) (q : V3 ℝ) :
    (s.inUnits u).vectorPotential (u.length • q) = (u.fluxDensity * u.length) • s.vectorPotential q ∧
    (s.inUnits u).magneticFluxDensity (u.length • q) = u.fluxDensity • s.magneticFluxDensity q ∧
    (s.inUnits u).magneticField (u.length • q) = u.magneticField • s.magneticField q := by
  have hL := u.length_pos; have hM := u.mass_pos; have hT := u.time_pos; have hI := u.current_pos
  have hd : (u.length • q - u.length • s.location) = u.length • (q - s.location) := (smul_sub _ _ _).symm
  have hl : (u.length • (q - s.location)).len = u.length * (q - s.location).len := by rw [V3.len_smul, abs_of_pos hL]
  have hh := V3.unit_smul hL (q - s.location)
  rw [hl] at hh
  have h1 : (s.inUnits u).magneticFluxDensity (u.length • q) = u.fluxDensity • s.magneticFluxDensity q := by
    simp only [MagDipole.magneticFluxDensity, MagDipole.inUnits, hd, hl, hh, u.permeability_eq, u.magneticMoment_eq, u.fluxDensity_eq]
    generalize (q - s.location).map (· / (q - s.location).len) = e
    generalize (q - s.location).len = r
    ext <;> simp only [V3.map, V3.smul_x, V3.smul_y, V3.smul_z, smul_eq_mul] <;> field_simp
  refine ⟨?_, h1, ?_⟩
  · simp only [MagDipole.vectorPotential, MagDipole.inUnits, hd, hl, hh, u.permeability_eq, u.magneticMoment_eq, u.fluxDensity_eq]
    generalize V3.cross (α := ℝ) _ _ = e
    generalize (q - s.location).len = r
    ext <;> simp only [V3.map, V3.smul_x, V3.smul_y, V3.smul_z, smul_eq_mul] <;> field_simp
  · simp only [MagDipole.magneticField, h1]
    simp only [MagDipole.inUnits, u.permeability_eq, u.magneticField_eq, u.fluxDensity_eq]
    ext <;> simp only [V3.map, V3.smul_x, V3.smul_y, V3.smul_z, smul_eq_mul] <;> field_simp

/-- **C111.** Static magnetic pole. -/
theorem MagDipole.pole_units (u : Units) (s : MagDipole) (q : V3 ℝ) :
    (s.poleInUnits u).poleFluxDensity (u.length • q) = u.fluxDensity • s.poleFluxDensity q ∧
    (s.poleInUnits u).poleField (u.length • q) = u.magneticField • s.poleField q := by
  have hL := u.length_pos; have hM := u.mass_pos; have hT := u.time_pos; have hI := u.current_pos
  have hd : (u.length • q - u.length • s.location) = u.length • (q - s.location) := (smul_sub _ _ _).symm
  have hl : (u.length • (q - s.location)).len = u.length * (q - s.location).len := by rw [V3.len_smul, abs_of_pos hL]
  have hh := V3.unit_smul hL (q - s.location)
  rw [hl] at hh
  have h1 : (s.poleInUnits u).poleFluxDensity (u.length • q) = u.fluxDensity • s.poleFluxDensity q := by
    simp only [MagDipole.poleFluxDensity, MagDipole.poleInUnits, hd, hl, hh, u.permeability_eq, u.fluxDensity_eq]
    generalize (q - s.location).map (· / (q - s.location).len) = e
    generalize (q - s.location).len = r
    ext <;> simp only [V3.map, V3.smul_x, V3.smul_y, V3.smul_z, smul_eq_mul] <;> field_simp
  refine ⟨h1, ?_⟩
  simp only [MagDipole.poleField, h1]
  simp only [MagDipole.poleInUnits, u.permeability_eq, u.magneticField_eq, u.fluxDensity_eq]
  ext <;> simp only [V3.map, V3.smul_x, V3.smul_y, V3.smul_z, smul_eq_mul] <;> field_simp

/-! ## Line current -/

/-- The line current in other units. -/
noncomputable def LineCurrent.inUnits (u : Units) (s : LineCurrent) : LineCurrent :=
  ⟨u.permeability * s.mu, u.conductivity * s.sigma, u.current * s.current, s.nodes.map (u.length • ·)⟩

theorem V3.smul_cancel {a : ℝ} (ha : a ≠ 0) (p q : V3 ℝ) : a • p = a • q ↔ p = q := by
  constructor
  · intro h
    have := congrArg (a⁻¹ • ·) h
    simpa only [smul_smul, inv_mul_cancel₀ ha, one_smul] using this
  · rintro rfl; rfl

/-- **C111.** Potential, electric field and current density of a line current. -/
theorem LineCurrent.units (u : Units) (s : LineCurrent) (q : V3 ℝ) :
    (s.inUnits u).scalarPotential (u.length • q) = (u.voltage * ·) <$> s.scalarPotential q ∧
    (s.inUnits u).electricField (u.length • q) = (u.electricField • ·) <$> s.electricField q ∧
    (s.inUnits u).currentDensity (u.length • q) = (u.currentDensity • ·) <$> s.currentDensity q := by
  have hL := u.length_pos; have hM := u.mass_pos; have hT := u.time_pos; have hI := u.current_pos
  have hd (p : V3 ℝ) : (u.length • q - u.length • p) = u.length • (q - p) := (smul_sub _ _ _).symm
  have hl (p : V3 ℝ) : (u.length • (q - p)).len = u.length * (q - p).len := by rw [V3.len_smul, abs_of_pos hL]
  have h1 : (s.inUnits u).electricField (u.length • q) = (u.electricField • ·) <$> s.electricField q := by
    obtain ⟨mu, sigma, current, nodes⟩ := s
    match nodes with
    | [] => rfl
    | [n0] =>
      simp only [LineCurrent.inUnits, LineCurrent.electricField, List.map_cons, List.map_nil, hd, hl]
      refine congrArg Except.ok ?_
      simp only [u.conductivity_eq, u.electricField_eq]
      generalize (q - n0).len = r
      ext <;> simp only [V3.map, V3.smul_x, V3.smul_y, V3.smul_z, smul_eq_mul] <;> field_simp
    | n0 :: n1 :: rest =>
      simp only [LineCurrent.inUnits, LineCurrent.electricField, List.map_cons]
      have e : ((u.length • n1) :: rest.map (u.length • ·)).getLast (by simp) = u.length • (n1 :: rest).getLast (by simp) := by
        simpa only [List.map_cons] using List.getLast_map (f := (u.length • · : V3 ℝ → V3 ℝ)) (l := n1 :: rest) (by simp)
      rw [e]
      generalize (n1 :: rest).getLast _ = last
      simp only [hd, hl]
      by_cases h : last = n0
      · rw [if_pos h, if_pos ((V3.smul_cancel hL.ne' _ _).2 h)]
        exact congrArg Except.ok (smul_zero _).symm
      · rw [if_neg h, if_neg (fun h' => h ((V3.smul_cancel hL.ne' _ _).1 h'))]
        refine congrArg Except.ok ?_
        simp only [u.conductivity_eq, u.electricField_eq]
        generalize (q - n0).len = r
        generalize (q - last).len = r'
        ext <;> simp only [V3.map, V3.smul_x, V3.smul_y, V3.smul_z, smul_eq_mul] <;> field_simp
  refine ⟨?_, h1, ?_⟩
  · obtain ⟨mu, sigma, current, nodes⟩ := s
    match nodes with
    | [] => rfl
    | [n0] =>
      simp only [LineCurrent.inUnits, LineCurrent.scalarPotential, List.map_cons, List.map_nil, hd, hl]
      refine congrArg Except.ok ?_
      simp only [u.conductivity_eq, u.voltage_eq]
      generalize (q - n0).len = r
      field_simp
    | n0 :: n1 :: rest =>
      simp only [LineCurrent.inUnits, LineCurrent.scalarPotential, List.map_cons]
      have e : ((u.length • n1) :: rest.map (u.length • ·)).getLast (by simp) = u.length • (n1 :: rest).getLast (by simp) := by
        simpa only [List.map_cons] using List.getLast_map (f := (u.length • · : V3 ℝ → V3 ℝ)) (l := n1 :: rest) (by simp)
      rw [e]
      generalize (n1 :: rest).getLast _ = last
      simp only [hd, hl]
      by_cases h : last = n0
      · rw [if_pos h, if_pos ((V3.smul_cancel hL.ne' _ _).2 h)]
        exact congrArg Except.ok (mul_zero _).symm
      · rw [if_neg h, if_neg (fun h' => h ((V3.smul_cancel hL.ne' _ _).1 h'))]
        refine congrArg Except.ok ?_
        simp only [u.conductivity_eq, u.voltage_eq]
        generalize (q - n0).len = r
        generalize (q - last).len = r'
        field_simp
  · simp only [LineCurrent.currentDensity, h1]
    rcases s.electricField q with e | v
    · rfl
    · refine congrArg Except.ok ?_
      simp only [LineCurrent.inUnits, u.conductivity_eq, u.electricField_eq, u.currentDensity_eq]
      ext <;> simp only [V3.map, V3.smul_x, V3.smul_y, V3.smul_z, smul_eq_mul] <;> field_simp

theorem cartToCyl2_smul {a : ℝ} (ha : 0 < a) (y z : ℝ) :
    Spatial.cartToCyl2 ⟨a * y, a * z⟩ = ⟨a * (Spatial.cartToCyl2 ⟨y, z⟩).x, (Spatial.cartToCyl2 ⟨y, z⟩).y⟩ := by
  simp only [Spatial.cartToCyl2, Tdem.arctan2_scale ha]
  congr 1
  rw [← Fdem.sqrt_scale ha]
  refine congrArg Real.sqrt ?_
  ring

theorem segmentFlux_units {a : ℝ} (ha : 0 < a) (p0 p1 q : V3 ℝ) :
    segmentFlux (a • p0) (a • p1) (a • q) = (a⁻¹ • ·) <$> segmentFlux p0 p1 q := by
  simp only [segmentFlux, ← smul_sub, V3.unit_smul ha]
  rcases Spatial.rotationMatrixFromNormals _ _ _ with e | rot
  · rfl
  · refine congrArg Except.ok ?_
    have e0 : rot.mulVec (a • (q - p0)) = a • rot.mulVec (q - p0) := M3.mulVec_smul _ _ _
    have e1 : a • rot.mulVec (q - p0) - (⟨(a • (p1 - p0)).len, 0, 0⟩ : V3 ℝ) = a • (rot.mulVec (q - p0) - ⟨(p1 - p0).len, 0, 0⟩) := by
      rw [V3.len_smul, abs_of_pos ha]
      ext <;> simp only [V3.smul_x, V3.smul_y, V3.smul_z, V3.sub_x, V3.sub_y, V3.sub_z, smul_eq_mul] <;> ring
    simp only [e0, e1, V3.unit_smul ha]
    generalize rot.mulVec (q - p0) = r0
    simp only [V3.smul_y, V3.smul_z, smul_eq_mul, cartToCyl2_smul ha]
    rw [← M3.mulVec_smul]
    refine congrArg _ ?_
    generalize V3.x (α := ℝ) _ - V3.x (α := ℝ) _ = w
    generalize Spatial.cartToCyl2 _ = c
    simp only [Spatial.cylToCartVec2]
    ext <;> simp only [V3.smul_x, V3.smul_y, V3.smul_z, smul_eq_mul, zero_mul, mul_zero, zero_sub, zero_add, mul_neg, ← div_div] <;> field_simp

theorem sumSegments_units {f : V3 ℝ → V3 ℝ → Py (V3 ℝ)} {g : V3 ℝ → V3 ℝ → Py (V3 ℝ)} {a b : ℝ}
    (h : ∀ p0 p1, g (a • p0) (a • p1) = (b • ·) <$> f p0 p1) (nodes : List (V3 ℝ)) (out : V3 ℝ) :
    sumSegments g (nodes.map (a • ·)) (b • out) = (b • ·) <$> sumSegments f nodes out := by
  induction nodes generalizing out with
  | nil => rfl
  | cons p0 t ih =>
    cases t with
    | nil => rfl
    | cons p1 t =>
      simp only [List.map_cons, sumSegments, h]
      rcases f p0 p1 with e | v
      · rfl
      · have := ih (out + v)
        rw [smul_add] at this
        exact this

/-- **C111.** Flux density and magnetic field of a line current. -/
theorem LineCurrent.units_magnetic (u : Units) (s : LineCurrent) (q : V3 ℝ) :
    (s.inUnits u).magneticFluxDensity (u.length • q) = (u.fluxDensity • ·) <$> s.magneticFluxDensity q ∧
    (s.inUnits u).magneticField (u.length • q) = (u.magneticField • ·) <$> s.magneticField q := by
  have hL := u.length_pos; have hM := u.mass_pos; have hT := u.time_pos; have hI := u.current_pos
  have h1 : (s.inUnits u).magneticFluxDensity (u.length • q) = (u.fluxDensity • ·) <$> s.magneticFluxDensity q := by
    simp only [LineCurrent.magneticFluxDensity, LineCurrent.inUnits]
    have e := sumSegments_units (f := fun p0 p1 => segmentFlux p0 p1 q) (g := fun p0 p1 => segmentFlux p0 p1 (u.length • q)) (a := u.length) (b := u.length⁻¹)
      (fun p0 p1 => segmentFlux_units hL p0 p1 q) s.nodes 0
    rw [smul_zero] at e
    rw [e]
    rcases sumSegments _ s.nodes 0 with e | v
    · rfl
    · refine congrArg Except.ok ?_
      simp only [u.permeability_eq, u.fluxDensity_eq]
      ext <;> simp only [V3.map, V3.smul_x, V3.smul_y, V3.smul_z, smul_eq_mul] <;> field_simp
  refine ⟨h1, ?_⟩
  simp only [LineCurrent.magneticField, h1]
  rcases s.magneticFluxDensity q with e | v
  · rfl
  · refine congrArg Except.ok ?_
    simp only [LineCurrent.inUnits, u.permeability_eq, u.magneticField_eq, u.fluxDensity_eq]
    ext <;> simp only [V3.map, V3.smul_x, V3.smul_y, V3.smul_z, smul_eq_mul] <;> field_simp

open WireIntegral (OnWire wirePotential)

theorem wirePotential_units {a : ℝ} (ha : 0 < a) (q : V3 ℝ) (nodes : List (V3 ℝ)) :
    wirePotential (a • q) (nodes.map (a • ·)) = wirePotential q nodes := by
  induction nodes with
  | nil => rfl
  | cons p0 t ih =>
    cases t with
    | nil => rfl
    | cons p1 t =>
      simp only [List.map_cons] at ih ⊢
      simp only [wirePotential, ih]
      refine congrArg (· + _) ?_
      unfold WireIntegral.segmentPotential
      have e (t : ℝ) : (a • q - (a • p0 + t • (a • p1 - a • p0))).len = a * (q - (p0 + t • (p1 - p0))).len := by
        rw [← abs_of_pos ha, ← V3.len_smul, abs_of_pos ha]
        congr 1
        module
      simp only [e]
      rw [← smul_sub, smul_smul]
      congr 1
      rw [← intervalIntegral.integral_mul_const]
      congr 1
      funext t
      generalize (q - (p0 + t • (p1 - p0))).len = r
      field_simp

theorem OnWire.smul_iff {a : ℝ} (ha : 0 < a) (q : V3 ℝ) (nodes : List (V3 ℝ)) : OnWire (nodes.map (a • ·)) (a • q) ↔ OnWire nodes q := by
  induction nodes with
  | nil => rfl
  | cons p0 t ih =>
    cases t with
    | nil => rfl
    | cons p1 t =>
      simp only [List.map_cons] at ih ⊢
      simp only [OnWire, ih]
      refine or_congr (exists_congr fun t => and_congr_right fun _ => and_congr_right fun _ => ?_) Iff.rfl
      rw [← V3.smul_cancel ha.ne' q]
      refine Eq.congr_right ?_
      module

theorem regular_units {a : ℝ} (ha : 0 < a) {nodes : List (V3 ℝ)} (h : Regular nodes) : Regular (nodes.map (a • ·)) := by
  unfold Regular at *
  rw [List.isChain_map]
  refine h.imp fun p0 p1 ⟨h0, h1⟩ => ⟨fun e => h0 ((V3.smul_cancel ha.ne' _ _).1 e), ?_⟩
  have e : tan (a • p0) (a • p1) = tan p0 p1 := by
    have := V3.unit_smul ha (p1 - p0)
    rw [smul_sub] at this
    exact this
  unfold OffBand at *
  rw [e]
  exact h1

/-- **C111.** Vector potential of a line current, off the wire. -/
theorem LineCurrent.units_potential_partial (u : Units) (s : LineCurrent) (q : V3 ℝ) (hr : Regular s.nodes) (ho : ¬ OnWire s.nodes q) :
    (s.inUnits u).vectorPotential (u.length • q) = ((u.fluxDensity * u.length) • ·) <$> s.vectorPotential q := by
  have hL := u.length_pos; have hM := u.mass_pos; have hT := u.time_pos; have hI := u.current_pos
  rw [line_potential_everywhere s q hr ho, line_potential_everywhere (s.inUnits u) _ (regular_units hL hr)
    (fun h => ho ((OnWire.smul_iff hL q s.nodes).1 h))]
  refine congrArg Except.ok ?_
  simp only [LineCurrent.inUnits, wirePotential_units hL, smul_smul]
  congr 1
  rw [u.permeability_eq, u.fluxDensity_eq]
  field_simp

end Static
end Verif
