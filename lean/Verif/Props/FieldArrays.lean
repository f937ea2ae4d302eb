import Verif.Lemmas.Layout

/-!
# Property C98: arrays of frequencies or times and arrays of points
-/

namespace Verif

open NArr Layout Utils Spatial

variable {xyz : XyzArg ℝ} {sh : List ℕ} {x : List ℕ → V3 ℝ}

namespace FdemArr

/-- **C98.** Harmonic electric dipole. -/
theorem ElectricDipole.vectorPotential_pairs (s : ElectricDipole) (hx : IsPoints xyz sh x) :
    ∃ r, s.vectorPotential xyz = .ok r ∧ HoldsPairs s.frequency sh x (fun q => (s.at q).vectorPotential) r := by
  obtain ⟨a, ha, hs, hv⟩ := points_check hx
  obtain ⟨v, hvv, hn, hr, u, hu, hus, huv⟩ := separation hs hv s.location
  have hnd : (normKeep v).ndim = sh.length + 1 := by simp [ndim, hn]
  have hk := den_param (F := s.frequency.shape) s.wavenumber rfl hnd
  unfold ElectricDipole.vectorPotential
  simp only [ha, hvv, ok_bind]
  apply DenP.holds
  refine DenP.bind (Den.zip _ (hk.map _) (hr _)) fun _ h1 => ?_
  refine DenP.bind (Den.zip _ ((hr _).map _) (h1.map _)) fun _ h2 => ?_
  refine (Den.zip _ h2 (den_vector _)).congr fun p hp i hi c hc => ?_
  interval_cases c <;> rfl

/-- **C98.** Harmonic electric dipole. -/
theorem ElectricDipole.electricField_pairs (s : ElectricDipole) (hx : IsPoints xyz sh x) :
    ∃ r, s.electricField xyz = .ok r ∧ HoldsPairs s.frequency sh x (fun q => (s.at q).electricField) r := by
  obtain ⟨a, ha, hs, hv⟩ := points_check hx
  obtain ⟨v, hvv, hn, hr, u, hu, hus, huv⟩ := separation hs hv s.location
  have hnd : (normKeep v).ndim = sh.length + 1 := by simp [ndim, hn]
  have hk := den_param (F := s.frequency.shape) s.wavenumber rfl hnd
  unfold ElectricDipole.electricField
  simp only [ha, hvv, hu, ok_bind]
  apply DenP.holds
  refine DenP.bind (Den.zip _ hk (hr _)) fun _ h1 => ?_
  refine DenP.bind (Den.zip _ ((hr _).map _) ((h1.map _).map _)) fun _ h2 => ?_
  refine DenP.bind (Den.zip _ (h1.map _) ((h1.map _).map _)) fun _ h3 => ?_
  refine DenP.bind (Den.zip _ (den_dot hus huv _) (h3.map _)) fun _ h4 => ?_
  refine DenP.bind (Den.zip _ h4 (den_unit hus huv)) fun _ h5 => ?_
  refine DenP.bind (Den.zip _ (h1.map _) (h1.map _)) fun _ h6 => ?_
  refine DenP.bind (Den.zip _ (h6.map _) (den_vector _)) fun _ h7 => ?_
  refine DenP.bind (Den.zip _ h5 h7) fun _ h8 => ?_
  refine (Den.zip _ h2 h8).congr fun p hp i hi c hc => ?_
  interval_cases c <;> rfl

/-- **C98.** Harmonic electric dipole. -/
theorem ElectricDipole.currentDensity_pairs (s : ElectricDipole) (hx : IsPoints xyz sh x) :
    ∃ r, s.currentDensity xyz = .ok r ∧ HoldsPairs s.frequency sh x (fun q => (s.at q).currentDensity) r :=
  holds_map _ (s.electricField_pairs hx)

/-- **C98.** Harmonic electric dipole. -/
theorem ElectricDipole.magneticField_pairs (s : ElectricDipole) (hx : IsPoints xyz sh x) :
    ∃ r, s.magneticField xyz = .ok r ∧ HoldsPairs s.frequency sh x (fun q => (s.at q).magneticField) r := by
  obtain ⟨a, ha, hs, hv⟩ := points_check hx
  obtain ⟨v, hvv, hn, hr, u, hu, hus, huv⟩ := separation hs hv s.location
  have hnd : (normKeep v).ndim = sh.length + 1 := by simp [ndim, hn]
  have hk := den_param (F := s.frequency.shape) s.wavenumber rfl hnd
  unfold ElectricDipole.magneticField
  simp only [ha, hvv, hu, ok_bind]
  apply DenP.holds
  refine DenP.bind (Den.zip _ hk (hr _)) fun _ h1 => ?_
  refine DenP.bind (Den.zip _ ((hr _).map _) ((h1.map _).map _)) fun _ h2 => ?_
  refine DenP.bind (Den.zip _ h2 ((h1.map _).map _)) fun _ h3 => ?_
  refine (Den.zip _ h3 (den_crossLeft hus huv _)).congr fun p hp i hi c hc => ?_
  interval_cases c <;> rfl

/-- **C98.** Harmonic electric dipole. -/
theorem ElectricDipole.magneticFluxDensity_pairs (s : ElectricDipole) (hx : IsPoints xyz sh x) :
    ∃ r, s.magneticFluxDensity xyz = .ok r ∧ HoldsPairs s.frequency sh x (fun q => (s.at q).magneticFluxDensity) r :=
  holds_map _ (s.magneticField_pairs hx)

/-- **C98.** Harmonic magnetic dipole. -/
theorem MagneticDipole.vectorPotential_pairs (s : MagneticDipole) (hx : IsPoints xyz sh x) :
    ∃ r, s.vectorPotential xyz = .ok r ∧ HoldsPairs s.frequency sh x (fun q => (s.at q).vectorPotential) r := by
  obtain ⟨a, ha, hs, hv⟩ := points_check hx
  obtain ⟨v, hvv, hn, hr, u, hu, hus, huv⟩ := separation hs hv s.location
  have hnd : (normKeep v).ndim = sh.length + 1 := by simp [ndim, hn]
  have hk := den_param (F := s.frequency.shape) s.wavenumber rfl hnd
  have hw := den_param (F := s.frequency.shape) s.omega rfl hnd
  unfold MagneticDipole.vectorPotential
  simp only [ha, hvv, ok_bind]
  apply DenP.holds
  refine DenP.bind (Den.zip _ (hk.map _) (hr _)) fun _ h1 => ?_
  refine DenP.bind (Den.zip _ (hw.map _) ((hr _).map _)) fun _ h2 => ?_
  refine DenP.bind (Den.zip _ h2 (h1.map _)) fun _ h3 => ?_
  refine (Den.zip _ h3 (den_vector _)).congr fun p hp i hi c hc => ?_
  interval_cases c <;> rfl

/-- **C98.** Harmonic magnetic dipole. -/
theorem MagneticDipole.electricField_pairs (s : MagneticDipole) (hx : IsPoints xyz sh x) :
    ∃ r, s.electricField xyz = .ok r ∧ HoldsPairs s.frequency sh x (fun q => (s.at q).electricField) r := by
  obtain ⟨a, ha, hs, hv⟩ := points_check hx
  obtain ⟨v, hvv, hn, hr, u, hu, hus, huv⟩ := separation hs hv s.location
  have hnd : (normKeep v).ndim = sh.length + 1 := by simp [ndim, hn]
  have hk := den_param (F := s.frequency.shape) s.wavenumber rfl hnd
  have hw := den_param (F := s.frequency.shape) s.omega rfl hnd
  unfold MagneticDipole.electricField
  simp only [ha, hvv, hu, ok_bind]
  apply DenP.holds
  refine DenP.bind (Den.zip _ hk (hr _)) fun _ h1 => ?_
  refine DenP.bind (Den.zip _ (hw.map _) ((hr _).map _)) fun _ h2 => ?_
  refine DenP.bind (Den.zip _ h2 ((h1.map _).map _)) fun _ h3 => ?_
  refine DenP.bind (Den.zip _ h3 ((h1.map _).map _)) fun _ h4 => ?_
  refine (Den.zip _ h4 (den_crossRight hus huv _)).congr fun p hp i hi c hc => ?_
  interval_cases c <;> rfl

/-- **C98.** Harmonic magnetic dipole. -/
theorem MagneticDipole.currentDensity_pairs (s : MagneticDipole) (hx : IsPoints xyz sh x) :
    ∃ r, s.currentDensity xyz = .ok r ∧ HoldsPairs s.frequency sh x (fun q => (s.at q).currentDensity) r :=
  holds_map _ (s.electricField_pairs hx)

/-- **C98.** Harmonic magnetic dipole. -/
theorem MagneticDipole.magneticField_pairs (s : MagneticDipole) (hx : IsPoints xyz sh x) :
    ∃ r, s.magneticField xyz = .ok r ∧ HoldsPairs s.frequency sh x (fun q => (s.at q).magneticField) r := by
  obtain ⟨a, ha, hs, hv⟩ := points_check hx
  obtain ⟨v, hvv, hn, hr, u, hu, hus, huv⟩ := separation hs hv s.location
  have hnd : (normKeep v).ndim = sh.length + 1 := by simp [ndim, hn]
  have hk := den_param (F := s.frequency.shape) s.wavenumber rfl hnd
  unfold MagneticDipole.magneticField
  simp only [ha, hvv, hu, ok_bind]
  apply DenP.holds
  refine DenP.bind (Den.zip _ hk (hr _)) fun _ h1 => ?_
  refine DenP.bind (Den.zip _ ((hr _).map _) ((h1.map _).map _)) fun _ h2 => ?_
  refine DenP.bind (Den.zip _ (h1.map _) ((h1.map _).map _)) fun _ h3 => ?_
  refine DenP.bind (Den.zip _ (den_dot hus huv _) (h3.map _)) fun _ h4 => ?_
  refine DenP.bind (Den.zip _ h4 (den_unit hus huv)) fun _ h5 => ?_
  refine DenP.bind (Den.zip _ (h1.map _) (h1.map _)) fun _ h6 => ?_
  refine DenP.bind (Den.zip _ (h6.map _) (den_vector _)) fun _ h7 => ?_
  refine DenP.bind (Den.zip _ h5 h7) fun _ h8 => ?_
  refine (Den.zip _ h2 h8).congr fun p hp i hi c hc => ?_
  interval_cases c <;> rfl

/-- **C98.** Harmonic magnetic dipole. -/
theorem MagneticDipole.magneticFluxDensity_pairs (s : MagneticDipole) (hx : IsPoints xyz sh x) :
    ∃ r, s.magneticFluxDensity xyz = .ok r ∧ HoldsPairs s.frequency sh x (fun q => (s.at q).magneticFluxDensity) r :=
  holds_map _ (s.magneticField_pairs hx)

/-- **C98.** Harmonic plane wave. -/
theorem PlaneWave.electricField_pairs (s : PlaneWave) (hx : IsPoints xyz sh x) :
    ∃ r, s.electricField xyz = .ok r ∧ HoldsPairs s.frequency sh x (fun q => (s.at q).electricField) r := by
  obtain ⟨a, ha, hs, hv⟩ := points_check hx
  have hnd : a.ndim = sh.length + 1 := by simp [ndim, hs]
  have hk := den_param (F := s.frequency.shape) s.wavenumber rfl hnd
  unfold PlaneWave.electricField
  simp only [ha, ok_bind]
  apply DenP.holds
  refine DenP.bind (Den.zip _ (hk.map _) (den_third hs hv)) fun _ h1 => ?_
  refine (Den.zip _ ((den_vector _).map _) (h1.map _)).congr fun p hp i hi c hc => ?_
  interval_cases c <;> rfl

/-- **C98.** Harmonic plane wave. -/
theorem PlaneWave.currentDensity_pairs (s : PlaneWave) (hx : IsPoints xyz sh x) :
    ∃ r, s.currentDensity xyz = .ok r ∧ HoldsPairs s.frequency sh x (fun q => (s.at q).currentDensity) r :=
  holds_map _ (s.electricField_pairs hx)

/-- **C98.** Harmonic plane wave. -/
theorem PlaneWave.magneticFluxDensity_pairs (s : PlaneWave) (hx : IsPoints xyz sh x) :
    ∃ r, s.magneticFluxDensity xyz = .ok r ∧ HoldsPairs s.frequency sh x (fun q => (s.at q).magneticFluxDensity) r := by
  obtain ⟨a, ha, hs, hv⟩ := points_check hx
  have hnd : a.ndim = sh.length + 1 := by simp [ndim, hs]
  have hk := den_param (F := s.frequency.shape) s.wavenumber rfl hnd
  have hw := den_param (F := s.frequency.shape) s.omega rfl hnd
  unfold PlaneWave.magneticFluxDensity
  simp only [ha, ok_bind]
  apply DenP.holds
  refine DenP.bind (Den.zip _ hk (den_third hs hv)) fun _ h1 => ?_
  refine DenP.bind (Den.zip _ (hk.map _) hw) fun _ h2 => ?_
  refine DenP.bind (Den.zip _ h2 ((h1.map _).map _)) fun _ h3 => ?_
  refine (Den.zip _ (den_vector _) h3).congr fun p hp i hi c hc => ?_
  interval_cases c <;> rfl

/-- **C98.** Harmonic plane wave. -/
theorem PlaneWave.magneticField_pairs (s : PlaneWave) (hx : IsPoints xyz sh x) :
    ∃ r, s.magneticField xyz = .ok r ∧ HoldsPairs s.frequency sh x (fun q => (s.at q).magneticField) r :=
  holds_map _ (s.magneticFluxDensity_pairs hx)

end FdemArr

namespace TdemArr

/-- **C98.** Transient electric dipole. -/
theorem ElectricDipole.vectorPotential_pairs (s : ElectricDipole) (hx : IsPoints xyz sh x) :
    ∃ r, s.vectorPotential xyz = .ok r ∧ HoldsPairs s.time sh x (fun q => (s.at q).vectorPotential) r := by
  obtain ⟨a, ha, hs, hv⟩ := points_check hx
  obtain ⟨v, hvv, hn, hr, u, hu, hus, huv⟩ := separation hs hv s.location
  have hnd : (normKeep v).ndim = sh.length + 1 := by simp [ndim, hn]
  have hk := den_param (F := s.time.shape) s.theta rfl hnd
  unfold ElectricDipole.vectorPotential
  simp only [ha, hvv, ok_bind]
  apply DenP.holds
  refine DenP.bind (Den.zip _ hk (hr _)) fun _ h1 => ?_
  refine DenP.bind (Den.zip _ ((hr _).map _) (h1.map _)) fun _ h2 => ?_
  refine (Den.zip _ h2 (den_vector _)).congr fun p hp i hi c hc => ?_
  interval_cases c <;> rfl

/-- **C98.** Transient electric dipole. -/
theorem ElectricDipole.electricField_pairs (s : ElectricDipole) (hx : IsPoints xyz sh x) :
    ∃ r, s.electricField xyz = .ok r ∧ HoldsPairs s.time sh x (fun q => (s.at q).electricField) r := by
  obtain ⟨a, ha, hs, hv⟩ := points_check hx
  obtain ⟨v, hvv, hn, hr, u, hu, hus, huv⟩ := separation hs hv s.location
  have hnd : (normKeep v).ndim = sh.length + 1 := by simp [ndim, hn]
  have hk := den_param (F := s.time.shape) s.theta rfl hnd
  unfold ElectricDipole.electricField
  simp only [ha, hvv, hu, ok_bind]
  apply DenP.holds
  refine DenP.bind (Den.zip _ hk (hr _)) fun _ h1 => ?_
  refine DenP.bind (Den.zip _ (h1.map _) (h1.map _)) fun _ h2 => ?_
  refine DenP.bind (Den.zip _ (h1.map _) h2) fun _ h3 => ?_
  refine DenP.bind (Den.zip _ (h1.map _) h3) fun _ h4 => ?_
  refine DenP.bind (Den.zip _ (den_dot hus huv _) (den_unit hus huv)) fun _ h5 => ?_
  refine DenP.bind (Den.zip _ (h1.map _) h2) fun _ h6 => ?_
  refine DenP.bind (Den.zip _ (h1.map _) h6) fun _ h7 => ?_
  refine DenP.bind (Den.zip _ h4 h5) fun _ h8 => ?_
  refine DenP.bind (Den.zip _ h7 (den_vector _)) fun _ h9 => ?_
  refine DenP.bind (Den.zip _ h8 h9) fun _ h10 => ?_
  refine (Den.zip _ ((hr _).map _) h10).congr fun p hp i hi c hc => ?_
  interval_cases c <;> rfl

/-- **C98.** Transient electric dipole. -/
theorem ElectricDipole.currentDensity_pairs (s : ElectricDipole) (hx : IsPoints xyz sh x) :
    ∃ r, s.currentDensity xyz = .ok r ∧ HoldsPairs s.time sh x (fun q => (s.at q).currentDensity) r :=
  holds_map _ (s.electricField_pairs hx)

/-- **C98.** Transient electric dipole. -/
theorem ElectricDipole.magneticField_pairs (s : ElectricDipole) (hx : IsPoints xyz sh x) :
    ∃ r, s.magneticField xyz = .ok r ∧ HoldsPairs s.time sh x (fun q => (s.at q).magneticField) r := by
  obtain ⟨a, ha, hs, hv⟩ := points_check hx
  obtain ⟨v, hvv, hn, hr, u, hu, hus, huv⟩ := separation hs hv s.location
  have hnd : (normKeep v).ndim = sh.length + 1 := by simp [ndim, hn]
  have hk := den_param (F := s.time.shape) s.theta rfl hnd
  unfold ElectricDipole.magneticField
  simp only [ha, hvv, hu, ok_bind]
  apply DenP.holds
  refine DenP.bind (Den.zip _ hk (hr _)) fun _ h1 => ?_
  refine DenP.bind (Den.zip _ (h1.map _) (h1.map _)) fun _ h2 => ?_
  refine DenP.bind (Den.zip _ (h1.map _) h2) fun _ h3 => ?_
  refine DenP.bind (Den.zip _ ((hr _).map _) h3) fun _ h4 => ?_
  refine (Den.zip _ h4 (den_crossLeft hus huv _)).congr fun p hp i hi c hc => ?_
  interval_cases c <;> rfl

/-- **C98.** Transient electric dipole. -/
theorem ElectricDipole.magneticFieldTimeDeriv_pairs (s : ElectricDipole) (hx : IsPoints xyz sh x) :
    ∃ r, s.magneticFieldTimeDeriv xyz = .ok r ∧ HoldsPairs s.time sh x (fun q => (s.at q).magneticFieldTimeDeriv) r := by
  obtain ⟨a, ha, hs, hv⟩ := points_check hx
  obtain ⟨v, hvv, hn, hr, u, hu, hus, huv⟩ := separation hs hv s.location
  have hnd : (normKeep v).ndim = sh.length + 1 := by simp [ndim, hn]
  have hk := den_param (F := s.time.shape) s.theta rfl hnd
  have hw := den_param (F := s.time.shape) s.time rfl hnd
  unfold ElectricDipole.magneticFieldTimeDeriv
  simp only [ha, hvv, hu, ok_bind]
  apply DenP.holds
  refine DenP.bind (Den.zip _ hk (hr _)) fun _ h1 => ?_
  refine DenP.bind (Den.zip _ (h1.map _) (hw.map _)) fun _ h2 => ?_
  refine DenP.bind (Den.zip _ h2 (h1.map _)) fun _ h3 => ?_
  refine DenP.bind (Den.zip _ ((hr _).map _) h3) fun _ h4 => ?_
  refine (Den.zip _ h4 (den_crossLeft hus huv _)).congr fun p hp i hi c hc => ?_
  interval_cases c <;> rfl

/-- **C98.** Transient electric dipole. -/
theorem ElectricDipole.magneticFluxDensity_pairs (s : ElectricDipole) (hx : IsPoints xyz sh x) :
    ∃ r, s.magneticFluxDensity xyz = .ok r ∧ HoldsPairs s.time sh x (fun q => (s.at q).magneticFluxDensity) r :=
  holds_map _ (s.magneticField_pairs hx)

/-- **C98.** Transient electric dipole. -/
theorem ElectricDipole.magneticFluxDensityTimeDeriv_pairs (s : ElectricDipole) (hx : IsPoints xyz sh x) :
    ∃ r, s.magneticFluxDensityTimeDeriv xyz = .ok r ∧ HoldsPairs s.time sh x (fun q => (s.at q).magneticFluxDensityTimeDeriv) r :=
  holds_map _ (s.magneticFieldTimeDeriv_pairs hx)

/-- **C98.** Transient plane wave. -/
theorem PlaneWave.electricField_pairs (s : PlaneWave) (hx : IsPoints xyz sh x) :
    ∃ r, s.electricField xyz = .ok r ∧ HoldsPairs s.time sh x (fun q => (s.at q).electricField) r := by
  obtain ⟨a, ha, hs, hv⟩ := points_check hx
  have hnd : a.ndim = sh.length + 1 := by simp [ndim, hs]
  have hw := den_param (F := s.time.shape) s.time rfl hnd
  unfold PlaneWave.electricField
  simp only [ha, ok_bind]
  apply DenP.holds
  refine DenP.bind (Den.zip _ ((den_third hs hv).map _) (hw.map _)) fun _ h1 => ?_
  refine DenP.bind (Den.zip _ ((den_third hs hv).map _) (h1.map _)) fun _ h2 => ?_
  refine DenP.bind (Den.zip _ h2 (hw.map _)) fun _ h3 => ?_
  refine (Den.zip _ (den_vector _) h3).congr fun p hp i hi c hc => ?_
  interval_cases c <;> rfl

/-- **C98.** Transient plane wave. -/
theorem PlaneWave.currentDensity_pairs (s : PlaneWave) (hx : IsPoints xyz sh x) :
    ∃ r, s.currentDensity xyz = .ok r ∧ HoldsPairs s.time sh x (fun q => (s.at q).currentDensity) r :=
  holds_map _ (s.electricField_pairs hx)

/-- **C98.** Transient plane wave. -/
theorem PlaneWave.magneticFluxDensity_pairs (s : PlaneWave) (hx : IsPoints xyz sh x) :
    ∃ r, s.magneticFluxDensity xyz = .ok r ∧ HoldsPairs s.time sh x (fun q => (s.at q).magneticFluxDensity) r := by
  obtain ⟨a, ha, hs, hv⟩ := points_check hx
  have hnd : a.ndim = sh.length + 1 := by simp [ndim, hs]
  have hw := den_param (F := s.time.shape) s.time rfl hnd
  unfold PlaneWave.magneticFluxDensity
  simp only [ha, ok_bind]
  apply DenP.holds
  refine DenP.bind (Den.zip _ ((den_third hs hv).map _) (hw.map _)) fun _ h1 => ?_
  refine DenP.bind (Den.zip _ (hw.map _) (h1.map _)) fun _ h2 => ?_
  refine (Den.zip _ (den_vector _) h2).congr fun p hp i hi c hc => ?_
  interval_cases c <;> rfl

/-- **C98.** Transient plane wave. -/
theorem PlaneWave.magneticField_pairs (s : PlaneWave) (hx : IsPoints xyz sh x) :
    ∃ r, s.magneticField xyz = .ok r ∧ HoldsPairs s.time sh x (fun q => (s.at q).magneticField) r :=
  holds_map _ (s.magneticFluxDensity_pairs hx)

end TdemArr

/-- Every argument is either an array (or a tuple of three arrays) of points, or refused. -/
theorem points_or_refused (xyz : XyzArg ℝ) : (∃ sh x, IsPoints xyz sh x) ∨ ∃ e, checkXyzDim xyz 3 = .error e := by
  cases xyz with
  | array a =>
    rcases List.eq_nil_or_concat a.shape with h | ⟨sh, n, h⟩
    · exact .inr ⟨_, (checkXyzDim_array a 3).2.2 h⟩
    · rw [List.concat_eq_append] at h
      by_cases hn : n = 3
      · subst hn
        exact .inl ⟨sh, vecAt a, .inl ⟨a, rfl, h, fun _ => rfl⟩⟩
      · exact .inr ⟨_, (checkXyzDim_array a 3).2.1 sh n h hn⟩
  | tuple l =>
    by_cases h : l = [] ∨ (∃ a ∈ l, ∃ b ∈ l, a.shape ≠ b.shape) ∨ l.length ≠ 3
    · exact .inr ⟨_, checkXyzDim_tuple_rejects l 3 h⟩
    · push Not at h
      obtain ⟨-, h1, h2⟩ := h
      obtain ⟨a, b, c, rfl⟩ := List.length_eq_three.1 h2
      exact .inl ⟨a.shape, _, .inr ⟨a, b, c, rfl, rfl, h1 _ (by simp) _ (by simp), h1 _ (by simp) _ (by simp), fun _ => rfl⟩⟩

/-- **C98.** Any other argument is refused by every method, with the exception of `check_xyz_dim`. -/
theorem FdemArr.refused {e : PyErr} (h : checkXyzDim xyz 3 = .error e) (s : ElectricDipole) (m : MagneticDipole) (w : PlaneWave) :
    s.vectorPotential xyz = .error e ∧ s.electricField xyz = .error e ∧ s.currentDensity xyz = .error e ∧
    s.magneticField xyz = .error e ∧ s.magneticFluxDensity xyz = .error e ∧
    m.vectorPotential xyz = .error e ∧ m.electricField xyz = .error e ∧ m.currentDensity xyz = .error e ∧
    m.magneticField xyz = .error e ∧ m.magneticFluxDensity xyz = .error e ∧
    w.electricField xyz = .error e ∧ w.currentDensity xyz = .error e ∧
    w.magneticField xyz = .error e ∧ w.magneticFluxDensity xyz = .error e := by
  simp [ElectricDipole.vectorPotential, ElectricDipole.electricField, ElectricDipole.currentDensity, ElectricDipole.magneticField,
    ElectricDipole.magneticFluxDensity, MagneticDipole.vectorPotential, MagneticDipole.electricField, MagneticDipole.currentDensity,
    MagneticDipole.magneticField, MagneticDipole.magneticFluxDensity, PlaneWave.electricField, PlaneWave.currentDensity,
    PlaneWave.magneticField, PlaneWave.magneticFluxDensity, h, bind, Except.bind]

/-- **C98.** The same for the transient sources. -/
theorem TdemArr.refused {e : PyErr} (h : checkXyzDim xyz 3 = .error e) (s : ElectricDipole) (w : PlaneWave) :
    s.vectorPotential xyz = .error e ∧ s.electricField xyz = .error e ∧ s.currentDensity xyz = .error e ∧
    s.magneticField xyz = .error e ∧ s.magneticFluxDensity xyz = .error e ∧
    s.magneticFieldTimeDeriv xyz = .error e ∧ s.magneticFluxDensityTimeDeriv xyz = .error e ∧
    w.electricField xyz = .error e ∧ w.currentDensity xyz = .error e ∧
    w.magneticField xyz = .error e ∧ w.magneticFluxDensity xyz = .error e := by
  simp [ElectricDipole.vectorPotential, ElectricDipole.electricField, ElectricDipole.currentDensity, ElectricDipole.magneticField,
    ElectricDipole.magneticFluxDensity, ElectricDipole.magneticFieldTimeDeriv, ElectricDipole.magneticFluxDensityTimeDeriv,
    PlaneWave.electricField, PlaneWave.currentDensity, PlaneWave.magneticField, PlaneWave.magneticFluxDensity, h, bind, Except.bind]

/-- **C98.** The documentation says that the output is squeezed when there is one frequency; it is not: one frequency in an
array leaves an axis of length one, and only a frequency that is a plain number leaves none. -/
theorem FdemArr.not_squeezed (s : FdemArr.ElectricDipole) (hf : s.frequency.shape = [1]) (hx : IsPoints xyz sh x) :
    ∃ r, s.electricField xyz = .ok r ∧ r.shape = 1 :: (sh ++ [3]) ∧ r.squeeze.shape ≠ r.shape := by
  obtain ⟨r, hr, hs, -⟩ := s.electricField_pairs hx
  rw [hf] at hs
  refine ⟨r, hr, hs, fun h => ?_⟩
  have h1 : 1 ∈ r.squeeze.shape := by rw [h, hs]; simp
  simp [squeeze] at h1

/-- Two frequencies and a grid of four by five points. -/
example : IsPoints (.array ⟨[4, 5, 3], fun i => i.sum⟩) [4, 5] (fun i => ⟨i.sum, i.sum + 1, i.sum + 2⟩) :=
  .inl ⟨_, rfl, rfl, fun i => by simp [vecAt]⟩

example (s : FdemArr.ElectricDipole) (hf : s.frequency.shape = [2]) :
    ∃ r, s.electricField (.array ⟨[4, 5, 3], fun i => i.sum⟩) = .ok r ∧ r.shape = [2, 4, 5, 3] ∧
      vecAt r [1, 3, 4] = (s.at (s.frequency.get [1])).electricField ⟨7, 8, 9⟩ := by
  obtain ⟨r, hr, hs, hv⟩ := s.electricField_pairs (xyz := .array ⟨[4, 5, 3], fun i => i.sum⟩) (sh := [4, 5])
    (x := fun i => ⟨i.sum, i.sum + 1, i.sum + 2⟩) (.inl ⟨_, rfl, rfl, fun i => by simp [vecAt]⟩)
  refine ⟨r, hr, by simp [hs, hf], ?_⟩
  have := hv [1] (by rw [hf]; exact .cons (by norm_num) .nil) [3, 4] (.cons (by norm_num) (.cons (by norm_num) .nil))
  simp only [List.singleton_append] at this
  rw [this]
  norm_num

end Verif
