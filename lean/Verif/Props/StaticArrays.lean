import Verif.Lemmas.StaticArrays

/-!
# C100: the static sources, the masses and the prisms compute every point on its own

Points are an array with any number of axes (or a tuple of three arrays); the result has the same axes, and at each
position it is what the method gives for that point alone.
-/

namespace Verif

open NArr PointArr

variable {sh : List ℕ} {xyz : Utils.XyzArg ℝ} {x : List ℕ → V3 ℝ}

namespace StaticArr

open Static

/-! ## Dipole and pole -/

theorem withCoordinates_holds {F : NArr ℝ → Py (NArr ℝ)} {f : V3 ℝ → V3 ℝ}
    (hF : ∀ (a : NArr ℝ) (y : List ℕ → V3 ℝ), Vc sh a y → Ok (F a) fun r => Vc sh r fun i => f (y i)) (hx : IsPoints xyz sh x)
    (coordinates : String) (hc : coordinates.toLower = "cartesian" ∨ coordinates.toLower = "cylindrical") :
    ∃ r, withCoordinates F coordinates xyz = .ok r ∧ r.shape = sh ++ [3] ∧
      ∀ i, InShape sh i → Static.withCoordinates f coordinates (x i) = .ok (vecAt r i) := by
  have key : Ok (withCoordinates F coordinates xyz) fun r => Vc sh r fun i =>
      if coordinates.toLower = "cylindrical" then Spatial.cartToCylVec (Spatial.cylToCart (x i)) (f (Spatial.cylToCart (x i))) else f (x i) := by
    unfold withCoordinates
    rw [if_neg (not_not.2 hc)]
    refine Ok.bind (check hx) fun a ha => ?_
    by_cases h : coordinates.toLower = "cylindrical"
    · simp only [if_pos h]
      refine Ok.bind (cylToCart_arr ha) fun b hb => ?_
      refine Ok.bind (hF b _ hb) fun r hr => ?_
      exact cartToCylVec_arr hb hr
    · simp only [if_neg h]
      exact Ok.bind (P := fun b => Vc sh b x) (Ok.pure ha) fun b hb => Ok.bind (hF b _ hb) fun r hr => Ok.pure hr
  obtain ⟨r, hr, hs, hv⟩ := key
  refine ⟨r, hr, hs, fun i hi => ?_⟩
  rw [hv i hi]
  unfold Static.withCoordinates
  rw [if_neg (not_not.2 hc)]
  by_cases h : coordinates.toLower = "cylindrical" <;> simp [h]

theorem withCoordinates_refuses {F : NArr ℝ → Py (NArr ℝ)} (coordinates : String)
    (hc : ¬ (coordinates.toLower = "cartesian" ∨ coordinates.toLower = "cylindrical")) :
    withCoordinates F coordinates xyz = .error .assertionError := by
  unfold withCoordinates
  rw [if_pos hc]

theorem dipolePotential_at (s : MagDipole) (a : NArr ℝ) (y : List ℕ → V3 ℝ) (h : Vc sh a y) :
    Ok (dipolePotential s a) fun r => Vc sh r fun i => s.vectorPotential (y i) := by
  refine Ok.bind (sub_arr h _) fun v hv => ?_
  refine Ok.bind (hv.zipKp _ hv.normKeep) fun u hu => ?_
  exact (hv.normKeep.map _).zipVc _ (hu.crossLeft _)

theorem dipoleFlux_at (s : MagDipole) (a : NArr ℝ) (y : List ℕ → V3 ℝ) (h : Vc sh a y) :
    Ok (dipoleFlux s a) fun r => Vc sh r fun i => s.magneticFluxDensity (y i) := by
  refine Ok.bind (sub_arr h _) fun v hv => ?_
  refine Ok.bind (hv.zipKp _ hv.normKeep) fun u hu => ?_
  refine Ok.bind (((hu.dot _).newLast.map _).zipVc _ hu) fun p hp => ?_
  refine Ok.bind (hp.zipArr _ _) fun q hq => ?_
  exact (hv.normKeep.map _).zipVc _ hq

theorem poleFlux_at (s : MagDipole) (a : NArr ℝ) (y : List ℕ → V3 ℝ) (h : Vc sh a y) :
    Ok (poleFlux s a) fun r => Vc sh r fun i => s.poleFluxDensity (y i) := by
  refine Ok.bind (sub_arr h _) fun v hv => ?_
  refine Ok.bind (hv.zipKp _ hv.normKeep) fun u hu => ?_
  exact (hv.normKeep.map _).zipVc _ hu

theorem withCoordinates_map {f : V3 ℝ → V3 ℝ} {coordinates : String} {p r : V3 ℝ} (k : ℝ)
    (h : Static.withCoordinates f coordinates p = .ok r) :
    Static.withCoordinates (fun p => (f p).map (· / k)) coordinates p = .ok (r.map (· / k)) := by
  unfold Static.withCoordinates at h ⊢
  split_ifs at h ⊢ with h1 h2
  · simp only [Except.ok.injEq] at h ⊢
    rw [← h]
    ext <;> simp [Spatial.cartToCylVec] <;> ring
  · simp only [Except.ok.injEq] at h ⊢
    rw [← h]

/-- **C100.** The magnetic dipole, in both coordinate systems; other words for the coordinates are refused. -/
theorem dipole_points (s : MagDipole) (coordinates : String) (hx : IsPoints xyz sh x) :
    ((coordinates.toLower = "cartesian" ∨ coordinates.toLower = "cylindrical") →
      (∃ r, MagDipole.vectorPotential s coordinates xyz = .ok r ∧ r.shape = sh ++ [3] ∧
        ∀ i, InShape sh i → Static.withCoordinates s.vectorPotential coordinates (x i) = .ok (vecAt r i)) ∧
      (∃ r, MagDipole.magneticFluxDensity s coordinates xyz = .ok r ∧ r.shape = sh ++ [3] ∧
        ∀ i, InShape sh i → Static.withCoordinates s.magneticFluxDensity coordinates (x i) = .ok (vecAt r i)) ∧
      (∃ r, MagDipole.magneticField s coordinates xyz = .ok r ∧ r.shape = sh ++ [3] ∧
        ∀ i, InShape sh i → Static.withCoordinates s.magneticField coordinates (x i) = .ok (vecAt r i))) ∧
    (¬ (coordinates.toLower = "cartesian" ∨ coordinates.toLower = "cylindrical") →
      MagDipole.vectorPotential s coordinates xyz = .error .assertionError ∧
      MagDipole.magneticFluxDensity s coordinates xyz = .error .assertionError ∧
      MagDipole.magneticField s coordinates xyz = .error .assertionError) := by
  refine ⟨fun hc => ⟨withCoordinates_holds (dipolePotential_at s) hx _ hc, withCoordinates_holds (dipoleFlux_at s) hx _ hc, ?_⟩,
    fun hc => ⟨withCoordinates_refuses _ hc, withCoordinates_refuses _ hc, ?_⟩⟩
  · obtain ⟨r, hr, hs, hv⟩ := withCoordinates_holds (dipoleFlux_at s) hx _ hc
    refine ⟨r.mapA (· / s.mu), ?_, hs, fun i hi => withCoordinates_map s.mu (hv i hi)⟩
    unfold MagDipole.magneticField MagDipole.magneticFluxDensity
    rw [hr]
    rfl
  · unfold MagDipole.magneticField MagDipole.magneticFluxDensity
    rw [withCoordinates_refuses _ hc]
    rfl

/-- **C100.** The magnetic pole, in both coordinate systems; other words for the coordinates are refused. -/
theorem pole_points (s : MagDipole) (coordinates : String) (hx : IsPoints xyz sh x) :
    ((coordinates.toLower = "cartesian" ∨ coordinates.toLower = "cylindrical") →
      (∃ r, MagDipole.poleFluxDensity s coordinates xyz = .ok r ∧ r.shape = sh ++ [3] ∧
        ∀ i, InShape sh i → Static.withCoordinates s.poleFluxDensity coordinates (x i) = .ok (vecAt r i)) ∧
      (∃ r, MagDipole.poleField s coordinates xyz = .ok r ∧ r.shape = sh ++ [3] ∧
        ∀ i, InShape sh i → Static.withCoordinates s.poleField coordinates (x i) = .ok (vecAt r i))) ∧
    (¬ (coordinates.toLower = "cartesian" ∨ coordinates.toLower = "cylindrical") →
      MagDipole.poleFluxDensity s coordinates xyz = .error .assertionError ∧
      MagDipole.poleField s coordinates xyz = .error .assertionError) := by
  refine ⟨fun hc => ⟨withCoordinates_holds (poleFlux_at s) hx _ hc, ?_⟩, fun hc => ⟨withCoordinates_refuses _ hc, ?_⟩⟩
  · obtain ⟨r, hr, hs, hv⟩ := withCoordinates_holds (poleFlux_at s) hx _ hc
    refine ⟨r.mapA (· / s.mu), ?_, hs, fun i hi => withCoordinates_map s.mu (hv i hi)⟩
    unfold MagDipole.poleField MagDipole.poleFluxDensity
    rw [hr]
    rfl
  · unfold MagDipole.poleField MagDipole.poleFluxDensity
    rw [withCoordinates_refuses _ hc]
    rfl

/-! ## Line current -/

theorem each_scalar {α : Type} {h : V3 ℝ → α} {f : V3 ℝ → Py α} {m : Py (NArr α)} (hf : ∀ p, f p = .ok (h p))
    (hm : Ok m fun r => Sc sh r fun i => h (x i)) : EachScalar sh x f m :=
  .inl ⟨h, hf, hm⟩

theorem each_vector {h : V3 ℝ → V3 ℝ} {f : V3 ℝ → Py (V3 ℝ)} {m : Py (NArr ℝ)} (hf : ∀ p, f p = .ok (h p))
    (hm : Ok m fun r => Vc sh r fun i => h (x i)) : EachVector sh x f m :=
  .inl ⟨h, hf, hm⟩

/-- A method that multiplies or divides the result of another one. -/
theorem each_map {f : V3 ℝ → Py (V3 ℝ)} {m : Py (NArr ℝ)} (g : ℝ → ℝ) (h : EachVector sh x f m) :
    EachVector sh x (fun p => f p >>= fun v => pure (v.map g)) (m >>= fun r => pure (r.mapA g)) := by
  rcases h with ⟨h, hf, r, rfl, hr⟩ | ⟨e, hf, rfl⟩
  · refine .inl ⟨fun p => (h p).map g, fun p => by beta_reduce; rw [hf]; rfl, r.mapA g, rfl, ?_⟩
    exact Vc.map g hr
  · exact .inr ⟨e, fun p => by beta_reduce; rw [hf]; rfl, rfl⟩

/-- **C100.** The scalar potential of a wire. -/
theorem line_scalarPotential (s : LineCurrent) (hx : IsPoints xyz sh x) :
    EachScalar sh x s.scalarPotential (LineCurrent.scalarPotential s xyz) := by
  obtain ⟨a, ha, hv⟩ := check hx
  have e : s.scalarPotential = fun p => s.scalarPotential p := rfl
  rw [e]
  unfold LineCurrent.scalarPotential Static.LineCurrent.scalarPotential
  rw [ha]
  simp only [Layout.ok_bind]
  rcases s.nodes with _ | ⟨n0, _ | ⟨n1, rest⟩⟩
  · exact .inr ⟨_, fun _ => rfl, rfl⟩
  · exact each_scalar (fun _ => rfl) (Ok.bind (sub_arr hv n0) fun v hv' => Ok.pure (hv'.norm.map _))
  · by_cases h : (n1 :: rest).getLast (by simp) = n0
    · simp only [if_pos h]
      exact each_scalar (h := fun _ => 0) (fun _ => rfl) (Ok.pure ⟨by simp [zerosLike, col, hv.1], fun i hi => rfl⟩)
    · simp only [if_neg h]
      refine each_scalar (fun _ => rfl) ?_
      refine Ok.bind (sub_arr hv _) fun p hp => Ok.bind (sub_arr hv _) fun q hq => ?_
      exact Ok.bind ((hp.norm.map _).zip _ (hq.norm.map _)) fun d hd => Ok.pure (hd.map _)

/-- **C100.** The electric field of a wire. -/
theorem line_electricField (s : LineCurrent) (hx : IsPoints xyz sh x) :
    EachVector sh x s.electricField (LineCurrent.electricField s xyz) := by
  obtain ⟨a, ha, hv⟩ := check hx
  have e : s.electricField = fun p => s.electricField p := rfl
  rw [e]
  unfold LineCurrent.electricField Static.LineCurrent.electricField
  rw [ha]
  simp only [Layout.ok_bind]
  rcases s.nodes with _ | ⟨n0, _ | ⟨n1, rest⟩⟩
  · exact .inr ⟨_, fun _ => rfl, rfl⟩
  · refine each_vector (fun _ => rfl) (Ok.bind (sub_arr hv n0) fun v hv' => ?_)
    exact Ok.bind (hv'.zipKp _ (hv'.normKeep.map _)) fun q hq => Ok.pure (hq.map _)
  · by_cases h : (n1 :: rest).getLast (by simp) = n0
    · simp only [if_pos h]
      exact each_vector (h := fun _ => 0) (fun _ => rfl) (Ok.pure (zeros_vec hv))
    · simp only [if_neg h]
      refine each_vector (fun _ => rfl) ?_
      refine Ok.bind (sub_arr hv _) fun p hp => Ok.bind (sub_arr hv _) fun q hq => ?_
      refine Ok.bind (hp.zipKp _ (hp.normKeep.map _)) fun p' hp' => Ok.bind (hq.zipKp _ (hq.normKeep.map _)) fun q' hq' => ?_
      exact Ok.bind (hp'.zip _ hq') fun d hd => Ok.pure (hd.map _)

/-- **C100.** The current density of a wire. -/
theorem line_currentDensity (s : LineCurrent) (hx : IsPoints xyz sh x) :
    EachVector sh x s.currentDensity (LineCurrent.currentDensity s xyz) :=
  each_map (s.sigma * ·) (line_electricField s hx)

/-- **C100.** The vector potential of a wire, although all segments use one array for their contributions. -/
theorem line_vectorPotential (s : LineCurrent) (hx : IsPoints xyz sh x) :
    EachVector sh x s.vectorPotential (LineCurrent.vectorPotential s xyz) := by
  obtain ⟨a, ha, hv⟩ := check hx
  have h := each_map (· * (-s.mu * s.current / (4 * Real.pi)))
    (potentialLoop_spec hv s.nodes (fun _ => 0) _ _ (fun _ => 0) (zeros_vec hv) (zeros_vec hv))
  unfold LineCurrent.vectorPotential
  rw [ha]
  exact h

/-- **C100.** The magnetic flux density of a wire, although all segments use one array for their contributions. -/
theorem line_magneticFluxDensity (s : LineCurrent) (hx : IsPoints xyz sh x) :
    EachVector sh x s.magneticFluxDensity (LineCurrent.magneticFluxDensity s xyz) := by
  obtain ⟨a, ha, hv⟩ := check hx
  have h := each_map (· * (-s.mu * s.current / (4 * Real.pi)))
    (fluxLoop_spec hv s.nodes (fun _ => 0) _ _ (fun _ => 0) (fun _ => 0) (zeros_vec hv) (zeros_vec hv))
  unfold LineCurrent.magneticFluxDensity
  rw [ha]
  exact h

/-- **C100.** The magnetic field of a wire. -/
theorem line_magneticField (s : LineCurrent) (hx : IsPoints xyz sh x) :
    EachVector sh x s.magneticField (LineCurrent.magneticField s xyz) :=
  each_map (· / s.mu) (line_magneticFluxDensity s hx)

/-! ## Half-space -/

theorem anyAbove_iff {a : NArr ℝ} (h : Vc sh a x) : anyAbove a ↔ ∃ i, InShape sh i ∧ 0 < (x i).z := by
  unfold anyAbove
  rw [h.col2.1]
  constructor
  · rintro ⟨i, hi, hp⟩
    exact ⟨i, hi, by rw [h.col2.2 i hi] at hp; exact hp⟩
  · rintro ⟨i, hi, hp⟩
    exact ⟨i, hi, by rw [h.col2.2 i hi]; exact hp⟩

/-- The point currents of the model: one node each. -/
def Single (s : PointHalf) : Prop := (∃ p, s.primary.nodes = [p]) ∧ ∃ q, s.image.nodes = [q]

theorem single_of_new {mu0 rho current : ℝ} {loc : V3 ℝ} {s : PointHalf} (h : PointHalf.new mu0 rho current loc = .ok s) :
    Single s := by
  unfold PointHalf.new at h
  split_ifs at h
  obtain rfl := Except.ok.inj h
  exact ⟨⟨_, rfl⟩, _, rfl⟩

theorem isPoints_array {a : NArr ℝ} (h : Vc sh a x) : IsPoints (.array a) sh (vecAt a) := .inl ⟨a, rfl, h.1, fun _ => rfl⟩

theorem eachScalar_ok {f : V3 ℝ → Py ℝ} {m : Py (NArr ℝ)} (h : EachScalar sh x f m) {g : V3 ℝ → ℝ} (hg : ∀ p, f p = .ok (g p)) :
    Ok m fun r => Sc sh r fun i => g (x i) := by
  rcases h with ⟨h, hf, r, rfl, hr⟩ | ⟨e, hf, -⟩
  · exact ⟨r, rfl, hr.1, fun i hi => (hr.2 i hi).trans (Except.ok.inj ((hf (x i)).symm.trans (hg (x i))))⟩
  · exact absurd ((hf (x [])).symm.trans (hg (x []))) (by simp)

theorem eachVector_ok {f : V3 ℝ → Py (V3 ℝ)} {m : Py (NArr ℝ)} (h : EachVector sh x f m) {g : V3 ℝ → V3 ℝ}
    (hg : ∀ p, f p = .ok (g p)) : Ok m fun r => Vc sh r fun i => g (x i) := by
  rcases h with ⟨h, hf, r, rfl, hr⟩ | ⟨e, hf, -⟩
  · exact ⟨r, rfl, hr.1, fun i hi => (hr.2 i hi).trans (Except.ok.inj ((hf (x i)).symm.trans (hg (x i))))⟩
  · exact absurd ((hf (x [])).symm.trans (hg (x []))) (by simp)

theorem node_potential {s : LineCurrent} {n : V3 ℝ} (h : s.nodes = [n]) : ∃ g : V3 ℝ → ℝ, ∀ p, s.scalarPotential p = .ok (g p) := by
  unfold Static.LineCurrent.scalarPotential
  rw [h]
  exact ⟨_, fun p => rfl⟩

theorem node_field {s : LineCurrent} {n : V3 ℝ} (h : s.nodes = [n]) : ∃ g : V3 ℝ → V3 ℝ, ∀ p, s.electricField p = .ok (g p) := by
  unfold Static.LineCurrent.electricField
  rw [h]
  exact ⟨_, fun p => rfl⟩

/-- The potential of a point current, at one point and on arrays. -/
theorem half_potential {s : PointHalf} (hs : Single s) : ∃ g : V3 ℝ → ℝ,
    (∀ p : V3 ℝ, ¬ p.z > 0 → s.potential p = .ok (g p)) ∧
    ∀ {a : NArr ℝ} {sh x}, Vc sh a x → ¬ anyAbove a → Ok (PointHalf.potential s (.array a)) fun r => Sc sh r fun i => g (x i) := by
  obtain ⟨⟨n, hn⟩, k, hk⟩ := hs
  obtain ⟨g, hg⟩ := node_potential hn
  obtain ⟨h, hh⟩ := node_potential hk
  refine ⟨fun p => g p + h p, fun p hp => ?_, fun {a sh x} hv ha => ?_⟩
  · unfold Static.PointHalf.potential pointPotential
    rw [if_neg hp, hg, hh]
    rfl
  · unfold PointHalf.potential
    rw [check_array hv]
    simp only [Layout.ok_bind]
    rw [if_neg ha]
    refine Ok.bind (eachScalar_ok (line_scalarPotential s.primary (isPoints_array hv)) hg) fun u hu => ?_
    refine Ok.bind (eachScalar_ok (line_scalarPotential s.image (isPoints_array hv)) hh) fun w hw => ?_
    exact (hu.zip _ hw).mono fun r hr => hr.congr fun i hi => by rw [hv.2 i hi]

/-- The electric field of a point current, at one point and on arrays. -/
theorem half_field {s : PointHalf} (hs : Single s) : ∃ g : V3 ℝ → V3 ℝ,
    (∀ p : V3 ℝ, ¬ p.z > 0 → s.electricField p = .ok (g p)) ∧
    ∀ {a : NArr ℝ} {sh x}, Vc sh a x → ¬ anyAbove a → Ok (PointHalf.electricField s (.array a)) fun r => Vc sh r fun i => g (x i) := by
  obtain ⟨⟨n, hn⟩, k, hk⟩ := hs
  obtain ⟨g, hg⟩ := node_field hn
  obtain ⟨h, hh⟩ := node_field hk
  refine ⟨fun p => g p + h p, fun p hp => ?_, fun {a sh x} hv ha => ?_⟩
  · unfold Static.PointHalf.electricField pointElectricField
    rw [if_neg hp, hg, hh]
    rfl
  · unfold PointHalf.electricField
    rw [check_array hv]
    simp only [Layout.ok_bind]
    rw [if_neg ha]
    refine Ok.bind (eachVector_ok (line_electricField s.primary (isPoints_array hv)) hg) fun u hu => ?_
    refine Ok.bind (eachVector_ok (line_electricField s.image (isPoints_array hv)) hh) fun w hw => ?_
    exact (hu.zip _ hw).mono fun r hr => hr.congr fun i hi => by rw [hv.2 i hi]; rfl

theorem half_potential_check (s : PointHalf) {a : NArr ℝ} (h : Utils.checkXyzDim xyz 3 = .ok a) (hv : Vc sh a x) :
    PointHalf.potential s xyz = PointHalf.potential s (.array a) := by
  unfold PointHalf.potential
  rw [h, check_array hv]

theorem half_field_check (s : PointHalf) {a : NArr ℝ} (h : Utils.checkXyzDim xyz 3 = .ok a) (hv : Vc sh a x) :
    PointHalf.electricField s xyz = PointHalf.electricField s (.array a) := by
  unfold PointHalf.electricField
  rw [h, check_array hv]

/-- **C100.** The potential of a point current in a half-space: one point above the surface and the call is refused. -/
theorem pointHalf_potential {mu0 rho current : ℝ} {loc : V3 ℝ} {s : PointHalf} (hs : PointHalf.new mu0 rho current loc = .ok s)
    (hx : IsPoints xyz sh x) : AllScalars sh x s.potential (PointHalf.potential s xyz) := by
  obtain ⟨g, hg, hG⟩ := half_potential (single_of_new hs)
  obtain ⟨a, ha, hv⟩ := check hx
  rw [half_potential_check s ha hv]
  by_cases h : anyAbove a
  · obtain ⟨i, hi, hz⟩ := (anyAbove_iff hv).1 h
    refine .inr ⟨.valueError, i, hi, ?_, ?_⟩
    · unfold Static.PointHalf.potential
      rw [if_pos hz]
    · unfold PointHalf.potential
      rw [check_array hv]
      simp only [Layout.ok_bind]
      rw [if_pos h]
  · obtain ⟨r, hr, hs, hval⟩ := hG hv h
    rw [anyAbove_iff hv] at h
    push Not at h
    refine .inl ⟨r, hr, hs, fun i hi => ?_⟩
    rw [hg _ (not_lt.2 (h i hi)), hval i hi]

/-- **C100.** The electric field of a point current in a half-space. -/
theorem pointHalf_electricField {mu0 rho current : ℝ} {loc : V3 ℝ} {s : PointHalf}
    (hs : PointHalf.new mu0 rho current loc = .ok s) (hx : IsPoints xyz sh x) :
    AllVectors sh x s.electricField (PointHalf.electricField s xyz) := by
  obtain ⟨g, hg, hG⟩ := half_field (single_of_new hs)
  obtain ⟨a, ha, hv⟩ := check hx
  rw [half_field_check s ha hv]
  by_cases h : anyAbove a
  · obtain ⟨i, hi, hz⟩ := (anyAbove_iff hv).1 h
    refine .inr ⟨.valueError, i, hi, ?_, ?_⟩
    · unfold Static.PointHalf.electricField
      rw [if_pos hz]
    · unfold PointHalf.electricField
      rw [check_array hv]
      simp only [Layout.ok_bind]
      rw [if_pos h]
  · obtain ⟨r, hr, hs, hval⟩ := hG hv h
    rw [anyAbove_iff hv] at h
    push Not at h
    refine .inl ⟨r, hr, hs, fun i hi => ?_⟩
    rw [hg _ (not_lt.2 (h i hi)), hval i hi]

theorem all_map {f : V3 ℝ → Py (V3 ℝ)} {m : Py (NArr ℝ)} (g : ℝ → ℝ) (h : AllVectors sh x f m) :
    AllVectors sh x (fun p => f p >>= fun v => pure (v.map g)) (m >>= fun r => pure (r.mapA g)) := by
  rcases h with ⟨r, rfl, hr, hf⟩ | ⟨e, i, hi, hf, rfl⟩
  · exact .inl ⟨r.mapA g, rfl, hr, fun i hi => by beta_reduce; rw [hf i hi]; rfl⟩
  · exact .inr ⟨e, i, hi, by beta_reduce; rw [hf]; rfl, rfl⟩

/-- **C100.** The current density of a point current in a half-space. -/
theorem pointHalf_currentDensity {mu0 rho current : ℝ} {loc : V3 ℝ} {s : PointHalf}
    (hs : PointHalf.new mu0 rho current loc = .ok s) (hx : IsPoints xyz sh x) :
    AllVectors sh x s.currentDensity (PointHalf.currentDensity s xyz) :=
  all_map (· / s.rho) (pointHalf_electricField hs hx)

/-! ### Two current electrodes -/

theorem singles_of_new {mu0 rho current : ℝ} {la lb : V3 ℝ} {s : DipoleHalf} (h : DipoleHalf.new mu0 rho la lb current = .ok s) :
    Single s.a ∧ Single s.b := by
  unfold DipoleHalf.new at h
  cases ha : PointHalf.new mu0 rho current la with
  | error e => rw [ha] at h; exact absurd h (by simp [bind, Except.bind])
  | ok a =>
    cases hb : PointHalf.new mu0 rho current lb with
    | error e => rw [ha, hb] at h; exact absurd h (by simp [bind, Except.bind])
    | ok b =>
      rw [ha, hb] at h
      obtain rfl := Except.ok.inj h
      exact ⟨single_of_new ha, single_of_new hb⟩

theorem dipoleHalf_above {f : PointHalf → Utils.XyzArg ℝ → Py (NArr ℝ)} {s : DipoleHalf} {n : Option (Utils.XyzArg ℝ)} {a : NArr ℝ}
    (ha : Utils.checkXyzDim xyz 3 = .ok a) (h : anyAbove a) : dipoleHalf f s xyz n = .error .valueError := by
  unfold dipoleHalf
  rw [ha]
  simp only [Layout.ok_bind]
  rw [if_pos h]

variable {xyz' : Utils.XyzArg ℝ} {sh' : List ℕ} {y : List ℕ → V3 ℝ}

theorem dipoleHalf_above' {f : PointHalf → Utils.XyzArg ℝ → Py (NArr ℝ)} {s : DipoleHalf} {a b : NArr ℝ}
    (ha : Utils.checkXyzDim xyz 3 = .ok a) (hb : Utils.checkXyzDim xyz' 3 = .ok b) (h : anyAbove a ∨ anyAbove b) :
    dipoleHalf f s xyz (some xyz') = .error .valueError := by
  by_cases h' : anyAbove a
  · exact dipoleHalf_above ha h'
  · unfold dipoleHalf
    rw [ha]
    simp only [Layout.ok_bind]
    rw [if_neg h', hb]
    simp only [Layout.ok_bind]
    rw [if_pos (h.resolve_left h')]

/-- **C100.** The potential between two current electrodes and one potential electrode. -/
theorem dipoleHalf_potential {mu0 rho current : ℝ} {la lb : V3 ℝ} {s : DipoleHalf}
    (hs : DipoleHalf.new mu0 rho la lb current = .ok s) (hx : IsPoints xyz sh x) :
    AllScalars sh x (fun p => s.potential p none) (DipoleHalf.potential s xyz none) := by
  obtain ⟨g, hg, hG⟩ := half_potential (singles_of_new hs).1
  obtain ⟨k, hk, hK⟩ := half_potential (singles_of_new hs).2
  obtain ⟨a, ha, hv⟩ := check hx
  by_cases h : anyAbove a
  · obtain ⟨i, hi, hz⟩ := (anyAbove_iff hv).1 h
    refine .inr ⟨.valueError, i, hi, ?_, dipoleHalf_above ha h⟩
    unfold Static.DipoleHalf.potential
    beta_reduce
    rw [if_pos hz]
  · have e : Ok (DipoleHalf.potential s xyz none) fun r => Sc sh r fun i => g (x i) - k (x i) := by
      unfold DipoleHalf.potential dipoleHalf
      rw [ha]
      simp only [Layout.ok_bind]
      rw [if_neg h]
      exact Ok.bind (hG hv h) fun u hu => Ok.bind (hK hv h) fun w hw => hu.zip _ hw
    obtain ⟨r, hr, hsh, hval⟩ := e
    rw [anyAbove_iff hv] at h
    push Not at h
    refine .inl ⟨r, hr, hsh, fun i hi => ?_⟩
    have hz := not_lt.2 (h i hi)
    unfold Static.DipoleHalf.potential
    beta_reduce
    rw [if_neg hz, hg _ hz, hk _ hz, hval i hi]
    rfl

/-- **C100.** The electric field between two current electrodes. -/
theorem dipoleHalf_electricField {mu0 rho current : ℝ} {la lb : V3 ℝ} {s : DipoleHalf}
    (hs : DipoleHalf.new mu0 rho la lb current = .ok s) (hx : IsPoints xyz sh x) :
    AllVectors sh x (fun p => s.electricField p none) (DipoleHalf.electricField s xyz none) := by
  obtain ⟨g, hg, hG⟩ := half_field (singles_of_new hs).1
  obtain ⟨k, hk, hK⟩ := half_field (singles_of_new hs).2
  obtain ⟨a, ha, hv⟩ := check hx
  by_cases h : anyAbove a
  · obtain ⟨i, hi, hz⟩ := (anyAbove_iff hv).1 h
    refine .inr ⟨.valueError, i, hi, ?_, dipoleHalf_above ha h⟩
    unfold Static.DipoleHalf.electricField
    beta_reduce
    rw [if_pos hz]
  · have e : Ok (DipoleHalf.electricField s xyz none) fun r => Vc sh r fun i => g (x i) - k (x i) := by
      unfold DipoleHalf.electricField dipoleHalf
      rw [ha]
      simp only [Layout.ok_bind]
      rw [if_neg h]
      exact Ok.bind (hG hv h) fun u hu => Ok.bind (hK hv h) fun w hw => hu.zip _ hw
    obtain ⟨r, hr, hsh, hval⟩ := e
    rw [anyAbove_iff hv] at h
    push Not at h
    refine .inl ⟨r, hr, hsh, fun i hi => ?_⟩
    have hz := not_lt.2 (h i hi)
    unfold Static.DipoleHalf.electricField
    beta_reduce
    rw [if_neg hz, hg _ hz, hk _ hz, hval i hi]
    rfl

/-- **C100.** The current density between two current electrodes. -/
theorem dipoleHalf_currentDensity {mu0 rho current : ℝ} {la lb : V3 ℝ} {s : DipoleHalf}
    (hs : DipoleHalf.new mu0 rho la lb current = .ok s) (hx : IsPoints xyz sh x) :
    AllVectors sh x (fun p => s.currentDensity p none) (DipoleHalf.currentDensity s xyz none) :=
  all_map (· / s.rho) (dipoleHalf_electricField hs hx)

/-- **C100.** With two potential electrodes, a point of either array above the surface makes the methods raise an exception. -/
theorem dipoleHalf_refuses (s : DipoleHalf) (hx : IsPoints xyz sh x) (hy : IsPoints xyz' sh' y)
    (h : (∃ i, InShape sh i ∧ 0 < (x i).z) ∨ ∃ j, InShape sh' j ∧ 0 < (y j).z) :
    DipoleHalf.potential s xyz (some xyz') = .error .valueError ∧
    DipoleHalf.electricField s xyz (some xyz') = .error .valueError ∧
    DipoleHalf.currentDensity s xyz (some xyz') = .error .valueError := by
  obtain ⟨a, ha, hv⟩ := check hx
  obtain ⟨b, hb, hw⟩ := check hy
  rw [← anyAbove_iff hv, ← anyAbove_iff hw] at h
  have e := dipoleHalf_above' (f := PointHalf.electricField) (s := s) ha hb h
  refine ⟨dipoleHalf_above' ha hb h, e, ?_⟩
  unfold DipoleHalf.currentDensity DipoleHalf.electricField
  rw [e]
  rfl

/-- **C100.** The potential between two current electrodes and two potential electrodes, for arrays of points of any two shapes. -/
theorem dipoleHalf_potential_pair {mu0 rho current : ℝ} {la lb : V3 ℝ} {s : DipoleHalf}
    (hs : DipoleHalf.new mu0 rho la lb current = .ok s) (hx : IsPoints xyz sh x) (hy : IsPoints xyz' sh' y)
    (h1 : ∀ i, InShape sh i → (x i).z ≤ 0) (h2 : ∀ j, InShape sh' j → (y j).z ≤ 0) :
    PairScalars sh x sh' y (fun p q => s.potential p (some q)) (DipoleHalf.potential s xyz (some xyz')) := by
  obtain ⟨g, hg, hG⟩ := half_potential (singles_of_new hs).1
  obtain ⟨k, hk, hK⟩ := half_potential (singles_of_new hs).2
  obtain ⟨a, ha, hv⟩ := check hx
  obtain ⟨b, hb, hw⟩ := check hy
  have na : ¬ anyAbove a := by rw [anyAbove_iff hv]; push Not; exact h1
  have nb : ¬ anyAbove b := by rw [anyAbove_iff hw]; push Not; exact h2
  obtain ⟨ga, ega, vga⟩ := hG hv na
  obtain ⟨ka, eka, vka⟩ := hK hv na
  obtain ⟨gb, egb, vgb⟩ := hG hw nb
  obtain ⟨kb, ekb, vkb⟩ := hK hw nb
  obtain ⟨m, em, vm⟩ := vga.zip (· - ·) vka
  obtain ⟨n, en, vn⟩ := vgb.zip (· - ·) vkb
  have e : DipoleHalf.potential s xyz (some xyz') = NArr.zipWith (· - ·) m n := by
    unfold DipoleHalf.potential dipoleHalf
    rw [ha]
    simp only [Layout.ok_bind]
    rw [if_neg na, hb]
    simp only [Layout.ok_bind]
    rw [if_neg nb, ega, eka, egb, ekb]
    simp only [Layout.ok_bind]
    rw [em, en]
    rfl
  rw [e]
  refine ⟨fun e he => zip_error _ (by rw [vm.1, vn.1]; exact he), fun u hu => ?_⟩
  obtain ⟨r, hr, hsh, hval⟩ := vm.zipAny (· - ·) vn hu
  refine ⟨r, hr, hsh, fun i hi => ?_⟩
  have z1 := not_lt.2 (h1 _ (through_left hu hi))
  have z2 := not_lt.2 (h2 _ (through_right hu hi))
  unfold Static.DipoleHalf.potential
  beta_reduce
  rw [if_neg z1]
  simp only
  rw [if_neg z2, hg _ z1, hk _ z1, hg _ z2, hk _ z2, hval i hi]
  rfl

/-- **C100.** The difference of the electric fields at two arrays of points of any two shapes. -/
theorem dipoleHalf_electricField_pair {mu0 rho current : ℝ} {la lb : V3 ℝ} {s : DipoleHalf}
    (hs : DipoleHalf.new mu0 rho la lb current = .ok s) (hx : IsPoints xyz sh x) (hy : IsPoints xyz' sh' y)
    (h1 : ∀ i, InShape sh i → (x i).z ≤ 0) (h2 : ∀ j, InShape sh' j → (y j).z ≤ 0) :
    PairVectors sh x sh' y (fun p q => s.electricField p (some q)) (DipoleHalf.electricField s xyz (some xyz')) := by
  obtain ⟨g, hg, hG⟩ := half_field (singles_of_new hs).1
  obtain ⟨k, hk, hK⟩ := half_field (singles_of_new hs).2
  obtain ⟨a, ha, hv⟩ := check hx
  obtain ⟨b, hb, hw⟩ := check hy
  have na : ¬ anyAbove a := by rw [anyAbove_iff hv]; push Not; exact h1
  have nb : ¬ anyAbove b := by rw [anyAbove_iff hw]; push Not; exact h2
  obtain ⟨ga, ega, vga⟩ := hG hv na
  obtain ⟨ka, eka, vka⟩ := hK hv na
  obtain ⟨gb, egb, vgb⟩ := hG hw nb
  obtain ⟨kb, ekb, vkb⟩ := hK hw nb
  obtain ⟨m, em, vm⟩ := vga.zip (· - ·) vka
  obtain ⟨n, en, vn⟩ := vgb.zip (· - ·) vkb
  have e : DipoleHalf.electricField s xyz (some xyz') = NArr.zipWith (· - ·) m n := by
    unfold DipoleHalf.electricField dipoleHalf
    rw [ha]
    simp only [Layout.ok_bind]
    rw [if_neg na, hb]
    simp only [Layout.ok_bind]
    rw [if_neg nb, ega, eka, egb, ekb]
    simp only [Layout.ok_bind]
    rw [em, en]
    rfl
  rw [e]
  refine ⟨fun e he => zip_error _ (by rw [vm.1, vn.1, bcastShape_concat, he]; rfl), fun u hu => ?_⟩
  obtain ⟨r, hr, hsh, hval⟩ := vm.zipAny (· - ·) vn hu
  refine ⟨r, hr, hsh, fun i hi => ?_⟩
  have z1 := not_lt.2 (h1 _ (through_left hu hi))
  have z2 := not_lt.2 (h2 _ (through_right hu hi))
  unfold Static.DipoleHalf.electricField
  beta_reduce
  rw [if_neg z1]
  simp only
  rw [if_neg z2, hg _ z1, hk _ z1, hg _ z2, hk _ z2, hval i hi]
  rfl

/-- **C100.** The difference of the current densities at two arrays of points of any two shapes. -/
theorem dipoleHalf_currentDensity_pair {mu0 rho current : ℝ} {la lb : V3 ℝ} {s : DipoleHalf}
    (hs : DipoleHalf.new mu0 rho la lb current = .ok s) (hx : IsPoints xyz sh x) (hy : IsPoints xyz' sh' y)
    (h1 : ∀ i, InShape sh i → (x i).z ≤ 0) (h2 : ∀ j, InShape sh' j → (y j).z ≤ 0) :
    PairVectors sh x sh' y (fun p q => s.currentDensity p (some q)) (DipoleHalf.currentDensity s xyz (some xyz')) := by
  have h := dipoleHalf_electricField_pair hs hx hy h1 h2
  unfold DipoleHalf.currentDensity
  refine ⟨fun e he => by rw [h.1 e he]; rfl, fun u hu => ?_⟩
  obtain ⟨r, hr, hsh, hval⟩ := h.2 u hu
  rw [hr]
  refine ⟨_, rfl, hsh, fun i hi => ?_⟩
  unfold Static.DipoleHalf.currentDensity
  beta_reduce at hval ⊢
  rw [hval i hi]
  rfl

/-- Two rows of points below the surface and one row of reference points: the hypotheses are met, and the result has the shape of
the grid. -/
example : ∃ s, DipoleHalf.new 1 2 ⟨-1, 0, 0⟩ ⟨1, 0, 0⟩ 3 = .ok s ∧
    ∃ r, DipoleHalf.potential s (.array ⟨[2, 4, 3], fun i => -(i.headD 0 : ℝ) - 5⟩) (some (.array ⟨[4, 3], fun _ => -7⟩)) = .ok r ∧
      r.shape = [2, 4] := by
  have hs : DipoleHalf.new 1 2 ⟨-1, 0, 0⟩ ⟨1, 0, 0⟩ 3 = .ok ⟨2, 3, ⟨-1, 0, 0⟩, ⟨1, 0, 0⟩,
      ⟨2, 3, ⟨-1, 0, 0⟩, pointCurrent 1 2 3 ⟨-1, 0, 0⟩, pointCurrent 1 2 3 (mirror ⟨-1, 0, 0⟩)⟩,
      ⟨2, 3, ⟨1, 0, 0⟩, pointCurrent 1 2 3 ⟨1, 0, 0⟩, pointCurrent 1 2 3 (mirror ⟨1, 0, 0⟩)⟩⟩ := by
    simp [DipoleHalf.new, PointHalf.new, bind, Except.bind, pure, Except.pure]
    norm_num
  refine ⟨_, hs, ?_⟩
  have h := dipoleHalf_potential_pair hs (.inl ⟨⟨[2, 4, 3], fun i => -(i.headD 0 : ℝ) - 5⟩, rfl, rfl, fun _ => rfl⟩ : IsPoints _ [2, 4] _)
    (.inl ⟨⟨[4, 3], fun _ => -7⟩, rfl, rfl, fun _ => rfl⟩ : IsPoints _ [4] _)
    (fun i hi => by
      have : (0 : ℝ) ≤ ((i ++ [2]).headD 0 : ℕ) := Nat.cast_nonneg _
      simp only [vecAt]
      linarith)
    (fun _ _ => by simp [vecAt])
  obtain ⟨r, hr, hsh, -⟩ := h.2 [2, 4] rfl
  exact ⟨r, hr, hsh⟩

end StaticArr

end Verif
