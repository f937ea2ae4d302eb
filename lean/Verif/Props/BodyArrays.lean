import Verif.Props.StaticArrays

/-!
# C100: arrays of points, for loops, spheres, point masses and prisms

As `Verif.Props.StaticArrays`, for the methods with boolean masks (loops, spheres, the flux density of a prism), the point mass
and the prisms.
-/

namespace Verif

open NArr PointArr

variable {sh : List ℕ} {xyz : Utils.XyzArg ℝ} {x : List ℕ → V3 ℝ}

/-! ## Row-major order -/

namespace PointArr

theorem unravel_in : ∀ (s : List ℕ) (k : ℕ), k < s.prod → InShape s (unravelC s k) ∧ ravelC s (unravelC s k) = k
  | [], k, h => ⟨.nil, by simp at h; simp [ravelC, h]⟩
  | n :: s, k, h => by
    rw [List.prod_cons] at h
    have hs : 0 < s.prod := by
      rcases Nat.eq_zero_or_pos s.prod with e | e
      · simp [e] at h
      · exact e
    obtain ⟨h1, h2⟩ := unravel_in s (k % s.prod) (Nat.mod_lt _ hs)
    refine ⟨.cons ((Nat.div_lt_iff_lt_mul hs).2 h) h1, ?_⟩
    simp only [unravelC, ravelC, h2]
    rw [Nat.mul_comm]
    exact Nat.div_add_mod k s.prod

variable {α β : Type}

theorem rows_length {a : NArr α} (hs : a.shape = sh ++ [3]) : a.rows.length = sh.prod := by simp [rows, hs]

/-- The rows are the points. -/
theorem mem_rows {a : NArr α} (hs : a.shape = sh ++ [3]) {v : V3 α} (hv : v ∈ a.rows) : ∃ i, InShape sh i ∧ vecAt a i = v := by
  obtain ⟨k, hk, rfl⟩ := List.mem_iff_getElem.1 hv
  obtain ⟨h1, h2⟩ := unravel_in sh k (by rw [← rows_length hs]; exact hk)
  refine ⟨_, h1, ?_⟩
  have := rows_getElem hs h1
  rw [h2, List.getElem?_eq_getElem hk] at this
  exact (Option.some.inj this).symm

/-- An array filled from the rows of another one. -/
theorem ofRows_map {a : NArr ℝ} (h : Vc sh a x) (f : V3 ℝ → β) (d : β) : Sc sh (ofRows sh (a.rows.map f) d) fun i => f (x i) := by
  refine ⟨rfl, fun i hi => ?_⟩
  have := rows_getElem h.1 hi
  simp [ofRows, this, h.2 i hi]

end PointArr

namespace StaticArr

open Static

theorem byRows_map {β : Type} {p : List (V3 ℝ) → Py (List β)} {f : V3 ℝ → β} {d : β} (hp : ∀ l, p l = .ok (l.map f))
    (hx : IsPoints xyz sh x) : ∃ r, byRows p d xyz = .ok r ∧ HoldsScalars sh x f r := by
  obtain ⟨a, ha, hv⟩ := check hx
  refine ⟨_, ?_, ofRows_map hv f d⟩
  unfold byRows
  rw [ha]
  simp only [Layout.ok_bind]
  rw [hp, hv.1, List.dropLast_concat]
  rfl

theorem mapM_ok {β : Type} {f : V3 ℝ → Py β} : ∀ {l : List (V3 ℝ)} {r : List β}, l.mapM f = .ok r →
    ∀ {k : ℕ} {v : V3 ℝ}, l[k]? = some v → ∃ b, r[k]? = some b ∧ f v = .ok b
  | [], r, h, k, v, hk => by simp at hk
  | a :: l, r, h, k, v, hk => by
    rw [List.mapM_cons] at h
    cases ha : f a with
    | error e => rw [ha] at h; exact absurd h (by simp [bind, Except.bind])
    | ok b =>
      cases hl : l.mapM f with
      | error e => rw [ha, hl] at h; exact absurd h (by simp [bind, Except.bind])
      | ok t =>
        rw [ha, hl] at h
        obtain rfl := Except.ok.inj h
        cases k with
        | zero => obtain rfl := Option.some.inj hk; exact ⟨b, rfl, ha⟩
        | succ k => exact mapM_ok hl (by simpa using hk)

theorem mapM_error {β : Type} {f : V3 ℝ → Py β} : ∀ {l : List (V3 ℝ)} {e : PyErr}, l.mapM f = .error e → ∃ v ∈ l, f v = .error e
  | [], e, h => by simp [pure, Except.pure] at h
  | a :: l, e, h => by
    rw [List.mapM_cons] at h
    cases ha : f a with
    | error e' =>
      rw [ha] at h
      obtain rfl := Except.error.inj h
      exact ⟨a, by simp, ha⟩
    | ok b =>
      cases hl : l.mapM f with
      | error e' =>
        rw [ha, hl] at h
        obtain rfl := Except.error.inj h
        obtain ⟨v, hv, hf⟩ := mapM_error hl
        exact ⟨v, by simp [hv], hf⟩
      | ok t => rw [ha, hl] at h; exact absurd h (by simp [bind, Except.bind, pure, Except.pure])

theorem byRows_mapM {β : Type} {p : List (V3 ℝ) → Py (List β)} {f : V3 ℝ → Py β} {d : β}
    (hp : ∀ v l, p (v :: l) = (v :: l).mapM f) (hx : IsPoints xyz sh x) (hne : ∃ i, InShape sh i) : AllScalars sh x f (byRows p d xyz) := by
  obtain ⟨a, ha, hv⟩ := check hx
  obtain ⟨i0, hi0⟩ := hne
  have e0 := rows_getElem hv.1 hi0
  have hr : p a.rows = a.rows.mapM f := by
    cases h : a.rows with
    | nil => rw [h] at e0; simp at e0
    | cons v l => exact hp v l
  have e : byRows p d xyz = a.rows.mapM f >>= fun l => pure (ofRows sh l d) := by
    unfold byRows
    rw [ha]
    simp only [Layout.ok_bind]
    rw [hr, hv.1, List.dropLast_concat]
  rw [e]
  cases hm : a.rows.mapM f with
  | ok l =>
    refine .inl ⟨_, rfl, rfl, fun i hi => ?_⟩
    obtain ⟨b, hb, hf⟩ := mapM_ok hm (rows_getElem hv.1 hi)
    rw [hv.2 i hi] at hf
    simp [ofRows, hb, hf]
  | error e =>
    obtain ⟨v, hv', hf⟩ := mapM_error hm
    obtain ⟨i, hi, rfl⟩ := mem_rows hv.1 hv'
    exact .inr ⟨e, i, hi, by rw [← hv.2 i hi]; exact hf, rfl⟩

/-- **C100.** The vector potential of a loop; entries without a value are those where the code divides by zero. -/
theorem loop_vectorPotential (s : Loop) (hx : IsPoints xyz sh x) (hne : ∃ i, InShape sh i) :
    AllScalars sh x s.vectorPotential (Loop.vectorPotential s xyz) :=
  byRows_mapM (loop_potentials s) hx hne

/-- **C100.** The magnetic flux density of a loop. -/
theorem loop_magneticFluxDensity (s : Loop) (hx : IsPoints xyz sh x) (hne : ∃ i, InShape sh i) :
    AllScalars sh x s.magneticFluxDensity (Loop.magneticFluxDensity s xyz) :=
  byRows_mapM (loop_fluxes s) hx hne

theorem converted_holds {f : V3 ℝ → Py (Option (V3 ℝ))} {F : Utils.XyzArg ℝ → Py (NArr (Option (V3 ℝ)))}
    (hF : ∀ {a sh x}, IsPoints (.array a) sh x → (∃ i, InShape sh i) → AllScalars sh x f (F (.array a))) (coordinates : String)
    {a : NArr ℝ} (hv : Vc sh a x) (hne : ∃ i, InShape sh i) :
    AllScalars sh x (fun p => do
      let v ← f (if coordinates.toLower = "cylindrical" then Spatial.cylToCart p else p)
      pure (if coordinates.toLower = "cylindrical" then
        v.map (Spatial.cartToCylVec (if coordinates.toLower = "cylindrical" then Spatial.cylToCart p else p)) else v))
      (Loop.converted F coordinates a) := by
  by_cases h : coordinates.toLower = "cylindrical"
  · obtain ⟨b, hb, hw⟩ := cylToCart_arr hv
    unfold Loop.converted
    simp only [if_pos h]
    rw [hb]
    simp only [Layout.ok_bind]
    rcases hF (isPoints_array hw) hne with ⟨r, hr, hs, hval⟩ | ⟨e, i, hi, hf, he⟩
    · rw [hr]
      refine .inl ⟨_, rfl, hs, fun i hi => ?_⟩
      have := hval i hi
      rw [hw.2 i hi] at this
      beta_reduce
      rw [this]
      simp only [hw.2 i hi]
      rfl
    · rw [he]
      refine .inr ⟨e, i, hi, ?_, rfl⟩
      rw [hw.2 i hi] at hf
      beta_reduce
      rw [hf]
      rfl
  · unfold Loop.converted
    simp only [if_neg h, pure_bind]
    rcases hF (isPoints_array hv) hne with ⟨r, hr, hs, hval⟩ | ⟨e, i, hi, hf, he⟩
    · rw [hr]
      refine .inl ⟨r, rfl, hs, fun i hi => ?_⟩
      have := hval i hi
      rw [hv.2 i hi] at this
      beta_reduce
      rw [this]
      rfl
    · rw [he]
      refine .inr ⟨e, i, hi, ?_, rfl⟩
      rw [hv.2 i hi] at hf
      beta_reduce
      rw [hf]
      rfl

/-- **C100.** The vector potential of a loop with points and components in either kind of coordinates. -/
theorem loop_vectorPotentialIn (s : Loop) (coordinates : String) (hx : IsPoints xyz sh x) (hne : ∃ i, InShape sh i) :
    AllScalars sh x (s.vectorPotentialIn coordinates) (Loop.vectorPotentialIn s coordinates xyz) := by
  obtain ⟨a, ha, hv⟩ := check hx
  have e : s.vectorPotentialIn coordinates = fun p => s.vectorPotentialIn coordinates p := rfl
  rw [e]
  unfold Loop.vectorPotentialIn Static.Loop.vectorPotentialIn
  by_cases h : coordinates.toLower = "cartesian" ∨ coordinates.toLower = "cylindrical"
  · simp only [if_neg (not_not.2 h)]
    rw [ha]
    exact converted_holds (fun h1 h2 => loop_vectorPotential s h1 h2) coordinates hv hne
  · simp only [if_pos h]
    obtain ⟨i, hi⟩ := hne
    exact .inr ⟨_, i, hi, rfl, rfl⟩

/-- **C100.** The magnetic flux density of a loop with points and components in either kind of coordinates. -/
theorem loop_magneticFluxDensityIn (s : Loop) (coordinates : String) (hx : IsPoints xyz sh x) (hne : ∃ i, InShape sh i) :
    AllScalars sh x (s.magneticFluxDensityIn coordinates) (Loop.magneticFluxDensityIn s coordinates xyz) := by
  obtain ⟨a, ha, hv⟩ := check hx
  have e : s.magneticFluxDensityIn coordinates = fun p => s.magneticFluxDensityIn coordinates p := rfl
  rw [e]
  unfold Loop.magneticFluxDensityIn Static.Loop.magneticFluxDensityIn
  rw [ha]
  simp only [Layout.ok_bind]
  by_cases h : coordinates.toLower = "cartesian" ∨ coordinates.toLower = "cylindrical"
  · simp only [if_neg (not_not.2 h)]
    exact converted_holds (fun h1 h2 => loop_magneticFluxDensity s h1 h2) coordinates hv hne
  · simp only [if_pos h]
    obtain ⟨i, hi⟩ := hne
    exact .inr ⟨_, i, hi, rfl, rfl⟩

/-- **C100.** The magnetic field of a loop with points and components in either kind of coordinates. -/
theorem loop_magneticFieldIn (s : Loop) (coordinates : String) (hx : IsPoints xyz sh x) (hne : ∃ i, InShape sh i) :
    AllScalars sh x (s.magneticFieldIn coordinates) (Loop.magneticFieldIn s coordinates xyz) := by
  unfold Loop.magneticFieldIn
  rcases loop_magneticFluxDensityIn s coordinates hx hne with ⟨r, hr, hs, hval⟩ | ⟨e, i, hi, hf, he⟩
  · rw [hr]
    refine .inl ⟨_, rfl, hs, fun i hi => ?_⟩
    unfold Static.Loop.magneticFieldIn
    rw [hval i hi]
    rfl
  · rw [he]
    refine .inr ⟨e, i, hi, ?_, rfl⟩
    unfold Static.Loop.magneticFieldIn
    rw [hf]
    rfl

open Sphere (Parts)

/-- The parts of a result have the shape `sh` and hold the parts of `f` for every point. -/
def HoldsParts {β : Type} (sh : List ℕ) (x : List ℕ → V3 ℝ) (f : V3 ℝ → Parts β) : Parts (NArr β) → Prop
  | .one a => a.shape = sh ∧ ∀ i, InShape sh i → f (x i) = .one (a.get i)
  | .triple a b c => (a.shape = sh ∧ b.shape = sh ∧ c.shape = sh) ∧ ∀ i, InShape sh i → f (x i) = .triple (a.get i) (b.get i) (c.get i)

theorem byRowsParts_map {β : Type} {p : List (V3 ℝ) → Py (Parts (List β))} {f : V3 ℝ → Parts β} {d : β}
    (hp : ∀ l, ∃ P, p l = .ok P ∧ ∀ k, Parts.entryAt P k = (l[k]?).map f) (hx : IsPoints xyz sh x) :
    ∃ P, byRowsParts p d xyz = .ok P ∧ HoldsParts sh x f P := by
  obtain ⟨a, ha, hv⟩ := check hx
  obtain ⟨P, hP, hent⟩ := hp a.rows
  refine ⟨partsOfRows sh d P, ?_, ?_⟩
  · unfold byRowsParts
    rw [ha]
    simp only [Layout.ok_bind]
    rw [hP, hv.1, List.dropLast_concat]
    rfl
  · have h (i : List ℕ) (hi : InShape sh i) : Parts.entryAt P (ravelC sh i) = some (f (x i)) := by
      rw [hent, rows_getElem hv.1 hi, hv.2 i hi]
      rfl
    cases P with
    | one l =>
      refine ⟨rfl, fun i hi => ?_⟩
      have := h i hi
      simp only [Parts.entryAt, Option.map_eq_some_iff] at this
      obtain ⟨b, hb, e⟩ := this
      simp [ofRows, hb, e]
    | triple l m n =>
      refine ⟨⟨rfl, rfl, rfl⟩, fun i hi => ?_⟩
      have := h i hi
      simp only [Parts.entryAt] at this
      split at this
      · rename_i u v w hu hv hw
        rw [← Option.some.inj this]
        simp [ofRows, hu, hv, hw]
      · exact absurd this (by simp)

/-- **C100.** Potentials, fields and current densities of a conductive sphere. -/
theorem electro_arrays (s : Sphere.Electro) (field : String) (hx : IsPoints xyz sh x) :
    (∃ P, Electro.potential s field xyz = .ok P ∧ HoldsParts sh x (s.potential · field) P) ∧
    (∃ P, Electro.electricField s field xyz = .ok P ∧ HoldsParts sh x (s.electricField · field) P) ∧
    ∃ P, Electro.currentDensity s field xyz = .ok P ∧ HoldsParts sh x (s.currentDensity · field) P :=
  ⟨byRowsParts_map (fun l => Sphere.electro_potentials s l field) hx, byRowsParts_map (fun l => Sphere.electro_fields s l field) hx,
    byRowsParts_map (fun l => Sphere.electro_currents s l field) hx⟩

/-- **C100.** Charge densities of a conductive sphere. -/
theorem electro_chargeDensity (eps0 : ℝ) (s : Sphere.Electro) (dr : Option ℝ) (hx : IsPoints xyz sh x) :
    ∃ r, Electro.chargeDensity eps0 s dr xyz = .ok r ∧ HoldsScalars sh x (fun p => s.chargeDensity eps0 p dr) r :=
  byRows_map (fun l => Sphere.electro_charges eps0 s l dr) hx

/-- **C100.** Potentials, fields and flux densities of a permeable sphere. -/
theorem magneto_arrays (s : Sphere.Magneto) (field : String) (hx : IsPoints xyz sh x) :
    (∃ P, Magneto.potential s field xyz = .ok P ∧ HoldsParts sh x (s.potential · field) P) ∧
    (∃ P, Magneto.magneticField s field xyz = .ok P ∧ HoldsParts sh x (s.magneticField · field) P) ∧
    ∃ P, Magneto.magneticFluxDensity s field xyz = .ok P ∧ HoldsParts sh x (s.magneticFluxDensity · field) P :=
  ⟨byRowsParts_map (fun l => Sphere.magneto_potentials s l field) hx, byRowsParts_map (fun l => Sphere.magneto_fields s l field) hx,
    byRowsParts_map (fun l => Sphere.magneto_fluxes s l field) hx⟩

end StaticArr

/-! ## Gravity -/

namespace GravityArr

open Gravity StaticArr

/-- **C100.** Gravity of a homogeneous sphere. -/
theorem sphere_arrays (s : Sphere) (hx : IsPoints xyz sh x) :
    (∃ r, Sphere.gravitationalPotential s xyz = .ok r ∧ HoldsScalars sh x s.gravitationalPotential r) ∧
    (∃ r, Sphere.gravitationalField s xyz = .ok r ∧ HoldsScalars sh x s.gravitationalField r) ∧
    ∃ r, Sphere.gravitationalGradient s xyz = .ok r ∧ HoldsScalars sh x s.gravitationalGradient r :=
  ⟨byRows_map (sphere_potentials s) hx, byRows_map (sphere_fields s) hx, byRows_map (sphere_gradients s) hx⟩

/-- **C100.** The gravity potential of a point mass. -/
theorem mass_potential (s : PointMass) (hx : IsPoints xyz sh x) :
    ∃ r, PointMass.gravitationalPotential s xyz = .ok r ∧ HoldsScalars sh x s.gravitationalPotential r :=
  Ok.bind (check hx) fun _ ha => Ok.bind (sub_arr ha s.location) fun _ hv => Ok.pure (hv.norm.map _)

/-- **C100.** The gravity field of a point mass. -/
theorem mass_field (s : PointMass) (hx : IsPoints xyz sh x) :
    ∃ r, PointMass.gravitationalField s xyz = .ok r ∧ HoldsVectors sh x s.gravitationalField r :=
  Ok.bind (check hx) fun _ ha => Ok.bind (sub_arr ha s.location) fun _ hv =>
    Ok.bind (hv.zipKp _ hv.normKeep) fun _ hr => (hr.map _).zipKp _ (hv.normKeep.map _)

theorem in31 : ∀ c, InShape [3, 3] c → InShape [3, 1] (bidx [3, 1] c) := by
  intro c hc
  obtain ⟨k, l, rfl, hk, hl⟩ := inShape_two.1 hc
  exact inShape_two.2 ⟨k, 0, by simp [bidx, through, bcastIndexRev], hk, by norm_num⟩

theorem in13 : ∀ c, InShape [3, 3] c → InShape [1, 3] (bidx [1, 3] c) := by
  intro c hc
  obtain ⟨k, l, rfl, hk, hl⟩ := inShape_two.1 hc
  exact inShape_two.2 ⟨0, l, by simp [bidx, through, bcastIndexRev], by norm_num, hl⟩

theorem in33 : ∀ c, InShape [3, 3] c → InShape [3, 3] (bidx [3, 3] c) := by
  intro c hc
  obtain ⟨k, l, rfl, hk, hl⟩ := inShape_two.1 hc
  exact inShape_two.2 ⟨k, l, by simp [bidx, through, bcastIndexRev], hk, hl⟩

theorem in11 : ∀ c, InShape [3, 3] c → InShape [1, 1] (bidx [1, 1] c) := by
  intro c hc
  obtain ⟨k, l, rfl, hk, hl⟩ := inShape_two.1 hc
  exact inShape_two.2 ⟨0, 0, by simp [bidx, through, bcastIndexRev], by norm_num, by norm_num⟩

theorem column_at {a : NArr ℝ} {f : List ℕ → V3 ℝ} (h : Vc sh a f) : At sh [3, 1] a.newLast fun i c => entry (f i) (c.headD 0) := by
  refine ⟨by simp [NArr.newLast, h.1], fun i hi c hc => ?_⟩
  obtain ⟨k, l, rfl, hk, hl⟩ := inShape_two.1 hc
  have e : (i ++ [k, l]).dropLast = i ++ [k] := by
    rw [show i ++ [k, l] = (i ++ [k]) ++ [l] by simp, List.dropLast_concat]
  simp only [NArr.newLast, e]
  exact vecAt_eq.1 (h.2 i hi) k hk

theorem row_at {a : NArr ℝ} {f : List ℕ → V3 ℝ} (h : Vc sh a f) : At sh [1, 3] (newBeforeLast a) fun i c => entry (f i) (c.getLastD 0) := by
  refine ⟨by simp [newBeforeLast, h.1], fun i hi c hc => ?_⟩
  obtain ⟨k, l, rfl, hk, hl⟩ := inShape_two.1 hc
  have e : (i ++ [k, l]).dropLast.dropLast = i := by
    rw [show i ++ [k, l] = (i ++ [k]) ++ [l] by simp, List.dropLast_concat, List.dropLast_concat]
  have e' : (i ++ [k, l]).getLastD 0 = l := by
    rw [show i ++ [k, l] = (i ++ [k]) ++ [l] by simp, List.getLastD_concat]
  simp only [newBeforeLast, e, e']
  exact vecAt_eq.1 (h.2 i hi) l hl

theorem keep_at {a : NArr ℝ} {f : List ℕ → ℝ} (h : Kp sh a f) : At sh [1, 1] a.newLast fun i _ => f i := by
  refine ⟨by simp [NArr.newLast, h.1], fun i hi c hc => ?_⟩
  obtain ⟨k, l, rfl, hk, hl⟩ := inShape_two.1 hc
  obtain rfl : k = 0 := Nat.lt_one_iff.1 hk
  have e : (i ++ [0, l]).dropLast = i ++ [0] := by
    rw [show i ++ [0, l] = (i ++ [0]) ++ [l] by simp, List.dropLast_concat]
  simp only [NArr.newLast, e]
  exact h.2 i hi

theorem at_tensor {a : NArr ℝ} {f : List ℕ → List ℕ → ℝ} (h : At sh [3, 3] a f) :
    a.shape = sh ++ [3, 3] ∧ ∀ i, InShape sh i →
      (⟨vecAt a (i ++ [0]), vecAt a (i ++ [1]), vecAt a (i ++ [2])⟩ : M3 ℝ) =
        ⟨⟨f i [0, 0], f i [0, 1], f i [0, 2]⟩, ⟨f i [1, 0], f i [1, 1], f i [1, 2]⟩, ⟨f i [2, 0], f i [2, 1], f i [2, 2]⟩⟩ := by
  refine ⟨h.shape, fun i hi => ?_⟩
  have e (k l : ℕ) (hk : k < 3) (hl : l < 3) : a.get (i ++ [k] ++ [l]) = f i [k, l] := by
    have := h.val i hi [k, l] (inShape_two.2 ⟨k, l, rfl, hk, hl⟩)
    simpa using this
  simp only [vecAt, e _ _ (show 0 < 3 by norm_num) (show 0 < 3 by norm_num), e _ _ (show 0 < 3 by norm_num) (show 1 < 3 by norm_num),
    e _ _ (show 0 < 3 by norm_num) (show 2 < 3 by norm_num), e _ _ (show 1 < 3 by norm_num) (show 0 < 3 by norm_num),
    e _ _ (show 1 < 3 by norm_num) (show 1 < 3 by norm_num), e _ _ (show 1 < 3 by norm_num) (show 2 < 3 by norm_num),
    e _ _ (show 2 < 3 by norm_num) (show 0 < 3 by norm_num), e _ _ (show 2 < 3 by norm_num) (show 1 < 3 by norm_num),
    e _ _ (show 2 < 3 by norm_num) (show 2 < 3 by norm_num)]

/-- **C100.** The gravity gradient of a point mass. -/
theorem mass_gradient (s : PointMass) (hx : IsPoints xyz sh x) :
    ∃ r, PointMass.gravitationalGradient s xyz = .ok r ∧ HoldsTensors sh x s.gravitationalGradient r := by
  refine Ok.bind (check hx) fun _ ha => Ok.bind (sub_arr ha s.location) fun _ hv => Ok.bind (hv.zipKp _ hv.normKeep) fun _ hr => ?_
  refine Ok.bind (((column_at hr).map _).zip (V := [3, 3]) _ (row_at hr) rfl rfl in31 in13) fun _ hp => ?_
  refine Ok.bind (constZip (V := [3, 3]) (b := eye3) _ hp (by simp [eye3]) rfl in33) fun _ hd => ?_
  refine ((hd.map _).zip (V := [3, 3]) _ ((keep_at hv.normKeep).map _) rfl rfl in33 in11).mono fun r hr => ?_
  have := at_tensor hr
  refine ⟨this.1, fun i hi => (this.2 i hi).trans ?_⟩
  simp [bidx, through, bcastIndexRev, eye3, entry, Gravity.PointMass.gravitationalGradient, V3.map]

end GravityArr

/-! ## Prisms -/

namespace PrismArr

open Prism

variable {a : NArr ℝ}

/-- Three arrays and the vectors they hold. -/
def Sc3 (sh : List ℕ) (p : NArr ℝ × NArr ℝ × NArr ℝ) (f : List ℕ → V3 ℝ) : Prop :=
  Sc sh p.1 (fun i => (f i).x) ∧ Sc sh p.2.1 (fun i => (f i).y) ∧ Sc sh p.2.2 fun i => (f i).z

theorem cycle_arr : ∀ (n : ℕ) {p : NArr ℝ × NArr ℝ × NArr ℝ} {f : List ℕ → V3 ℝ}, Sc3 sh p f → Sc3 sh (cycleArr n p) fun i => cycleN n (f i)
  | 0, _, _, h => h
  | n + 1, _, f, h => cycle_arr n (f := fun i => ⟨(f i).y, (f i).z, (f i).x⟩) ⟨h.2.1, h.2.2, h.1⟩

theorem kernel_arr (func : ℝ → ℝ → ℝ → ℝ) {p q r : NArr ℝ} {f g h : List ℕ → ℝ} (hp : Sc sh p f) (hq : Sc sh q g) (hr : Sc sh r h) :
    Sc sh (kernel3 func p q r) fun i => func (f i) (g i) (h i) :=
  ⟨hp.1, fun i hi => by simp only [kernel3, hp.2 i hi, hq.2 i hi, hr.2 i hi]⟩

theorem evalDefInt_arr (b : Box) (func : ℝ → ℝ → ℝ → ℝ) (cycle : ℕ) (h : Vc sh a x) :
    Ok (evalDefInt b func a cycle) fun r => Sc sh r fun i => b.evalDefInt func (x i) cycle := by
  have hm := cycle_arr cycle (p := ((a.col 0).mapA (b.min.x - ·), (a.col 1).mapA (b.min.y - ·), (a.col 2).mapA (b.min.z - ·)))
    (f := fun i => ⟨b.min.x - (x i).x, b.min.y - (x i).y, b.min.z - (x i).z⟩) ⟨h.col0.map _, h.col1.map _, h.col2.map _⟩
  have hM := cycle_arr cycle (p := ((a.col 0).mapA (b.max.x - ·), (a.col 1).mapA (b.max.y - ·), (a.col 2).mapA (b.max.z - ·)))
    (f := fun i => ⟨b.max.x - (x i).x, b.max.y - (x i).y, b.max.z - (x i).z⟩) ⟨h.col0.map _, h.col1.map _, h.col2.map _⟩
  unfold evalDefInt
  refine Ok.bind ((kernel_arr func hM.1 hM.2.1 hM.2.2).zip _ (kernel_arr func hM.1 hM.2.1 hm.2.2)) fun _ h1 => ?_
  refine Ok.bind (h1.zip _ (kernel_arr func hM.1 hm.2.1 hM.2.2)) fun _ h2 => ?_
  refine Ok.bind (h2.zip _ (kernel_arr func hM.1 hm.2.1 hm.2.2)) fun _ h3 => ?_
  refine Ok.bind (h3.zip _ (kernel_arr func hm.1 hM.2.1 hM.2.2)) fun _ h4 => ?_
  refine Ok.bind (h4.zip _ (kernel_arr func hm.1 hM.2.1 hm.2.2)) fun _ h5 => ?_
  refine Ok.bind (h5.zip _ (kernel_arr func hm.1 hm.2.1 hM.2.2)) fun _ h6 => ?_
  exact h6.zip _ (kernel_arr func hm.1 hm.2.1 hm.2.2)

theorem combine_arr (m : V3 ℝ) {p q r : NArr ℝ} {f g h : List ℕ → ℝ} (hp : Sc sh p f) (hq : Sc sh q g) (hr : Sc sh r h) :
    Ok (combine m p q r) fun w => Sc sh w fun i => f i * m.x + g i * m.y + h i * m.z :=
  Ok.bind ((hp.map _).zip _ (hq.map _)) fun _ h1 => h1.zip _ (hr.map _)

/-- **C100.** The gravity potential of a prism. -/
theorem prism_potential (s : GravPrism) (hx : IsPoints xyz sh x) :
    ∃ r, GravPrism.gravitationalPotential s xyz = .ok r ∧ HoldsScalars sh x s.gravitationalPotential r :=
  Ok.bind (check hx) fun _ ha => Ok.bind (evalDefInt_arr s.box _ 0 ha) fun _ h => Ok.pure (h.map _)

/-- **C100.** The gravity field of a prism. -/
theorem prism_field (s : GravPrism) (hx : IsPoints xyz sh x) :
    ∃ r, GravPrism.gravitationalField s xyz = .ok r ∧ HoldsVectors sh x s.gravitationalField r :=
  Ok.bind (check hx) fun _ ha => Ok.bind (evalDefInt_arr s.box _ 1 ha) fun _ h1 => Ok.bind (evalDefInt_arr s.box _ 2 ha) fun _ h2 =>
    Ok.bind (evalDefInt_arr s.box _ 0 ha) fun _ h3 => Ok.bind (stack3 h1 h2 h3) fun _ h => Ok.pure (h.map _)

theorem tensor_map (k : ℝ) {t : NArr ℝ} {f g h : List ℕ → V3 ℝ}
    (ht : t.shape = sh ++ [3, 3] ∧ ∀ i, InShape sh i →
      vecAt t (i ++ [0]) = ⟨(f i).x, (g i).x, (h i).x⟩ ∧ vecAt t (i ++ [1]) = ⟨(f i).y, (g i).y, (h i).y⟩ ∧
      vecAt t (i ++ [2]) = ⟨(f i).z, (g i).z, (h i).z⟩) :
    (t.mapA (k * ·)).shape = sh ++ [3, 3] ∧ ∀ i, InShape sh i →
      (⟨vecAt (t.mapA (k * ·)) (i ++ [0]), vecAt (t.mapA (k * ·)) (i ++ [1]), vecAt (t.mapA (k * ·)) (i ++ [2])⟩ : M3 ℝ) =
        ⟨⟨k * (f i).x, k * (g i).x, k * (h i).x⟩, ⟨k * (f i).y, k * (g i).y, k * (h i).y⟩, ⟨k * (f i).z, k * (g i).z, k * (h i).z⟩⟩ := by
  refine ⟨ht.1, fun i hi => ?_⟩
  obtain ⟨e1, e2, e3⟩ := ht.2 i hi
  have m (j : List ℕ) : vecAt (t.mapA (k * ·)) j = (vecAt t j).map (k * ·) := rfl
  rw [m, m, m, e1, e2, e3]
  rfl

/-- **C100.** The gravity gradient of a prism. -/
theorem prism_gradient (s : GravPrism) (hx : IsPoints xyz sh x) :
    ∃ r, GravPrism.gravitationalGradient s xyz = .ok r ∧ HoldsTensors sh x s.gravitationalGradient r := by
  refine Ok.bind (check hx) fun _ ha => ?_
  refine Ok.bind (evalDefInt_arr s.box _ 1 ha) fun _ hxx => Ok.bind (evalDefInt_arr s.box _ 1 ha) fun _ hxy => ?_
  refine Ok.bind (evalDefInt_arr s.box _ 0 ha) fun _ hxz => Ok.bind (evalDefInt_arr s.box _ 2 ha) fun _ hyy => ?_
  refine Ok.bind (evalDefInt_arr s.box _ 0 ha) fun _ hyz => Ok.bind (evalDefInt_arr s.box _ 0 ha) fun _ hzz => ?_
  refine Ok.bind (stack3 hxx hxy hxz) fun _ h1 => Ok.bind (stack3 hxy hyy hyz) fun _ h2 => Ok.bind (stack3 hxz hyz hzz) fun _ h3 => ?_
  exact Ok.bind (stack33 h1 h2 h3) fun _ h => Ok.pure (tensor_map _ h)

/-- **C100.** The scalar potential of a magnetic prism. -/
theorem prism_scalarPotential (s : MagPrism) (hx : IsPoints xyz sh x) :
    ∃ r, MagPrism.scalarPotential s xyz = .ok r ∧ HoldsScalars sh x s.scalarPotential r :=
  Ok.bind (check hx) fun _ ha => Ok.bind (evalDefInt_arr s.box _ 1 ha) fun _ h1 => Ok.bind (evalDefInt_arr s.box _ 2 ha) fun _ h2 =>
    Ok.bind (evalDefInt_arr s.box _ 0 ha) fun _ h3 => Ok.bind (combine_arr s.magnetization h1 h2 h3) fun _ h => Ok.pure (h.map _)

/-- **C100.** The magnetic field of a magnetic prism. -/
theorem prism_magneticField (s : MagPrism) (hx : IsPoints xyz sh x) :
    ∃ r, MagPrism.magneticField s xyz = .ok r ∧ HoldsVectors sh x s.magneticField r := by
  refine Ok.bind (check hx) fun _ ha => ?_
  refine Ok.bind (evalDefInt_arr s.box _ 1 ha) fun _ hxx => Ok.bind (evalDefInt_arr s.box _ 1 ha) fun _ hxy => ?_
  refine Ok.bind (evalDefInt_arr s.box _ 0 ha) fun _ hxz => Ok.bind (evalDefInt_arr s.box _ 2 ha) fun _ hyy => ?_
  refine Ok.bind (evalDefInt_arr s.box _ 0 ha) fun _ hyz => Ok.bind (evalDefInt_arr s.box _ 0 ha) fun _ hzz => ?_
  refine Ok.bind (combine_arr s.magnetization hxx hxy hxz) fun _ h1 => Ok.bind (combine_arr s.magnetization hxy hyy hyz) fun _ h2 => ?_
  refine Ok.bind (combine_arr s.magnetization hxz hyz hzz) fun _ h3 => ?_
  exact Ok.bind (stack3 h1 h2 h3) fun _ h => Ok.pure (h.map _)

/-- **C100.** The magnetic flux density of a magnetic prism. -/
theorem prism_magneticFluxDensity (s : MagPrism) (hx : IsPoints xyz sh x) :
    ∃ r, MagPrism.magneticFluxDensity s xyz = .ok r ∧ HoldsScalars sh x s.magneticFluxDensity r :=
  StaticArr.byRows_map (prism_fluxes s) hx

/-- **C100.** The gradient of the field of a magnetic prism. -/
theorem prism_magneticFieldGradient (s : MagPrism) (hx : IsPoints xyz sh x) :
    ∃ r, MagPrism.magneticFieldGradient s xyz = .ok r ∧ HoldsTensors sh x s.magneticFieldGradient r := by
  refine Ok.bind (check hx) fun _ ha => ?_
  refine Ok.bind (evalDefInt_arr s.box _ 1 ha) fun _ xxx => Ok.bind (evalDefInt_arr s.box _ 0 ha) fun _ xxy => ?_
  refine Ok.bind (evalDefInt_arr s.box _ 0 ha) fun _ xxz => Ok.bind (evalDefInt_arr s.box _ 1 ha) fun _ yyx => ?_
  refine Ok.bind (evalDefInt_arr s.box _ 0 ha) fun _ xyz => Ok.bind (evalDefInt_arr s.box _ 2 ha) fun _ zzx => ?_
  refine Ok.bind (evalDefInt_arr s.box _ 2 ha) fun _ yyy => Ok.bind (evalDefInt_arr s.box _ 1 ha) fun _ yyz => ?_
  refine Ok.bind (evalDefInt_arr s.box _ 2 ha) fun _ zzy => Ok.bind (evalDefInt_arr s.box _ 0 ha) fun _ zzz => ?_
  refine Ok.bind (combine_arr s.magnetization xxx xxy xxz) fun _ hxx => Ok.bind (combine_arr s.magnetization xxy yyx xyz) fun _ hxy => ?_
  refine Ok.bind (combine_arr s.magnetization xxz xyz zzx) fun _ hxz => Ok.bind (combine_arr s.magnetization yyx yyy yyz) fun _ hyy => ?_
  refine Ok.bind (combine_arr s.magnetization xyz yyz zzy) fun _ hyz => Ok.bind (combine_arr s.magnetization zzx zzy zzz) fun _ hzz => ?_
  refine Ok.bind (stack3 hxx hxy hxz) fun _ h1 => Ok.bind (stack3 hxy hyy hyz) fun _ h2 => Ok.bind (stack3 hxz hyz hzz) fun _ h3 => ?_
  exact Ok.bind (stack33 h1 h2 h3) fun _ h => Ok.pure (tensor_map _ h)

/-- A tuple of three arrays with two axes meets the hypothesis, and the gradient then has four axes. -/
example (s : GravPrism) : ∃ r, GravPrism.gravitationalGradient s
      (.tuple [⟨[4, 5], fun i => (i.headD 0 : ℝ)⟩, ⟨[4, 5], fun i => (i.getLastD 0 : ℝ)⟩, ⟨[4, 5], fun _ => 7⟩]) = .ok r ∧
    r.shape = [4, 5, 3, 3] ∧
    (⟨vecAt r [2, 3, 0], vecAt r [2, 3, 1], vecAt r [2, 3, 2]⟩ : M3 ℝ) = s.gravitationalGradient ⟨2, 3, 7⟩ := by
  obtain ⟨r, hr, hs, hv⟩ := prism_gradient s (sh := [4, 5]) (x := fun i => ⟨(i.headD 0 : ℝ), (i.getLastD 0 : ℝ), 7⟩)
    (.inr ⟨⟨[4, 5], fun i => (i.headD 0 : ℝ)⟩, ⟨[4, 5], fun i => (i.getLastD 0 : ℝ)⟩, ⟨[4, 5], fun _ => 7⟩, rfl, rfl, rfl, rfl, fun _ => rfl⟩)
  refine ⟨r, hr, hs, ?_⟩
  have := hv [2, 3] (inShape_two.2 ⟨2, 3, rfl, by norm_num, by norm_num⟩)
  simpa using this

end PrismArr

end Verif
