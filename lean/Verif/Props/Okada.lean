import Verif.Lemmas.OkadaRun

/-!
# Property C91: surface displacement of a rectangular fault

`Oksar._dc3d3` evaluates a closed form at the four corners of a rectangular fault.  For stations that are not rounded to a corner, this is
the integral over the fault of the displacement of an elementary dislocation, for a fault anywhere below the surface and any slip in its
plane.
-/

namespace Verif.Okada

open Real Elastic

/-- The stations of the columns of the result: the stations, or the only station three times. -/
def columnStations (st : List Station) : List Station := if st.length = 1 then st ++ st ++ st else st

theorem wide_eq {st : List Station} (h : st.length = 1 ∨ st.length = 3) : wide st = columnStations st := by
  rcases one_or_three h with ⟨s, rfl⟩ | ⟨a, b, c, rfl⟩ <;> simp [wide, columnStations]

/-- The displacement of the surface at a station by Volterra's formula, in a medium with the Lamé parameters `lam` and `mu`: the fault is
the rectangle of all `(a, w cos δ, w sin δ)` with `a` between `al1` and `al2` and `w` between `aw1` and `aw2`, and the side above it slips
by `disl1` along the strike and by `disl2` along the dip. -/
noncomputable def volterra (f : Fault) (lam mu : ℝ) (p : Station) : V3 ℝ :=
  let s := (dipConstants f.dip).1
  let c := (dipConstants f.dip).2
  faultDisplacement lam mu ⟨f.disl1, f.disl2 * c, f.disl2 * s⟩ ⟨0, -s, c⟩ (fun a w => ⟨a, w * c, w * s⟩) f.al1 f.al2 f.aw1 f.aw2 ⟨p.X, p.Y, 0⟩

/-- The corners lie at or below the surface. -/
def Buried (f : Fault) : Prop := f.aw1 * (dipConstants f.dip).1 ≤ 0 ∧ f.aw2 * (dipConstants f.dip).1 ≤ 0

/-- The array with one column for each displacement. -/
def asColumns (vs : List (V3 ℝ)) : Arr := .matrix ⟨vs.map V3.x, vs.map V3.y, vs.map V3.z⟩

theorem mat_asColumns (g : Station → V3 ℝ) (L : List Station) : Mat g L = asColumns (L.map g) := by
  simp [Mat, asColumns, Function.comp_def]

/-- **C91.** The computed displacement is Volterra's integral over the fault. -/
theorem displacement_is_volterra {f : Fault} {st : List Station} {lam mu : ℝ} (hmu : mu ≠ 0) (hl2 : lam + 2 * mu ≠ 0)
    (halpha : f.alpha = (lam + mu) / (lam + 2 * mu)) (hst : st.length = 1 ∨ st.length = 3) (hslip : f.disl1 ≠ 0 ∨ f.disl2 ≠ 0)
    (hres : Resolved f st) (hb : Buried f) :
    dc3d3 f st = .ok (asColumns ((columnStations st).map (volterra f lam mu))) := by
  have hm : (1 - f.alpha) / f.alpha = mu / (lam + mu) := by
    have e : 1 - (lam + mu) / (lam + 2 * mu) = mu / (lam + 2 * mu) := by
      rw [eq_div_iff hl2, sub_mul, div_mul_cancel₀ _ hl2]; ring
    rw [halpha, e, div_div_div_cancel_right₀ hl2]
  have hsc := dipConstants_sq f.dip
  have hsub : ∀ p ∈ wide st, p ∈ st := by
    rcases one_or_three hst with ⟨s, rfl⟩ | ⟨a, b, c, rfl⟩ <;> simp [wide]
  rw [dc3d3_resolved hst hslip (s := (dipConstants f.dip).1) (c := (dipConstants f.dip).2) rfl hres hb.1 hb.2, ← wide_eq hst, ← mat_asColumns]
  congr 1
  refine mat_congr fun p hp => ?_
  rw [hm]
  obtain ⟨M, hM, hall⟩ := hres
  have heps := eps_pos
  rcases (hall p (hsub p hp)).1 with h | ⟨h0, h1, h2, h3⟩
  · have hq : p.Y * (dipConstants f.dip).1 ≠ 0 := by
      intro h0
      rw [h0, abs_zero] at h
      nlinarith
    exact Corner.four_corners hsc hmu (.inl (left_ne_zero_of_mul hq)) (right_ne_zero_of_mul hq) hb.1 hb.2
  · have hs : (dipConstants f.dip).1 ≠ 0 := by
      intro hs
      rw [hs, mul_zero] at h1
      exact lt_irrefl _ h1
    exact Corner.four_corners hsc hmu (.inr ⟨h1, h2, h3⟩) hs hb.1 hb.2

theorem turn_zip_length (st : List Station) (ξ : Station → ℝ) (a b : Station → ℝ) :
    List.zipWith (fun x (eq : ℝ × ℝ) => (⟨x, eq.1, eq.2⟩ : Corner)) (st.map ξ) (List.zip (st.map a) (st.map b)) =
      st.map fun p => (⟨ξ p, a p, b p⟩ : Corner) := by
  simp [List.zip, List.zipWith_self]

theorem rowAdd_error {a b : List ℝ} (ha : a.length ≠ 1) (hb : b.length ≠ 1) (h : a.length ≠ b.length) : rowAdd a b = .error .valueError := by
  unfold rowAdd
  rw [if_neg h]
  split
  · simp at ha
  · simp at hb
  · rfl

/-- For any other number of stations nothing can be computed: the three rows are added to an array of three numbers. -/
theorem raises_unless_one_or_three {f : Fault} {st : List Station} (h1 : st.length ≠ 1) (h3 : st.length ≠ 3)
    (hslip : f.disl1 ≠ 0 ∨ f.disl2 ≠ 0) : ∃ e, dc3d3 f st = .error e := by
  have key : ∀ s c, ∃ e, turn f s c st 1 1 (st.map fun p => p.Y * c - f.aw1) (st.map fun p => p.Y * s) (.vector 0) = .error e := by
    intro s c
    rw [turn]
    simp only [turn_zip_length, if_true]
    generalize hks : (List.map (fun k : Corner => (⟨snap _ k.xi, snap _ k.et, snap _ k.q⟩ : Corner)) _) = ks
    have hlen : ks.length = st.length := by rw [← hks]; simp
    split_ifs with c0 c1 c2 c3 c4
    · exact ⟨_, rfl⟩
    · exact ⟨_, rfl⟩
    · exact ⟨_, rfl⟩
    · exact ⟨_, rfl⟩
    · exact ⟨_, rfl⟩
    · have hcol : ∀ (g : Corner → V3 ℝ) (d : ℝ), ((Arr.vector 0).add (columns g d ks) = .error .valueError) ∧
          ((columns g d ks).turn s c).add (.vector 0) = .error .valueError := by
        intro g d
        constructor
        · simp only [Arr.add, Arr.asRows, columns]
          rw [rowAdd_error (by simp) (by simpa [hlen] using h1) (by simpa [hlen] using h3.symm)]
          rfl
        · simp only [Arr.add, Arr.asRows, columns, Arr.turn]
          rw [rowAdd_error (by simpa [hlen] using h1) (by simp) (by simpa [hlen] using h3)]
          rfl
      by_cases d1 : f.disl1 = 0
      · have d2 : f.disl2 ≠ 0 := by simpa [d1] using hslip
        refine ⟨.valueError, ?_⟩
        simp only [dub, d1, ne_eq, not_true_eq_false, if_false, d2, not_false_eq_true, if_true, (hcol _ _).1]
        rfl
      · by_cases d2 : f.disl2 = 0
        · refine ⟨.valueError, ?_⟩
          simp only [dub, d1, ne_eq, not_true_eq_false, if_false, d2, not_false_eq_true, if_true, bind, Except.bind, (hcol _ _).2]
        · refine ⟨.valueError, ?_⟩
          have hadd : ∀ g k : Corner → V3 ℝ, (columns g f.disl1 ks).add (columns k f.disl2 ks) =
              .ok (columns (fun q => (f.disl1 / (2 * π)) • g q + (f.disl2 / (2 * π)) • k q) (2 * π) ks) := by
            intro g k
            have : π ≠ 0 := pi_ne_zero
            simp [columns, Arr.add, Arr.asRows, rowAdd, bind, Except.bind, List.zipWith_self, mul_comm]
          simp only [dub, d1, ne_eq, d2, not_false_eq_true, if_true, hadd, bind, Except.bind, (hcol _ _).2]
    · rename_i hh
      exact absurd (by norm_num) hh
  obtain ⟨e, he⟩ := key (dipConstants f.dip).1 (dipConstants f.dip).2
  refine ⟨e, ?_⟩
  rw [dc3d3]
  simp only [he, bind, Except.bind]

/-- One station gives three equal columns. -/
theorem one_station {f : Fault} {p : Station} {lam mu : ℝ} (hmu : mu ≠ 0) (hl2 : lam + 2 * mu ≠ 0)
    (halpha : f.alpha = (lam + mu) / (lam + 2 * mu)) (hslip : f.disl1 ≠ 0 ∨ f.disl2 ≠ 0) (hres : Resolved f [p]) (hb : Buried f) :
    dc3d3 f [p] = .ok (asColumns [volterra f lam mu p, volterra f lam mu p, volterra f lam mu p]) :=
  displacement_is_volterra hmu hl2 halpha (.inl rfl) hslip hres hb

/-- Without slip the result is the array of three zeros, whatever the number of stations, unless an exception is raised. -/
theorem no_slip {f : Fault} {st : List Station} (h1 : f.disl1 = 0) (h2 : f.disl2 = 0) {u : Arr} (h : dc3d3 f st = .ok u) : u = .vector 0 := by
  have key : ∀ (s c : ℝ) (j k : ℕ) (et q : List ℝ) (r : List ℝ × List ℝ × Arr), turn f s c st j k et q (.vector 0) = .ok r → r.2.2 = .vector 0 := by
    intro s c j k et q r hr
    rw [turn] at hr
    have e1 : (Arr.vector 0).turn s c = .vector 0 := by simp only [Arr.turn]; congr 1; ext <;> simp
    have e2 : (Arr.vector 0).neg = .vector 0 := by simp only [Arr.neg]; congr 1; ext <;> simp
    have e3 : (Arr.vector 0).add (.vector 0) = .ok (.vector 0) := by simp only [Arr.add]; congr 2; ext <;> simp
    simp only [dub, h1, h2, ne_eq, not_true_eq_false, if_false, bind, Except.bind, e1, e2, e3, ite_self] at hr
    generalize (fun s : Station => s.X - if j = 1 then f.al1 else f.al2) = xi at hr
    split_ifs at hr
    cases hr
    rfl
  rw [dc3d3] at h
  simp only [bind, Except.bind] at h
  split at h
  · cases h
  rename_i r1 hr1
  rw [key _ _ _ _ _ _ _ hr1] at h
  split at h
  · cases h
  rename_i r2 hr2
  rw [key _ _ _ _ _ _ _ hr2] at h
  split at h
  · cases h
  rename_i r3 hr3
  rw [key _ _ _ _ _ _ _ hr3] at h
  split at h
  · cases h
  rename_i r4 hr4
  cases h
  exact key _ _ _ _ _ _ _ hr4

theorem snap_nonpos {m v : ℝ} (h : v ≤ 0) : snap m v ≤ 0 := by
  rw [snap]; split_ifs <;> linarith

theorem snap_zero (m : ℝ) : snap m 0 = 0 := by simp [snap]

/-- A turn at an end of the fault level with a station that sees it along the dip. -/
theorem turn_raises {f : Fault} {st : List Station} {p : Station} {η κ : Station → ℝ} {j : ℕ} (hp : p ∈ st)
    (hX : p.X = if j = 1 then f.al1 else f.al2) (hη : η p ≤ 0) (hκ : κ p = 0) (s c : ℝ) (k : ℕ) (u : Arr) :
    ∃ e, turn f s c st j k (st.map η) (st.map κ) u = .error e := by
  rw [turn]
  simp only [turn_zip_length]
  generalize (if j = 1 then f.al1 else f.al2) = al at *
  have hmem0 : (⟨0, η p, 0⟩ : Corner) ∈ st.map fun p => (⟨p.X - al, η p, κ p⟩ : Corner) :=
    List.mem_map.2 ⟨p, hp, by rw [hX, hκ, sub_self]⟩
  generalize (st.map fun p => (⟨p.X - al, η p, κ p⟩ : Corner)) = ks at hmem0
  rw [if_neg (List.ne_nil_of_mem hmem0)]
  have hm2 : (⟨0, snap (dcMax ks) (η p), 0⟩ : Corner) ∈
      ks.map fun k => (⟨snap (dcMax ks) k.xi, snap (dcMax ks) k.et, snap (dcMax ks) k.q⟩ : Corner) :=
    List.mem_map.2 ⟨_, hmem0, by simp [snap_zero]⟩
  have hle : snap (dcMax ks) (η p) ≤ 0 := snap_nonpos hη
  generalize snap (dcMax ks) (η p) = e at hm2 hle
  generalize (ks.map fun k => (⟨snap (dcMax ks) k.xi, snap (dcMax ks) k.et, snap (dcMax ks) k.q⟩ : Corner)) = ks' at hm2
  have hr : (⟨0, e, 0⟩ : Corner).ret < tiny := by
    have : (⟨0, e, 0⟩ : Corner).r = -e := by
      simp only [Corner.r, mul_zero, zero_add, add_zero]
      rw [sqrt_mul_self_eq_abs, abs_of_nonpos hle]
    simp only [Corner.ret, this, tiny]
    norm_num
  by_cases c1 : ∃ k ∈ ks', k.r = 0
  · rw [if_pos c1]; exact ⟨_, rfl⟩
  · rw [if_neg c1, if_pos ⟨_, hm2, hr⟩]; exact ⟨_, rfl⟩

/-- What a turn leaves in `et` and `q`. -/
theorem turn_leaves {f : Fault} {st : List Station} {η κ : Station → ℝ} {s c : ℝ} {j k : ℕ} {u : Arr} {r : List ℝ × List ℝ × Arr}
    (h : turn f s c st j k (st.map η) (st.map κ) u = .ok r) :
    ∃ m, r.1 = st.map (fun p => snap m (η p)) ∧ r.2.1 = st.map (fun p => snap m (κ p)) := by
  rw [turn] at h
  simp only [turn_zip_length] at h
  generalize (if j = 1 then f.al1 else f.al2) = al at *
  split_ifs at h <;>
  · simp only [bind, Except.bind] at h
    split at h
    · cases h
    split at h
    · cases h
    cases h
    exact ⟨_, by simp only [List.map_map, Function.comp_def]; exact ⟨rfl, rfl⟩⟩

/-- A station on the surface trace line, level with an end of the fault, makes the run fail however deep the fault is buried: the corner is
approached along the dip, where `R + η` vanishes, and the branch meant for it comes after the check that raises. -/
theorem above_end_raises {f : Fault} {st : List Station} {p : Station} (hp : p ∈ st) (hX : p.X = f.al1 ∨ p.X = f.al2) (hY : p.Y = 0)
    (haw : 0 ≤ f.aw1) : ∃ e, dc3d3 f st = .error e := by
  rw [dc3d3]
  simp only
  generalize (dipConstants f.dip).1 = s
  generalize (dipConstants f.dip).2 = c
  have hη : p.Y * c - f.aw1 ≤ 0 := by rw [hY]; linarith
  have hκ : p.Y * s = 0 := by rw [hY, zero_mul]
  rcases hX with hX | hX
  · obtain ⟨e, he⟩ := turn_raises (η := fun p => p.Y * c - f.aw1) (κ := fun p => p.Y * s) (j := 1) hp (by simpa using hX) hη hκ s c 1 (.vector 0)
    exact ⟨e, by simp only [he, bind, Except.bind]⟩
  · cases h1 : turn f s c st 1 1 (st.map fun p => p.Y * c - f.aw1) (st.map fun p => p.Y * s) (.vector 0) with
    | error e => exact ⟨e, rfl⟩
    | ok r =>
      obtain ⟨m, e1, e2⟩ := turn_leaves (η := fun p => p.Y * c - f.aw1) (κ := fun p => p.Y * s) h1
      obtain ⟨et, q, u⟩ := r
      simp only at e1 e2
      subst e1 e2
      obtain ⟨e, he⟩ := turn_raises (f := f) (j := 2) (η := fun p => snap m (p.Y * c - f.aw1)) (κ := fun p => snap m (p.Y * s)) hp (by simpa using hX)
        (snap_nonpos hη) (by simp only [hκ, snap_zero]) s c 1 u
      exact ⟨e, by simp only [he, bind, Except.bind]⟩

/-- What is raised at the end of the trace: the intended exception for one station; for several, forming its message fails first and a
`TypeError` is raised instead. -/
theorem at_end_error (f : Fault) (haw : 1 ≤ f.aw1) (n : ℕ) (hn : n ≠ 0) :
    dc3d3 f (List.replicate n ⟨f.al1, 0⟩) = .error (if n = 1 then .exception else .typeError) := by
  have key (s c : ℝ) (u : Arr) : turn f s c (List.replicate n ⟨f.al1, 0⟩) 1 1
      ((List.replicate n (⟨f.al1, 0⟩ : Station)).map fun p => p.Y * c - f.aw1) ((List.replicate n (⟨f.al1, 0⟩ : Station)).map fun p => p.Y * s) u =
      .error (if n = 1 then .exception else .typeError) := by
    rw [turn]
    simp only [turn_zip_length]
    simp only [List.map_replicate, if_true, sub_self, zero_mul, zero_sub]
    have hd : ∀ n, n ≠ 0 → dcMax (List.replicate n (⟨0, -f.aw1, 0⟩ : Corner)) = f.aw1 := by
      intro n
      induction n with
      | zero => simp
      | succ n ih =>
        intro _
        have h0 : max |(0 : ℝ)| (max |-f.aw1| |(0 : ℝ)|) = f.aw1 := by
          rw [abs_neg, abs_zero, abs_of_nonneg (by linarith : (0 : ℝ) ≤ f.aw1), max_eq_left (by linarith : (0 : ℝ) ≤ f.aw1),
            max_eq_right (by linarith)]
        rw [List.replicate_succ, dcMax, h0]
        rcases n with _ | n
        · exact max_eq_left (by simp only [List.replicate, dcMax]; linarith)
        · rw [ih (by simp), max_self]
    rw [if_neg (by simp [hn]), hd n hn]
    have hs : snap f.aw1 (-f.aw1) = -f.aw1 := by
      rw [snap, if_neg]
      rw [not_or, neg_div, abs_neg, abs_neg, div_self (by linarith), abs_one, abs_of_nonneg (by linarith), eps]
      constructor <;> (push Not; norm_num; try linarith)
    simp only [snap_zero, hs]
    have hr : (⟨0, -f.aw1, 0⟩ : Corner).r = f.aw1 := by
      simp only [Corner.r, mul_zero, zero_add, add_zero]
      rw [sqrt_mul_self_eq_abs, abs_neg, abs_of_nonneg (by linarith)]
    have hret : (⟨0, -f.aw1, 0⟩ : Corner).ret < tiny := by
      simp only [Corner.ret, hr, tiny]
      norm_num
    rw [if_neg, if_pos ⟨_, List.mem_replicate.2 ⟨hn, rfl⟩, hret⟩, List.length_replicate]
    · rfl
    · rintro ⟨k, hk, h0⟩
      rw [(List.mem_replicate.1 hk).2, hr] at h0
      linarith
  rw [dc3d3]
  simp only [key, bind, Except.bind]

/-- Moving the fault and the stations together along the strike changes nothing. -/
theorem shift_along_strike (f : Fault) (st : List Station) (h : ℝ) :
    dc3d3 { f with al1 := f.al1 + h, al2 := f.al2 + h } (st.map fun p => ⟨p.X + h, p.Y⟩) = dc3d3 f st := by
  have key : ∀ (s c : ℝ) (j k : ℕ) (et q : List ℝ) (u : Arr),
      turn { f with al1 := f.al1 + h, al2 := f.al2 + h } s c (st.map fun p => ⟨p.X + h, p.Y⟩) j k et q u = turn f s c st j k et q u := by
    intro s c j k et q u
    have e1 : ((st.map fun p => (⟨p.X + h, p.Y⟩ : Station)).map fun p => p.X - if j = 1 then f.al1 + h else f.al2 + h) =
        st.map fun p => p.X - if j = 1 then f.al1 else f.al2 := by
      rw [List.map_map]
      refine List.map_congr_left fun p _ => ?_
      simp only [Function.comp]
      split_ifs <;> ring
    simp only [turn, e1]
    have e2 : ∀ ks : List Corner, (∃ p ∈ List.zip (st.map fun p => (⟨p.X + h, p.Y⟩ : Station)) ks, p.2.q = 0 ∧
        (((p.1.X - (f.al1 + h)) * (p.1.X - (f.al2 + h)) ≤ 0 ∧ p.2.et = 0) ∨
         ((p.1.Y * c - f.aw1) * (p.1.Y * c - f.aw2) ≤ 0 ∧ p.2.xi = 0)) ∨ p.2.r = 0) ↔
        (∃ p ∈ List.zip st ks, p.2.q = 0 ∧
        (((p.1.X - f.al1) * (p.1.X - f.al2) ≤ 0 ∧ p.2.et = 0) ∨
         ((p.1.Y * c - f.aw1) * (p.1.Y * c - f.aw2) ≤ 0 ∧ p.2.xi = 0)) ∨ p.2.r = 0) := by
      intro ks
      rw [List.zip_map_left]
      simp only [List.mem_map, exists_exists_and_eq_and, Prod.map, id]
      simp only [add_sub_add_right_eq_sub]
    simp only [e2]
    rfl
  simp only [dc3d3, key, List.map_map, Function.comp_def]

end Verif.Okada
