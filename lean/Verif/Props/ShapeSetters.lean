import Verif.Props.EMSetters

/-!
# C17 and C23: gravity sphere and prism attributes over every history
-/

namespace Verif.Setters

open Classical PyFloat

variable [FloatGrammar]

/-! ## C17: the sphere -/

/-- After every construction and history, whatever was rejected on the way, the radius is not negative. -/
theorem sphere_radius_never_negative {radius rho location mass : Obj} {s : Sphere}
    (h : Sphere.new radius rho location mass = .ok s) (ops : List Sphere.Op) :
    ¬ (runOps Sphere.step s ops).radius < .fin 0 := by
  have hstep : ∀ (s : Sphere) (o : Sphere.Op), ¬ s.radius < .fin 0 → ¬ (s.step o).1.radius < .fin 0 := by
    intro s o hs
    cases o with
    | radius v => simp only [Sphere.step, Sphere.setRadius]; (repeat' split) <;> assumption
    | rho v => simp only [Sphere.step, Sphere.setRho]; split <;> exact hs
    | mass v => simp only [Sphere.step, Sphere.setMass]; (repeat' split) <;> exact hs
    | location v => simp only [Sphere.step, Sphere.setLocation]; split <;> exact hs
  refine runOps_invariant (I := fun s : Sphere => ¬ s.radius < .fin 0) hstep s ?_ ops
  unfold Sphere.new at h
  simp only at h
  split at h
  · rename_i t ht
    simp only [Except.ok.injEq] at h
    subst h
    have key : ¬ (t, (none : Option PyErr)).1.radius < .fin 0 := by
      rw [← ht]
      refine andThen_invariant (I := fun s : Sphere => ¬ s.radius < .fin 0) (andThen_invariant
        (I := fun s : Sphere => ¬ s.radius < .fin 0) (andThen_invariant (I := fun s : Sphere => ¬ s.radius < .fin 0)
        (hstep _ (.radius radius) (by simp)) fun s hs => hstep s (.mass mass) hs) fun s hs => ?_)
        fun s hs => hstep s (.rho rho) hs
      have := hstep s (.location location) hs
      cases location <;> first | exact hs | exact this
    exact key
  · simp at h

/-- A rejected assignment to a sphere changes nothing. -/
theorem sphere_rejected_unchanged (s : Sphere) (o : Sphere.Op) (e : PyErr) (h : (s.step o).2 = some e) :
    (s.step o).1 = s := by
  cases o with
  | radius v => simp only [Sphere.step, Sphere.setRadius] at h ⊢; (repeat' split at h) <;> simp_all
  | rho v => simp only [Sphere.step, Sphere.setRho] at h ⊢; (repeat' split at h) <;> simp_all
  | mass v => simp only [Sphere.step, Sphere.setMass] at h ⊢; (repeat' split at h) <;> simp_all
  | location v => simp only [Sphere.step, Sphere.setLocation] at h ⊢; (repeat' split at h) <;> simp_all

omit [FloatGrammar] in
/-- At finite radius and density the mass reads `4/3 π radius³ rho`. -/
theorem sphere_mass_eq (s : Sphere) (r d : ℝ) (hr : s.radius = .fin r) (hd : s.rho = .fin d) :
    s.mass = .fin (4 / 3 * Real.pi * r ^ 3 * d) := by
  simp only [Sphere.mass, hr, hd, fin_pow, fin_mul_fin]

/-- Setting the mass at a finite positive radius is accepted for every float, reads back exactly that value and touches
neither the radius nor the location. -/
theorem sphere_mass_reads_back (s : Sphere) (r : ℝ) (hr : s.radius = .fin r) (hpos : 0 < r) (v : Obj) (m : PyFloat)
    (hv : v.toFloat = .ok m) :
    ∃ t, s.step (.mass v) = (t, none) ∧ t.mass = m ∧ t.radius = s.radius ∧ t.location = s.location := by
  have hpi := Real.pi_pos
  have hc : 0 < 4 * Real.pi * r ^ 3 := by positivity
  have hc' : 0 < 4 / 3 * Real.pi * r ^ 3 := by positivity
  refine ⟨{ s with rho := npDiv (m * .fin 3) (.fin (4 * Real.pi * r ^ 3)) }, ?_, ?_, rfl, rfl⟩
  · simp only [Sphere.step, Sphere.setMass, floatOrTypeError_ok.2 hv, hr, fin_pow, fin_mul_fin]
    simp only [pyDiv, fin.injEq, hc.ne', if_false]
  · simp only [Sphere.mass, hr, fin_pow, fin_mul_fin]
    cases m with
    | fin m =>
      rw [fin_mul_fin, npDiv_fin hc.ne', fin_mul_fin]
      congr 1
      field_simp
    | pinf =>
      have h1 : PyFloat.pinf * .fin 3 = .pinf := by change PyFloat.mul _ _ = _; simp [PyFloat.mul]
      have h2 : npDiv .pinf (.fin (4 * Real.pi * r ^ 3)) = .pinf := by
        simp only [npDiv, hc.not_gt, if_false]
      rw [h1, h2]
      change PyFloat.mul _ _ = _
      simp only [PyFloat.mul, hc', if_true]
    | ninf =>
      have h1 : PyFloat.ninf * .fin 3 = .ninf := by change PyFloat.mul _ _ = _; simp [PyFloat.mul]
      have h2 : npDiv .ninf (.fin (4 * Real.pi * r ^ 3)) = .ninf := by
        simp only [npDiv, hc.not_gt, if_false]
      rw [h1, h2]
      change PyFloat.mul _ _ = _
      simp only [PyFloat.mul, hc', if_true]
    | nan => rfl

/-- Every assignment that is accepted stores the converted value in that attribute alone, and `radius` accepts exactly the
values that are not negative. -/
theorem sphere_assignment (s t : Sphere) (v : Obj) :
    (s.step (.radius v) = (t, none) ↔ ∃ x, v.toFloat = .ok x ∧ ¬ x < .fin 0 ∧ t = { s with radius := x }) ∧
    (s.step (.rho v) = (t, none) ↔ ∃ x, v.toFloat = .ok x ∧ t = { s with rho := x }) ∧
    (s.step (.location v) = (t, none) ↔ ∃ w, vec3 v = .ok w ∧ t = { s with location := w }) := by
  refine ⟨?_, ?_, ?_⟩
  · simp only [Sphere.step, Sphere.setRadius]
    cases h : v.toFloat with
    | error e => simp
    | ok x =>
      simp only
      split <;> rename_i hc
      · simp [hc]
      · simp only [Except.ok.injEq, Prod.mk.injEq, and_true, exists_eq_left', hc, not_false_eq_true, true_and]
        exact eq_comm
  · simp only [Sphere.step, Sphere.setRho]
    cases h : v.toFloat <;> simp [eq_comm]
  · simp only [Sphere.step, Sphere.setLocation]
    cases h : vec3 v <;> simp [eq_comm]

/-- **C17 fails at radius zero, construction**: the radius setter accepts zero, but building a sphere of radius zero
raises `ZeroDivisionError`, whatever the other arguments. -/
theorem sphere_zero_radius (rho location mass : Obj) (m : PyFloat) (hm : mass.toFloat = .ok m) (s : Sphere) :
    Sphere.new (.num (.fin 0)) rho location mass = .error .zeroDivisionError ∧
      s.step (.radius (.num (.fin 0))) = ({ s with radius := .fin 0 }, none) := by
  constructor
  · have h0 : PyFloat.fin (4 * Real.pi) * PyFloat.fin 0 ^ 3 = .fin 0 := by
      rw [fin_pow, fin_mul_fin]; norm_num
    have hdiv : ∀ y, pyDiv y (PyFloat.fin 0) = .error .zeroDivisionError := fun y => by simp [pyDiv]
    have hn : ¬ PyFloat.fin 0 < PyFloat.fin 0 := by simp
    simp only [Sphere.new, SetResult.andThen, Sphere.setRadius, Obj.toFloat, hn, if_false, Sphere.setMass,
      floatOrTypeError_ok.2 hm, h0, hdiv]
  · simp [Sphere.step, Sphere.setRadius, Obj.toFloat]

/-- **C17 fails at infinite radius**: it is accepted, and a mass assigned then reads back NaN. -/
theorem sphere_infinite_radius (s : Sphere) :
    ∃ t, runOps Sphere.step s [.radius (.num .pinf), .mass (.num (.fin 1))] = t ∧ t.radius = .pinf ∧
      t.mass = .nan := by
  have hp : PyFloat.pinf ^ 3 = .pinf := by
    change PyFloat.npow _ 3 = _
    simp only [PyFloat.npow]
    have h1 : PyFloat.fin 1 * .pinf = .pinf := by change PyFloat.mul _ _ = _; simp [PyFloat.mul]
    have h2 : PyFloat.pinf * .pinf = .pinf := rfl
    rw [h1, h2, h2]
  have hpi := Real.pi_pos
  have h4 : PyFloat.fin (4 * Real.pi) * .pinf = .pinf := by
    change PyFloat.mul _ _ = _; simp only [PyFloat.mul]; rw [if_pos (by positivity)]
  have h5 : PyFloat.fin (4 / 3 * Real.pi) * .pinf = .pinf := by
    change PyFloat.mul _ _ = _; simp only [PyFloat.mul]; rw [if_pos (by positivity)]
  refine ⟨_, rfl, ?_, ?_⟩
  · simp [runOps, Sphere.step, Sphere.setRadius, Obj.toFloat, Sphere.setMass, floatOrTypeError, hp, h4, pyDiv]
  · simp only [runOps, List.foldl, Sphere.step, Sphere.setRadius, Obj.toFloat, Sphere.setMass, floatOrTypeError,
      not_pinf_lt_fin, if_false, hp, h4, pyDiv, reduceCtorEq, fin_mul_fin, npDiv, Sphere.mass, h5]
    change PyFloat.mul _ _ = _
    simp [PyFloat.mul]

/-- The `mass` keyword of the constructor never reaches the object: two constructions that differ only there give the same
sphere, with the density argument stored. -/
theorem sphere_mass_keyword_ignored (r d : ℝ) (hr : 0 < r) (m : PyFloat) :
    Sphere.new (.num (.fin r)) (.num (.fin d)) .none (.num m) =
      .ok ⟨.fin r, .fin d, ⟨.fin 0, .fin 0, .fin 0⟩⟩ := by
  have hpi := Real.pi_pos
  have hc : 0 < 4 * Real.pi * r ^ 3 := by positivity
  have hn : ¬ PyFloat.fin r < PyFloat.fin 0 := by simp [hr.le]
  have hdiv : ∀ y, pyDiv y (.fin (4 * Real.pi * r ^ 3)) = .ok (npDiv y (.fin (4 * Real.pi * r ^ 3))) := fun y => by
    simp only [pyDiv, fin.injEq, hc.ne', if_false]
  simp only [Sphere.new, SetResult.andThen, Sphere.setRadius, Obj.toFloat, hn, if_false, Sphere.setMass,
    floatOrTypeError, fin_pow, fin_mul_fin, hdiv, Sphere.setRho]

/-- A sphere that is constructed, then rejects a radius, then takes a mass. -/
example : ∃ s, Sphere.new (.num (.fin 2)) (.num (.fin 3)) = .ok s ∧
    (s.step (.radius (.num (.fin (-1))))).2 = some .valueError ∧
    ∃ t, s.step (.mass (.num (.fin 7))) = (t, none) ∧ t.mass = .fin 7 := by
  refine ⟨_, sphere_mass_keyword_ignored 2 3 (by norm_num) (.fin 1), ?_, ?_⟩
  · simp [Sphere.step, Sphere.setRadius, Obj.toFloat]
  · obtain ⟨t, h1, h2, _⟩ := sphere_mass_reads_back ⟨.fin 2, .fin 3, ⟨.fin 0, .fin 0, .fin 0⟩⟩ 2 rfl (by norm_num)
      (.num (.fin 7)) (.fin 7) rfl
    exact ⟨t, h1, h2⟩

/-! ## C23: the prism -/

/-- The ordering the English property asks for. -/
def Prism.Ordered (s : Prism) : Prop := s.min.x < s.max.x ∧ s.min.y < s.max.y ∧ s.min.z < s.max.z

/-- A list of three finite numbers, as a Python sequence. -/
def triple (a b c : ℝ) : Obj := .seq (.ofList [.fin a, .fin b, .fin c] .nan)

@[simp] theorem vec3_triple (a b c : ℝ) : vec3 (triple a b c) = .ok ⟨.fin a, .fin b, .fin c⟩ := by
  simp [vec3, triple, Obj.asFloatArray, NArr.squeeze, NArr.ofList, NArr.unsqueezeIndex]

/-- Construction accepts exactly the ordered corners, among finite ones. -/
theorem prism_new_iff (a b c a' b' c' : ℝ) :
    (Prism.new (triple a b c) (triple a' b' c') =
        .ok ⟨⟨.fin a, .fin b, .fin c⟩, ⟨.fin a', .fin b', .fin c'⟩⟩ ↔ a < a' ∧ b < b' ∧ c < c') ∧
      (¬ (a < a' ∧ b < b' ∧ c < c') → Prism.new (triple a b c) (triple a' b' c') = .error .valueError) := by
  simp only [Prism.new, Prism.setMin, Prism.setMax, SetResult.andThen, vec3_triple, fin_le_fin]
  by_cases h : a' ≤ a ∨ b' ≤ b ∨ c' ≤ c
  · simp only [h, if_true]
    refine ⟨⟨fun h => by simp at h, fun h' => ?_⟩, fun _ => trivial⟩
    rcases h with h | h | h <;> exfalso <;> linarith [h'.1, h'.2.1, h'.2.2]
  · have h' := h
    push Not at h'
    simp only [h, if_false]
    exact ⟨⟨fun _ => h', fun _ => trivial⟩, fun hn => absurd h' hn⟩

/-- Right after any construction no maximum is at or below its minimum; without NaN that is the full ordering.  The rest
of the full statement, about later assignments, fails (`prism_setter_breaks_order`). -/
theorem prism_new_ordered_partial {lo hi : Obj} {s : Prism} (h : Prism.new lo hi = .ok s) :
    (¬ s.max.x ≤ s.min.x ∧ ¬ s.max.y ≤ s.min.y ∧ ¬ s.max.z ≤ s.min.z) ∧
      ((s.min.x ≠ .nan ∧ s.min.y ≠ .nan ∧ s.min.z ≠ .nan ∧ s.max.x ≠ .nan ∧ s.max.y ≠ .nan ∧ s.max.z ≠ .nan) →
        s.Ordered) := by
  have h1 : ¬ s.max.x ≤ s.min.x ∧ ¬ s.max.y ≤ s.min.y ∧ ¬ s.max.z ≤ s.min.z := by
    unfold Prism.new at h
    simp only at h
    split at h
    · simp at h
    · split at h
      · simp at h
      · rename_i hn
        simp only [Except.ok.injEq] at h
        subst h
        push Not at hn
        exact hn
  refine ⟨h1, fun hn => ⟨lt_of_not_le ?_ ?_ h1.1, lt_of_not_le ?_ ?_ h1.2.1, lt_of_not_le ?_ ?_ h1.2.2⟩⟩ <;> simp_all

omit [FloatGrammar] in
/-- A finite ordered prism has positive volume. -/
theorem prism_volume_pos (s : Prism) (a b c a' b' c' : ℝ) (h1 : s.min = ⟨.fin a, .fin b, .fin c⟩)
    (h2 : s.max = ⟨.fin a', .fin b', .fin c'⟩) (h : s.Ordered) :
    s.volume = .fin ((a' - a) * (b' - b) * (c' - c)) ∧ .fin 0 < s.volume := by
  have hv : s.volume = .fin ((a' - a) * (b' - b) * (c' - c)) := by
    simp only [Prism.volume, h1, h2, fin_sub_fin, fin_mul_fin]
  refine ⟨hv, ?_⟩
  rw [hv, fin_lt_fin]
  simp only [Prism.Ordered, h1, h2, fin_lt_fin] at h
  exact mul_pos (mul_pos (by linarith) (by linarith)) (by linarith)

/-- **C23 fails**: from a properly constructed prism, one accepted assignment to `min_location` puts it above
`max_location`, and the volume reads negative. -/
theorem prism_setter_breaks_order :
    ∃ s, Prism.new (triple 0 0 0) (triple 1 1 1) = .ok s ∧ s.Ordered ∧
      ((s.step (.min (triple 2 2 2))).2 = none) ∧
      ¬ (runOps Prism.step s [.min (triple 2 2 2)]).Ordered ∧
      (runOps Prism.step s [.min (triple 2 2 2)]).volume = .fin (-1) := by
  refine ⟨_, (prism_new_iff 0 0 0 1 1 1).1.2 (by norm_num), ?_, ?_, ?_, ?_⟩
  · simp [Prism.Ordered]
  · simp [Prism.step, Prism.setMin]
  · simp [runOps, Prism.step, Prism.setMin, Prism.Ordered]
  · simp [runOps, Prism.step, Prism.setMin, Prism.volume, fin_sub_fin, fin_mul_fin]
    norm_num

/-- **C23 fails for NaN at construction**: a NaN corner is accepted. -/
theorem prism_nan_accepted :
    ∃ s, Prism.new (triple 0 0 0) (.seq (.ofList [.nan, .fin 1, .fin 1] .nan)) = .ok s ∧ ¬ s.Ordered := by
  have h1 : ¬ (1 : ℝ) ≤ 0 := by norm_num
  refine ⟨⟨⟨.fin 0, .fin 0, .fin 0⟩, ⟨.nan, .fin 1, .fin 1⟩⟩, ?_, ?_⟩
  · simp [Prism.new, Prism.setMin, Prism.setMax, SetResult.andThen, vec3, Obj.asFloatArray, NArr.squeeze, NArr.ofList,
      NArr.unsqueezeIndex, triple, h1]
  · simp [Prism.Ordered]

/-- A rejected assignment to a prism changes nothing, and an accepted one stores the converted corner in that attribute
alone. -/
theorem prism_assignment (s t : Prism) (v : Obj) :
    (∀ o e, (s.step o).2 = some e → (s.step o).1 = s) ∧
    (s.step (.min v) = (t, none) ↔ ∃ w, vec3 v = .ok w ∧ t = { s with min := w }) ∧
    (s.step (.max v) = (t, none) ↔ ∃ w, vec3 v = .ok w ∧ t = { s with max := w }) := by
  refine ⟨?_, ?_, ?_⟩
  · intro o e h
    cases o <;> simp only [Prism.step, Prism.setMin, Prism.setMax] at h ⊢ <;> (repeat' split at h) <;> simp_all
  · simp only [Prism.step, Prism.setMin]
    cases h : vec3 v <;> simp [eq_comm]
  · simp only [Prism.step, Prism.setMax]
    cases h : vec3 v <;> simp [eq_comm]

/-- An assignment that can only enlarge a box with corners `a` and `b`. -/
def Prism.Op.Grows (a b : ℝ × ℝ × ℝ) : Prism.Op → Prop
  | .min v => ∃ x y z, v = triple x y z ∧ x ≤ a.1 ∧ y ≤ a.2.1 ∧ z ≤ a.2.2
  | .max v => ∃ x y z, v = triple x y z ∧ b.1 ≤ x ∧ b.2.1 ≤ y ∧ b.2.2 ≤ z

/-- The order survives every history whose assignments stay outside the original box. -/
theorem prism_growing_history_partial (a b : ℝ × ℝ × ℝ) {s : Prism}
    (h : Prism.new (triple a.1 a.2.1 a.2.2) (triple b.1 b.2.1 b.2.2) = .ok s) (ops : List Prism.Op)
    (hg : ∀ o ∈ ops, o.Grows a b) : (runOps Prism.step s ops).Ordered := by
  have hord : a.1 < b.1 ∧ a.2.1 < b.2.1 ∧ a.2.2 < b.2.2 := by
    by_contra hn
    rw [(prism_new_iff _ _ _ _ _ _).2 hn] at h
    simp at h
  have hs : s = ⟨⟨.fin a.1, .fin a.2.1, .fin a.2.2⟩, ⟨.fin b.1, .fin b.2.1, .fin b.2.2⟩⟩ := by
    rw [(prism_new_iff _ _ _ _ _ _).1.2 hord] at h
    simpa using h.symm
  have key : ∀ (ops : List Prism.Op) (t : Prism), (∀ o ∈ ops, o.Grows a b) →
      (∃ x y z x' y' z', t = ⟨⟨.fin x, .fin y, .fin z⟩, ⟨.fin x', .fin y', .fin z'⟩⟩ ∧ x ≤ a.1 ∧ y ≤ a.2.1 ∧ z ≤ a.2.2 ∧
        b.1 ≤ x' ∧ b.2.1 ≤ y' ∧ b.2.2 ≤ z') → (runOps Prism.step t ops).Ordered := by
    intro ops
    induction ops with
    | nil =>
      rintro t - ⟨x, y, z, x', y', z', rfl, h1, h2, h3, h4, h5, h6⟩
      simp only [runOps, List.foldl, Prism.Ordered, fin_lt_fin]
      exact ⟨by linarith [hord.1], by linarith [hord.2.1], by linarith [hord.2.2]⟩
    | cons o ops ih =>
      rintro t hg ⟨x, y, z, x', y', z', rfl, h1, h2, h3, h4, h5, h6⟩
      refine ih _ (fun o ho => hg o (List.mem_cons_of_mem _ ho)) ?_
      have ho := hg o List.mem_cons_self
      cases o with
      | min v =>
        obtain ⟨p, q, r, rfl, hp, hq, hr⟩ := ho
        exact ⟨p, q, r, x', y', z', by simp [Prism.step, Prism.setMin], hp, hq, hr, h4, h5, h6⟩
      | max v =>
        obtain ⟨p, q, r, rfl, hp, hq, hr⟩ := ho
        exact ⟨x, y, z, p, q, r, by simp [Prism.step, Prism.setMax], h1, h2, h3, hp, hq, hr⟩
  exact key ops s hg ⟨_, _, _, _, _, _, hs, le_rfl, le_rfl, le_rfl, le_rfl, le_rfl, le_rfl⟩

example : Prism.Op.Grows (0, 0, 0) (1, 1, 1) (.min (triple (-1) (-1) (-1))) ∧
    Prism.Op.Grows (0, 0, 0) (1, 1, 1) (.max (triple 2 2 2)) :=
  ⟨⟨-1, -1, -1, rfl, by norm_num⟩, ⟨2, 2, 2, rfl, by norm_num⟩⟩

end Verif.Setters
