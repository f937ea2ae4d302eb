import Verif.Model.HalfspaceState
import Verif.Model.StaticHalfspace
import Verif.Props.EMSetters

/-!
# C33: the halfspace sources stay in step with their sub-objects

The English property says that after any history the fields are those of a freshly built object with the currently
readable attributes.  The fields are computed from the stored attributes and sub-objects, so the statement here is that
building anew from `rho`, `current` and `location` gives the very same object.
-/

namespace Verif.HalfspaceState

open Classical Verif.Setters PyFloat

variable [FloatGrammar]

/-! ## Where it fails -/

/-- A source at the origin with unit properties. -/
noncomputable def Source.unit : Source := ⟨EM.unit, .fin 1, ⟨.fin 0, .fin 0, .fin 0⟩⟩

/-- The point source at the origin with unit properties. -/
noncomputable def Point.unit : Point := ⟨.fin 1, .fin 1, row 0 0 0, Source.unit, Source.unit⟩

theorem em_setRho_pinf (s : EM) : s.setRho (.num .pinf) = (s, some .valueError) := by
  simp [EM.setRho, floatOrTypeError, Obj.toFloat, pyDiv, npDiv, EM.setSigma]

/-- **C33 fails for an infinite resistivity**: the assignment is rejected, yet `rho` now reads infinity while the sources keep
the old conductivity, and no object can be built from the attributes. -/
theorem point_rho_inf_desynchronises (mu0 eps0 : ℝ) (s : Point) :
    let r := s.step (.rho (.num .pinf))
    r.2 = some .valueError ∧ r.1.rho = .pinf ∧ r.1.primary = s.primary ∧ r.1.image = s.image ∧
      ∀ current location, ∃ e, Point.new mu0 eps0 (.num r.1.rho) current location = .error e := by
  have h : s.step (.rho (.num .pinf)) = ({ s with rho := .pinf }, some .valueError) := by
    simp [Point.step, Point.setRho, floatOrTypeError, Obj.toFloat, Source.setRho, em_setRho_pinf, SetResult.andThen]
  refine ⟨by rw [h], by rw [h], by rw [h], by rw [h], fun current location => ?_⟩
  rw [h]
  refine ⟨.valueError, ?_⟩
  have hem : EM.new (.num (.fin 0)) (.num (.fin mu0)) (.num (.fin eps0)) = .error .valueError := by
    simp only [EM.new, EM.setSigma, floatOrTypeError, Obj.toFloat, SetResult.andThen, fin_le_fin, le_refl, if_true]
  have hinv : invObj (.num .pinf) = .ok (.num (.fin 0)) := by simp [invObj, pyDiv, npDiv]
  simp only [Point.new, Source.new, hinv, hem]

/-- A `(3, 1)` column of zeros. -/
noncomputable def column : NArr PyFloat := ⟨[3, 1], fun _ => .fin 0⟩

/-- **C33 fails for a location of shape `(3, 1)`**: the assignment is rejected, yet `location` now reads the column, and no
object can be built from the attributes. -/
theorem point_location_column_desynchronises (mu0 eps0 : ℝ) (s : Point) :
    let r := s.step (.location (.ndarray column))
    r.2 = some .valueError ∧ r.1.location = column ∧ r.1.primary = s.primary ∧
      ∀ rho current, ∃ e, Point.new mu0 eps0 rho current (.ndarray r.1.location) = .error e := by
  have hlen : len column = 3 := rfl
  have hchk : checkLocation (.ndarray column) = .ok column := by
    have hn : ¬ ∃ i, InShape column.shape.dropLast i ∧
        column.get (i ++ [column.shape.getLastD 0 - 1]) > PyFloat.fin 0 := by
      rintro ⟨i, _, h⟩
      have : column.get (i ++ [column.shape.getLastD 0 - 1]) = .fin 0 := rfl
      rw [this] at h
      exact absurd h (by simp)
    have hl : column.shape.getLastD 0 ≠ 0 := by decide
    have h1 : Obj.atleast1dFloat (.ndarray column) = .ok column := by
      simp [Obj.atleast1dFloat, Obj.asFloatArray, column]
    simp only [checkLocation, h1, hlen, ne_eq, not_true_eq_false, if_false, hl, hn]
  have hsrc : ∀ p : Source, p.setLocation (.ndarray column) = (p, some .valueError) := by
    intro p
    simp [Source.setLocation, Obj.atleast1dFloat, Obj.asFloatArray, column, len]
  have hset : ∀ s : Point, s.setLocation (.ndarray column) = ({ s with location := column }, some .valueError) := by
    intro s
    simp only [Point.setLocation, hchk, hsrc, SetResult.andThen]
  refine ⟨by simp [Point.step, hset], by simp [Point.step, hset], by simp [Point.step, hset], fun rho current => ?_⟩
  simp only [Point.step, hset, Point.new, orRow]
  cases hs : Source.new mu0 eps0 rho with
  | error e => exact ⟨e, rfl⟩
  | ok p =>
    simp only
    rcases hA : Point.setCurrent ⟨.nan, .nan, row 0 0 0, p, p⟩ current with ⟨s1, _ | e⟩
    · simp only [SetResult.andThen]
      rcases hB : s1.setRho rho with ⟨s2, _ | e⟩
      · exact ⟨.valueError, rfl⟩
      · exact ⟨_, rfl⟩
    · exact ⟨e, rfl⟩

/-! ## Where it holds -/

variable {mu0 eps0 : ℝ}

/-- The sources agree with the attributes. -/
structure Synced (mu0 eps0 : ℝ) (s : Point) : Prop where
  shape : s.location.shape = [3]
  below : ¬ s.location.get [2] > .fin 0
  rhoPos : ¬ s.rho ≤ .fin 0
  rhoFin : s.rho ≠ .pinf
  primary : s.primary = ⟨⟨npDiv (.fin 1) s.rho, .fin mu0, .fin eps0⟩, s.current,
    ⟨s.location.get [0], s.location.get [1], s.location.get [2]⟩⟩
  image : s.image = ⟨⟨npDiv (.fin 1) s.rho, .fin mu0, .fin eps0⟩, s.current,
    ⟨s.location.get [0], s.location.get [1], -s.location.get [2]⟩⟩

/-- An assignment other than an infinite resistivity or a location with several axes. -/
def Point.Op.Ordinary : Point.Op → Prop
  | .current _ => True
  | .rho v => ∀ x, v.toFloat = .ok x → x ≠ .pinf
  | .location v => ∀ a, v.asFloatArray = .ok a → a.ndim ≤ 1

omit [FloatGrammar] in
theorem inv_ok {x : PyFloat} (h : ¬ x ≤ .fin 0) (h' : x ≠ .pinf) :
    pyDiv (.fin 1) x = .ok (npDiv (.fin 1) x) ∧ ¬ npDiv (.fin 1) x ≤ .fin 0 := by
  cases x with
  | fin x =>
    simp only [fin_le_fin, not_le] at h
    have : 0 < 1 / x := by positivity
    constructor
    · simp [pyDiv, h.ne']
    · rw [npDiv_fin h.ne']; simpa using h
  | pinf => exact absurd rfl h'
  | ninf => exact absurd (by simp) h
  | nan => simp [pyDiv, npDiv]

theorem em_setRho_ok (s : EM) {x : PyFloat} (h : ¬ x ≤ .fin 0) (h' : x ≠ .pinf) :
    s.setRho (.num x) = ({ s with sigma := npDiv (.fin 1) x }, none) := by
  obtain ⟨h1, h2⟩ := inv_ok h h'
  simp only [EM.setRho, floatOrTypeError, Obj.toFloat, h1, EM.setSigma, h2, if_false]

theorem point_setRho_ok (s : Point) {v : Obj} {x : PyFloat} (hv : v.toFloat = .ok x) (h : ¬ x ≤ .fin 0)
    (h' : x ≠ .pinf) :
    s.setRho v = ({ s with
      rho := x
      primary := { s.primary with em := { s.primary.em with sigma := npDiv (.fin 1) x } }
      image := { s.image with em := { s.image.em with sigma := npDiv (.fin 1) x } } }, none) := by
  simp only [Point.setRho, floatOrTypeError_ok.2 hv, h, if_false, Source.setRho, em_setRho_ok _ h h', SetResult.andThen]

theorem point_setCurrent_ok (s : Point) {v : Obj} {x : PyFloat} (hv : v.toFloat = .ok x) :
    s.setCurrent v = ({ s with
      current := x
      primary := { s.primary with current := x }
      image := { s.image with current := x } }, none) := by
  have hn : floatOrTypeError (.num x) = .ok x := floatOrTypeError_ok.2 rfl
  simp only [Point.setCurrent, floatOrTypeError_ok.2 hv, Source.setCurrent, hn, SetResult.andThen]

omit [FloatGrammar] in
theorem inShape_nil_iff (i : List ℕ) : InShape [] i ↔ i = [] := by
  constructor
  · intro h; cases h; rfl
  · rintro rfl; exact List.Forall₂.nil

/-- Which single-axis arrays pass the location checks: exactly the triples whose third component is not positive. -/
theorem checkLocation_vector (a : NArr PyFloat) (h1 : a.ndim = 1) :
    (checkLocation (.ndarray a) = .ok a ↔ a.shape = [3] ∧ ¬ a.get [2] > .fin 0) ∧
      ∀ b, checkLocation (.ndarray a) = .ok b → b = a := by
  obtain ⟨n, hn⟩ : ∃ n, a.shape = [n] := List.length_eq_one_iff.1 h1
  have hat : Obj.atleast1dFloat (.ndarray a) = .ok a := by simp [Obj.atleast1dFloat, Obj.asFloatArray, hn]
  constructor
  · simp only [checkLocation, hat]
    by_cases h3 : n = 3
    · subst h3
      have hlen : len a = 3 := by simp [len, hn]
      by_cases hz : a.get [2] > .fin 0
      · have : ∃ i, InShape a.shape.dropLast i ∧ a.get (i ++ [a.shape.getLastD 0 - 1]) > PyFloat.fin 0 :=
          ⟨[], by simp [hn, inShape_nil_iff], by simpa [hn] using hz⟩
        have hl : a.shape.getLastD 0 ≠ 0 := by simp [hn]
        simp only [hlen, ne_eq, not_true_eq_false, if_false, hl, this, if_true, reduceCtorEq, hz, and_false]
      · have : ¬ ∃ i, InShape a.shape.dropLast i ∧ a.get (i ++ [a.shape.getLastD 0 - 1]) > PyFloat.fin 0 := by
          rintro ⟨i, hi, h⟩
          rw [hn] at hi
          simp only [List.dropLast_singleton, inShape_nil_iff] at hi
          subst hi
          simp [hn] at h
          exact hz h
        have hl : a.shape.getLastD 0 ≠ 0 := by simp [hn]
        simp only [hlen, ne_eq, not_true_eq_false, if_false, hl, this, true_iff]
        exact ⟨hn, hz⟩
    · have hlen : len a ≠ 3 := by simpa [len, hn] using h3
      simp [hlen, hn, h3]
  · intro b hb
    simp only [checkLocation, hat] at hb
    (repeat' split at hb) <;> simp_all

theorem source_setLocation_ok (s : Source) (a : NArr PyFloat) (h : a.shape = [3]) :
    s.setLocation (.ndarray a) = ({ s with node := ⟨a.get [0], a.get [1], a.get [2]⟩ }, none) := by
  simp [Source.setLocation, Obj.atleast1dFloat, Obj.asFloatArray, h, len]

theorem point_setLocation_ok (s : Point) {v : Obj} {a : NArr PyFloat} (hv : checkLocation v = .ok a)
    (h : a.shape = [3]) :
    s.setLocation v = ({ s with
      location := a
      primary := { s.primary with node := ⟨a.get [0], a.get [1], a.get [2]⟩ }
      image := { s.image with node := ⟨a.get [0], a.get [1], -a.get [2]⟩ } }, none) := by
  have hf : (flipLast a).shape = [3] := h
  have hl : len a = 3 := by simp [len, h]
  simp only [Point.setLocation, hv, source_setLocation_ok _ _ h, source_setLocation_ok _ _ hf, SetResult.andThen]
  simp [flipLast, hl]

/-- What a converted argument looks like to the location checks. -/
theorem checkLocation_ok {v : Obj} {a : NArr PyFloat} (h : checkLocation v = .ok a) :
    ∃ b, v.asFloatArray = .ok b ∧ a = (if b.shape = [] then ⟨[1], fun _ => b.get []⟩ else b) ∧ len a = 3 := by
  unfold checkLocation Obj.atleast1dFloat at h
  cases hv : v.asFloatArray with
  | error e => simp [hv] at h
  | ok b =>
    simp only [hv] at h
    generalize hc : (if b.shape = [] then (⟨[1], fun _ => b.get []⟩ : NArr PyFloat) else b) = c at h
    refine ⟨b, rfl, ?_, ?_⟩
    · rw [hc]
      (repeat' split at h) <;> simp_all
    · (repeat' split at h) <;> simp_all

/-- An accepted location with at most one axis is a triple below the surface. -/
theorem checkLocation_triple {v : Obj} {a : NArr PyFloat} (h : checkLocation v = .ok a)
    (hd : ∀ b, v.asFloatArray = .ok b → b.ndim ≤ 1) : a.shape = [3] ∧ ¬ a.get [2] > .fin 0 := by
  obtain ⟨b, hb, hab, hlen⟩ := checkLocation_ok h
  have hnd : a.ndim = 1 := by
    have := hd b hb
    split at hab
    · subst hab; rfl
    · rename_i hne
      subst hab
      have : a.shape.length ≠ 0 := by simpa using hne
      simp only [NArr.ndim] at *
      omega
  have hat : v.atleast1dFloat = .ok a := by
    simp only [Obj.atleast1dFloat, hb]
    rw [hab]
  have heq : checkLocation (.ndarray a) = checkLocation v := by
    obtain ⟨n, hn⟩ : ∃ n, a.shape = [n] := List.length_eq_one_iff.1 hnd
    have : Obj.atleast1dFloat (.ndarray a) = .ok a := by simp [Obj.atleast1dFloat, Obj.asFloatArray, hn]
    simp only [checkLocation, this, hat]
  exact (checkLocation_vector a hnd).1.1 (heq.trans h)

theorem synced_setCurrent {s : Point} (hs : Synced mu0 eps0 s) (v : Obj) : Synced mu0 eps0 (s.setCurrent v).1 := by
  cases hv : v.toFloat with
  | error e =>
    have : ∃ e', floatOrTypeError v = .error e' := ⟨_, by simp [floatOrTypeError, hv]; rfl⟩
    obtain ⟨e', he⟩ := this
    simpa [Point.setCurrent, he] using hs
  | ok x =>
    rw [point_setCurrent_ok s hv]
    exact ⟨hs.shape, hs.below, hs.rhoPos, hs.rhoFin, by simp only [hs.primary], by simp only [hs.image]⟩

theorem synced_setRho {s : Point} (hs : Synced mu0 eps0 s) (v : Obj) (hv' : ∀ x, v.toFloat = .ok x → x ≠ .pinf) :
    Synced mu0 eps0 (s.setRho v).1 := by
  cases hv : v.toFloat with
  | error e =>
    have : ∃ e', floatOrTypeError v = .error e' := ⟨_, by simp [floatOrTypeError, hv]; rfl⟩
    obtain ⟨e', he⟩ := this
    simpa [Point.setRho, he] using hs
  | ok x =>
    by_cases hx : x ≤ .fin 0
    · simpa [Point.setRho, floatOrTypeError_ok.2 hv, hx] using hs
    · rw [point_setRho_ok s hv hx (hv' x hv)]
      exact ⟨hs.shape, hs.below, hx, hv' x hv, by simp only [hs.primary], by simp only [hs.image]⟩

theorem synced_setLocation {s : Point} (hs : Synced mu0 eps0 s) (v : Obj)
    (hd : ∀ b, v.asFloatArray = .ok b → b.ndim ≤ 1) : Synced mu0 eps0 (s.setLocation v).1 := by
  cases hv : checkLocation v with
  | error e => simpa [Point.setLocation, hv] using hs
  | ok a =>
    obtain ⟨h3, hz⟩ := checkLocation_triple hv hd
    rw [point_setLocation_ok s hv h3]
    exact ⟨h3, hz, hs.rhoPos, hs.rhoFin, by simp only [hs.primary], by simp only [hs.image]⟩

theorem synced_step {s : Point} (hs : Synced mu0 eps0 s) (o : Point.Op) (ho : o.Ordinary) :
    Synced mu0 eps0 (s.step o).1 := by
  cases o with
  | current v => exact synced_setCurrent hs v
  | rho v => exact synced_setRho hs v ho
  | location v => exact synced_setLocation hs v ho

theorem em_new_ok {x : PyFloat} (hx : ¬ x ≤ .fin 0) (hmu : 0 < mu0) (heps : 0 ≤ eps0) :
    EM.new (.num x) (.num (.fin mu0)) (.num (.fin eps0)) = .ok ⟨x, .fin mu0, .fin eps0⟩ := by
  simp only [EM.new, EM.setSigma, EM.setMu, EM.setEpsilon, floatOrTypeError, Obj.toFloat, SetResult.andThen, hx, if_false,
    fin_le_fin, not_le.2 hmu, fin_lt_fin, not_lt.2 heps]

theorem em_new_mu_eps {sigma : Obj} {em : EM}
    (h : EM.new sigma (.num (.fin mu0)) (.num (.fin eps0)) = .ok em) : em.mu = .fin mu0 ∧ em.epsilon = .fin eps0 := by
  unfold EM.new at h
  rcases hs : EM.blank.setSigma sigma with ⟨s1, _ | e⟩
  · by_cases hm : PyFloat.fin mu0 ≤ .fin 0
    · simp only [hs, SetResult.andThen, EM.setMu, floatOrTypeError, Obj.toFloat, hm, if_true] at h
      simp at h
    · by_cases he : PyFloat.fin eps0 < .fin 0
      · simp only [hs, SetResult.andThen, EM.setMu, EM.setEpsilon, floatOrTypeError, Obj.toFloat, hm, he, if_true,
          if_false] at h
        simp at h
      · simp only [hs, SetResult.andThen, EM.setMu, EM.setEpsilon, floatOrTypeError, Obj.toFloat, hm, he,
          if_false, Except.ok.injEq] at h
        subst h
        exact ⟨rfl, rfl⟩
  · simp [hs, SetResult.andThen] at h

/-- Every successful construction yields a synchronised object with the converted arguments as attributes. -/
theorem point_new_spec {rho current location : Obj} {s : Point}
    (h : Point.new mu0 eps0 rho current location = .ok s) :
    Synced mu0 eps0 s ∧ rho.toFloat = .ok s.rho ∧ current.toFloat = .ok s.current ∧
      checkLocation (orRow location (row 0 0 0)) = .ok s.location := by
  unfold Point.new at h
  cases hp : Source.new mu0 eps0 rho with
  | error e => simp [hp] at h
  | ok p =>
    simp only [hp] at h
    have hem : p.em.mu = .fin mu0 ∧ p.em.epsilon = .fin eps0 := by
      unfold Source.new at hp
      split at hp
      · simp at hp
      · split at hp
        · simp at hp
        · rename_i em hem
          simp only [Except.ok.injEq] at hp
          subst hp
          exact em_new_mu_eps hem
    cases hc : current.toFloat with
    | error e =>
      have : ∃ e', floatOrTypeError current = .error e' := ⟨_, by simp [floatOrTypeError, hc]; rfl⟩
      obtain ⟨e', he⟩ := this
      simp [Point.setCurrent, he, SetResult.andThen] at h
    | ok c =>
      rw [point_setCurrent_ok _ hc] at h
      simp only [SetResult.andThen] at h
      cases hr : rho.toFloat with
      | error e =>
        have : ∃ e', floatOrTypeError rho = .error e' := ⟨_, by simp [floatOrTypeError, hr]; rfl⟩
        obtain ⟨e', he⟩ := this
        simp [Point.setRho, he] at h
      | ok x =>
        by_cases hx : x ≤ .fin 0
        · simp [Point.setRho, floatOrTypeError_ok.2 hr, hx] at h
        · by_cases hinf : x = .pinf
          · subst hinf
            simp [Point.setRho, floatOrTypeError_ok.2 hr, Source.setRho, em_setRho_pinf, SetResult.andThen] at h
          · rw [point_setRho_ok _ hr hx hinf] at h
            simp only at h
            cases hl : checkLocation (orRow location (row 0 0 0)) with
            | error e => simp [Point.setLocation, hl] at h
            | ok a =>
              by_cases h3 : a.shape = [3]
              · rw [point_setLocation_ok _ hl h3] at h
                simp only [Except.ok.injEq] at h
                subst h
                have hz : ¬ a.get [2] > .fin 0 := by
                  have h1 : a.ndim = 1 := by simp [NArr.ndim, h3]
                  obtain ⟨b, hb, hab, _⟩ := checkLocation_ok hl
                  have hat : (orRow location (row 0 0 0)).atleast1dFloat = .ok a := by
                    simp only [Obj.atleast1dFloat, hb]; rw [hab]
                  have hat' : Obj.atleast1dFloat (.ndarray a) = .ok a := by
                    simp [Obj.atleast1dFloat, Obj.asFloatArray, h3]
                  have heq : checkLocation (.ndarray a) = checkLocation (orRow location (row 0 0 0)) := by
                    simp only [checkLocation, hat, hat']
                  exact ((checkLocation_vector a h1).1.1 (heq.trans hl)).2
                rcases p with ⟨⟨sig, mu, eps⟩, pc, pn⟩
                simp only at hem
                obtain ⟨rfl, rfl⟩ := hem
                exact ⟨⟨h3, hz, hx, hinf, rfl, rfl⟩, rfl, rfl, rfl⟩
              · have hsrc : ∀ q : Source, (q.setLocation (.ndarray a)).2 ≠ none := by
                  intro q
                  simp only [Source.setLocation]
                  split
                  · simp
                  · rename_i b hb
                    obtain ⟨c, _, hac, hlen⟩ := checkLocation_ok hl
                    have hane : a.shape ≠ [] := by
                      intro h0; simp [len, h0] at hlen
                    simp only [Obj.atleast1dFloat, Obj.asFloatArray, hane, if_false, Except.ok.injEq] at hb
                    subst hb
                    simp [hlen, h3]
                simp only [Point.setLocation, hl, SetResult.andThen] at h
                rcases hq : (Source.setLocation
                  { em := { p.em with sigma := npDiv (.fin 1) x }, current := c, node := p.node } (.ndarray a)) with
                  ⟨q, _ | e⟩
                · exact absurd (by rw [hq]) (hsrc _)
                · simp [hq] at h

/-- A synchronised object is the one built anew from its readable attributes. -/
theorem synced_eq_fresh (hmu : 0 < mu0) (heps : 0 ≤ eps0) {s : Point} (hs : Synced mu0 eps0 s) :
    Point.new mu0 eps0 (.num s.rho) (.num s.current) (.ndarray s.location) = .ok s := by
  obtain ⟨h1, h2⟩ := inv_ok hs.rhoPos hs.rhoFin
  have hinv : invObj (.num s.rho) = .ok (.num (npDiv (.fin 1) s.rho)) := by simp only [invObj, h1]
  have hsrc : Source.new mu0 eps0 (.num s.rho) =
      .ok ⟨⟨npDiv (.fin 1) s.rho, .fin mu0, .fin eps0⟩, .fin 1, ⟨.fin 0, .fin 0, .fin 0⟩⟩ := by
    simp only [Source.new, hinv, em_new_ok h2 hmu heps]
  have hchk : checkLocation (.ndarray s.location) = .ok s.location :=
    (checkLocation_vector s.location (by simp [NArr.ndim, hs.shape])).1.2 ⟨hs.shape, hs.below⟩
  simp only [Point.new, hsrc]
  rw [point_setCurrent_ok _ (x := s.current) rfl]
  simp only [SetResult.andThen]
  rw [point_setRho_ok _ (x := s.rho) rfl hs.rhoPos hs.rhoFin]
  simp only [orRow]
  rw [point_setLocation_ok _ hchk hs.shape]
  simp only [Except.ok.injEq]
  rcases s with ⟨c, r, l, p, i⟩
  have hp := hs.primary
  have hi := hs.image
  simp only at hp hi
  rw [hp, hi]

/-- After any construction and any history of assignments, rejected ones included, that never assigns an infinite resistivity
or a location with several axes, building anew from `rho`, `current` and `location` gives the very same object.  Missing
from the full statement: those two assignments (`point_rho_inf_desynchronises`,
`point_location_column_desynchronises`). -/
theorem point_history_fresh_partial (hmu : 0 < mu0) (heps : 0 ≤ eps0) {rho current location : Obj} {s : Point}
    (h : Point.new mu0 eps0 rho current location = .ok s) (ops : List Point.Op) (ho : ∀ o ∈ ops, o.Ordinary) :
    let t := runOps Point.step s ops
    Point.new mu0 eps0 (.num t.rho) (.num t.current) (.ndarray t.location) = .ok t := by
  have h0 := (point_new_spec h).1
  clear h
  refine synced_eq_fresh hmu heps ?_
  induction ops generalizing s with
  | nil => exact h0
  | cons o ops ih =>
    exact ih (fun o' ho' => ho o' (List.mem_cons_of_mem _ ho')) (synced_step h0 o (ho o List.mem_cons_self))

/-- A rejected ordinary assignment changes nothing, and an accepted one reads back: `current` and `rho` the converted number,
`location` the converted array. -/
theorem point_assignment (s : Point) (o : Point.Op) (ho : o.Ordinary) :
    (∀ e, (s.step o).2 = some e → (s.step o).1 = s) ∧
    ((s.step o).2 = none →
      match o with
      | .current v => v.toFloat = .ok (s.step o).1.current ∧ (s.step o).1.rho = s.rho ∧
          (s.step o).1.location = s.location
      | .rho v => v.toFloat = .ok (s.step o).1.rho ∧ (s.step o).1.current = s.current ∧
          (s.step o).1.location = s.location
      | .location v => v.atleast1dFloat = .ok (s.step o).1.location ∧ (s.step o).1.current = s.current ∧
          (s.step o).1.rho = s.rho) := by
  cases o with
  | current v =>
    cases hv : v.toFloat with
    | error e =>
      have : ∃ e', floatOrTypeError v = .error e' := ⟨_, by simp [floatOrTypeError, hv]; rfl⟩
      obtain ⟨e', he⟩ := this
      simp [Point.step, Point.setCurrent, he]
    | ok x => simp [Point.step, point_setCurrent_ok s hv, hv]
  | rho v =>
    cases hv : v.toFloat with
    | error e =>
      have : ∃ e', floatOrTypeError v = .error e' := ⟨_, by simp [floatOrTypeError, hv]; rfl⟩
      obtain ⟨e', he⟩ := this
      simp [Point.step, Point.setRho, he]
    | ok x =>
      by_cases hx : x ≤ .fin 0
      · simp [Point.step, Point.setRho, floatOrTypeError_ok.2 hv, hx]
      · simp [Point.step, point_setRho_ok s hv hx (ho x hv), hv]
  | location v =>
    cases hv : checkLocation v with
    | error e => simp [Point.step, Point.setLocation, hv]
    | ok a =>
      obtain ⟨h3, hz⟩ := checkLocation_triple hv ho
      obtain ⟨b, hb, hab, _⟩ := checkLocation_ok hv
      have hat : v.atleast1dFloat = .ok a := by simp only [Obj.atleast1dFloat, hb]; rw [hab]
      simp [Point.step, point_setLocation_ok s hv h3, hat]

omit [FloatGrammar] in
/-- The attributes of a synchronised object with finite values are exactly those the field formulas of
`Verif.Model.StaticHalfspace` start from: its constructor accepts them and builds sources with the same conductivity,
current and position. -/
theorem synced_matches_field_model (s : Point) (hs : Synced mu0 eps0 s) (r c x y z : ℝ)
    (hr : s.rho = .fin r) (hc : s.current = .fin c) (hx : s.location.get [0] = .fin x)
    (hy : s.location.get [1] = .fin y) (hz : s.location.get [2] = .fin z) :
    ∃ p, Static.PointHalf.new mu0 r c ⟨x, y, z⟩ = .ok p ∧ p.rho = r ∧ p.current = c ∧ p.location = ⟨x, y, z⟩ ∧
      s.primary.em.sigma = .fin p.primary.sigma ∧ s.image.em.sigma = .fin p.image.sigma ∧
      s.primary.current = .fin p.primary.current ∧ s.image.current = .fin p.image.current ∧
      (∃ q, p.primary.nodes = [q] ∧ s.primary.node = ⟨.fin q.x, .fin q.y, .fin q.z⟩) ∧
      (∃ q, p.image.nodes = [q] ∧ s.image.node = ⟨.fin q.x, .fin q.y, .fin q.z⟩) := by
  have hrpos : 0 < r := by
    have := hs.rhoPos
    rw [hr] at this
    simpa using this
  have hz' : ¬ z > 0 := by
    have := hs.below
    rw [hz] at this
    simpa using this
  have hinv : ¬ 1 / r ≤ 0 := not_le.2 (by positivity)
  refine ⟨⟨r, c, ⟨x, y, z⟩, Static.pointCurrent mu0 r c ⟨x, y, z⟩,
    Static.pointCurrent mu0 r c (Static.mirror ⟨x, y, z⟩)⟩, ?_, rfl, rfl, rfl, ?_, ?_, ?_, ?_, ?_, ?_⟩
  · simp only [Static.PointHalf.new, hrpos.ne', if_false, hinv, hz']
  · simp only [hs.primary, hr, npDiv_fin hrpos.ne', Static.pointCurrent]
  · simp only [hs.image, hr, npDiv_fin hrpos.ne', Static.pointCurrent]
  · simp only [hs.primary, hc, Static.pointCurrent]
  · simp only [hs.image, hc, Static.pointCurrent]
  · exact ⟨_, rfl, by simp only [hs.primary, hx, hy, hz]⟩
  · exact ⟨_, rfl, by simp only [hs.image, hx, hy, hz, Static.mirror, neg_fin]⟩

/-- A point source that can be constructed. -/
theorem point_unit_constructed :
    Point.new 1 1 (.num (.fin 1)) (.num (.fin 1)) (.ndarray (row 0 0 0)) = .ok Point.unit := by
  have h1 : npDiv (.fin 1) (.fin 1) = .fin 1 := by rw [npDiv_fin one_ne_zero]; norm_num
  have hn : -PyFloat.fin 0 = .fin 0 := by rw [neg_fin]; norm_num
  have hs : Synced 1 1 Point.unit := by
    refine ⟨rfl, ?_, ?_, ?_, ?_, ?_⟩
    · simp [Point.unit, row, NArr.ofList]
    · simp [Point.unit]
    · simp [Point.unit]
    · simp [Point.unit, h1, Source.unit, EM.unit, row, NArr.ofList]
    · simp [Point.unit, h1, Source.unit, EM.unit, row, NArr.ofList, hn]
  simpa [Point.unit] using synced_eq_fresh (by norm_num) (by norm_num) hs

/-! ## The dipole -/

/-- Both point sources agree with the dipole's attributes. -/
structure DipoleSynced (mu0 eps0 : ℝ) (s : Dipole) : Prop where
  a : Synced mu0 eps0 s.a
  b : Synced mu0 eps0 s.b
  rhoA : s.a.rho = s.rho
  rhoB : s.b.rho = s.rho
  currentA : s.a.current = s.current
  currentB : s.b.current = s.current
  locationA : s.a.location = s.locationA
  locationB : s.b.location = s.locationB

/-- An assignment other than an infinite resistivity or a location with several axes. -/
def Dipole.Op.Ordinary : Dipole.Op → Prop
  | .current _ => True
  | .rho v => ∀ x, v.toFloat = .ok x → x ≠ .pinf
  | .locationA v => ∀ a, v.asFloatArray = .ok a → a.ndim ≤ 1
  | .locationB v => ∀ a, v.asFloatArray = .ok a → a.ndim ≤ 1

theorem dipole_setCurrent_ok (s : Dipole) {v : Obj} {x : PyFloat} (hv : v.toFloat = .ok x) :
    s.setCurrent v = ({ s with
      current := x
      a := (s.a.setCurrent (.num x)).1
      b := (s.b.setCurrent (.num x)).1 }, none) := by
  simp only [Dipole.setCurrent, floatOrTypeError_ok.2 hv]
  simp only [point_setCurrent_ok _ (v := .num x) rfl, SetResult.andThen]

theorem dipole_setRho_ok (s : Dipole) {v : Obj} {x : PyFloat} (hv : v.toFloat = .ok x) (h : ¬ x ≤ .fin 0)
    (h' : x ≠ .pinf) :
    s.setRho v = ({ s with
      rho := x
      a := (s.a.setRho (.num x)).1
      b := (s.b.setRho (.num x)).1 }, none) := by
  simp only [Dipole.setRho, floatOrTypeError_ok.2 hv, h, if_false]
  simp only [point_setRho_ok _ (v := .num x) rfl h h', SetResult.andThen]

theorem checkLocation_idem {a : NArr PyFloat} {v : Obj} (h : checkLocation v = .ok a) :
    checkLocation (.ndarray a) = .ok a := by
  obtain ⟨b, hb, hab, hlen⟩ := checkLocation_ok h
  have hne : a.shape ≠ [] := by intro h0; simp [len, h0] at hlen
  have hat : v.atleast1dFloat = .ok a := by simp only [Obj.atleast1dFloat, hb]; rw [hab]
  have hat' : Obj.atleast1dFloat (.ndarray a) = .ok a := by simp [Obj.atleast1dFloat, Obj.asFloatArray, hne]
  rw [← h]
  simp only [checkLocation, hat, hat']

theorem dipole_setLocationA_ok (s : Dipole) {v : Obj} {a : NArr PyFloat} (hv : checkLocation v = .ok a)
    (h : a.shape = [3]) :
    s.setLocationA v = ({ s with locationA := a, a := (s.a.setLocation (.ndarray a)).1 }, none) := by
  simp only [Dipole.setLocationA, hv, point_setLocation_ok s.a (checkLocation_idem hv) h]

theorem dipole_setLocationB_ok (s : Dipole) {v : Obj} {a : NArr PyFloat} (hv : checkLocation v = .ok a)
    (h : a.shape = [3]) :
    s.setLocationB v = ({ s with locationB := a, b := (s.b.setLocation (.ndarray a)).1 }, none) := by
  simp only [Dipole.setLocationB, hv, point_setLocation_ok s.b (checkLocation_idem hv) h]

theorem dipoleSynced_step {s : Dipole} (hs : DipoleSynced mu0 eps0 s) (o : Dipole.Op) (ho : o.Ordinary) :
    DipoleSynced mu0 eps0 (s.step o).1 := by
  cases o with
  | current v =>
    cases hv : v.toFloat with
    | error e =>
      have : ∃ e', floatOrTypeError v = .error e' := ⟨_, by simp [floatOrTypeError, hv]; rfl⟩
      obtain ⟨e', he⟩ := this
      simpa [Dipole.step, Dipole.setCurrent, he] using hs
    | ok x =>
      simp only [Dipole.step, dipole_setCurrent_ok s hv]
      refine ⟨synced_setCurrent hs.a _, synced_setCurrent hs.b _, ?_, ?_, ?_, ?_, ?_, ?_⟩ <;>
        simp only [point_setCurrent_ok _ (v := .num x) rfl]
      exacts [hs.rhoA, hs.rhoB, hs.locationA, hs.locationB]
  | rho v =>
    cases hv : v.toFloat with
    | error e =>
      have : ∃ e', floatOrTypeError v = .error e' := ⟨_, by simp [floatOrTypeError, hv]; rfl⟩
      obtain ⟨e', he⟩ := this
      simpa [Dipole.step, Dipole.setRho, he] using hs
    | ok x =>
      by_cases hx : x ≤ .fin 0
      · simpa [Dipole.step, Dipole.setRho, floatOrTypeError_ok.2 hv, hx] using hs
      · have hinf := ho x hv
        have hnum : ∀ y, (Obj.num x).toFloat = .ok y → y ≠ .pinf := by
          intro y hy
          simp only [Obj.toFloat, Except.ok.injEq] at hy
          exact hy ▸ hinf
        simp only [Dipole.step, dipole_setRho_ok s hv hx hinf]
        refine ⟨synced_setRho hs.a _ hnum, synced_setRho hs.b _ hnum, ?_, ?_, ?_, ?_, ?_, ?_⟩ <;>
          simp only [point_setRho_ok _ (v := .num x) rfl hx hinf]
        exacts [hs.currentA, hs.currentB, hs.locationA, hs.locationB]
  | locationA v =>
    cases hv : checkLocation v with
    | error e => simpa [Dipole.step, Dipole.setLocationA, hv] using hs
    | ok a =>
      obtain ⟨h3, _⟩ := checkLocation_triple hv ho
      have hnd : ∀ b, (Obj.ndarray a).asFloatArray = .ok b → b.ndim ≤ 1 := by
        intro b hb
        simp only [Obj.asFloatArray, Except.ok.injEq] at hb
        subst hb
        simp [NArr.ndim, h3]
      simp only [Dipole.step, dipole_setLocationA_ok s hv h3]
      refine ⟨synced_setLocation hs.a _ hnd, hs.b, ?_, hs.rhoB, ?_, hs.currentB, ?_, hs.locationB⟩ <;>
        simp only [point_setLocation_ok _ (checkLocation_idem hv) h3]
      exacts [hs.rhoA, hs.currentA]
  | locationB v =>
    cases hv : checkLocation v with
    | error e => simpa [Dipole.step, Dipole.setLocationB, hv] using hs
    | ok a =>
      obtain ⟨h3, _⟩ := checkLocation_triple hv ho
      have hnd : ∀ b, (Obj.ndarray a).asFloatArray = .ok b → b.ndim ≤ 1 := by
        intro b hb
        simp only [Obj.asFloatArray, Except.ok.injEq] at hb
        subst hb
        simp [NArr.ndim, h3]
      simp only [Dipole.step, dipole_setLocationB_ok s hv h3]
      refine ⟨hs.a, synced_setLocation hs.b _ hnd, hs.rhoA, ?_, hs.currentA, ?_, hs.locationA, ?_⟩ <;>
        simp only [point_setLocation_ok _ (checkLocation_idem hv) h3]
      exacts [hs.rhoB, hs.currentB]

/-- A synchronised dipole is the one built anew from its readable attributes. -/
theorem dipoleSynced_eq_fresh (hmu : 0 < mu0) (heps : 0 ≤ eps0) {s : Dipole} (hs : DipoleSynced mu0 eps0 s) :
    Dipole.new mu0 eps0 (.num s.rho) (.ndarray s.locationA) (.ndarray s.locationB) (.num s.current) = .ok s := by
  have hrho : ¬ s.rho ≤ .fin 0 := hs.rhoA ▸ hs.a.rhoPos
  have hinf : s.rho ≠ .pinf := hs.rhoA ▸ hs.a.rhoFin
  have hnew : ∀ (l : NArr PyFloat), l.shape = [3] → ¬ l.get [2] > .fin 0 →
      Point.new mu0 eps0 (.num s.rho) (.num (.fin 1)) (.ndarray l) = .ok ⟨.fin 1, s.rho, l,
        ⟨⟨npDiv (.fin 1) s.rho, .fin mu0, .fin eps0⟩, .fin 1, ⟨l.get [0], l.get [1], l.get [2]⟩⟩,
        ⟨⟨npDiv (.fin 1) s.rho, .fin mu0, .fin eps0⟩, .fin 1, ⟨l.get [0], l.get [1], -l.get [2]⟩⟩⟩ := by
    intro l h3 hz
    exact synced_eq_fresh hmu heps (s := ⟨.fin 1, s.rho, l, _, _⟩) ⟨h3, hz, hrho, hinf, rfl, rfl⟩
  have ha3 : s.locationA.shape = [3] := hs.locationA ▸ hs.a.shape
  have hb3 : s.locationB.shape = [3] := hs.locationB ▸ hs.b.shape
  have haz : ¬ s.locationA.get [2] > .fin 0 := hs.locationA ▸ hs.a.below
  have hbz : ¬ s.locationB.get [2] > .fin 0 := hs.locationB ▸ hs.b.below
  have hca : checkLocation (.ndarray s.locationA) = .ok s.locationA :=
    (checkLocation_vector _ (by simp [NArr.ndim, ha3])).1.2 ⟨ha3, haz⟩
  have hcb : checkLocation (.ndarray s.locationB) = .ok s.locationB :=
    (checkLocation_vector _ (by simp [NArr.ndim, hb3])).1.2 ⟨hb3, hbz⟩
  simp only [Dipole.new, hnew _ ha3 haz, hnew _ hb3 hbz]
  rw [dipole_setCurrent_ok _ (x := s.current) rfl]
  simp only [SetResult.andThen]
  rw [dipole_setRho_ok _ (x := s.rho) rfl hrho hinf]
  simp only [orRow]
  rw [dipole_setLocationA_ok _ hca ha3]
  simp only
  rw [dipole_setLocationB_ok _ hcb hb3]
  simp only [Except.ok.injEq]
  rw [point_setCurrent_ok _ (x := s.current) rfl, point_setCurrent_ok _ (x := s.current) rfl]
  simp only
  rw [point_setRho_ok _ (x := s.rho) rfl hrho hinf, point_setRho_ok _ (x := s.rho) rfl hrho hinf]
  simp only
  rw [point_setLocation_ok _ hca ha3, point_setLocation_ok _ hcb hb3]
  rcases s with ⟨c, r, la, lb, ⟨ac, ar, al, ap, ai⟩, ⟨bc, br, bl, bp, bi⟩⟩
  have h1 := hs.a.primary
  have h2 := hs.a.image
  have h3 := hs.b.primary
  have h4 := hs.b.image
  have h5 := hs.rhoA
  have h6 := hs.rhoB
  have h7 := hs.currentA
  have h8 := hs.currentB
  have h9 := hs.locationA
  have h10 := hs.locationB
  simp only at h1 h2 h3 h4 h5 h6 h7 h8 h9 h10
  subst h5 h6 h7 h8 h9 h10
  rw [h1, h2, h3, h4]

omit [FloatGrammar] in
theorem orRow_shape (v : Obj) (d d' : NArr PyFloat) : orRow v d = orRow v d' ∨ orRow v d = .ndarray d := by
  cases v <;> simp [orRow]

/-- Every successful construction of a dipole yields sources that agree with its attributes. -/
theorem dipole_new_spec {rho current locationA locationB : Obj} {s : Dipole}
    (h : Dipole.new mu0 eps0 rho locationA locationB current = .ok s) :
    DipoleSynced mu0 eps0 s ∧ rho.toFloat = .ok s.rho ∧ current.toFloat = .ok s.current ∧
      checkLocation (orRow locationA (row (-1) 0 0)) = .ok s.locationA ∧
      checkLocation (orRow locationB (row 1 0 0)) = .ok s.locationB := by
  unfold Dipole.new at h
  cases hA : Point.new mu0 eps0 rho (.num (.fin 1)) locationA with
  | error e => simp [hA] at h
  | ok a =>
    cases hB : Point.new mu0 eps0 rho (.num (.fin 1)) locationB with
    | error e => simp [hA, hB] at h
    | ok b =>
      simp only [hA, hB] at h
      obtain ⟨sa, ra, ca, la⟩ := point_new_spec hA
      obtain ⟨sb, rb, cb, lb⟩ := point_new_spec hB
      cases hc : current.toFloat with
      | error e =>
        have : ∃ e', floatOrTypeError current = .error e' := ⟨_, by simp [floatOrTypeError, hc]; rfl⟩
        obtain ⟨e', he⟩ := this
        simp [Dipole.setCurrent, he, SetResult.andThen] at h
      | ok c =>
        rw [dipole_setCurrent_ok _ hc] at h
        simp only [SetResult.andThen] at h
        rw [dipole_setRho_ok _ ra sa.rhoPos sa.rhoFin] at h
        simp only at h
        have row3 : ∀ x, checkLocation (.ndarray (row x 0 0)) = .ok (row x 0 0) := fun x =>
          (checkLocation_vector _ rfl).1.2 ⟨rfl, by simp [row, NArr.ofList]⟩
        have key : ∀ (v : Obj) (x : ℝ) (l : NArr PyFloat), checkLocation (orRow v (row 0 0 0)) = .ok l →
            l.shape = [3] → ∃ l', checkLocation (orRow v (row x 0 0)) = .ok l' ∧ l'.shape = [3] ∧
              ¬ l'.get [2] > .fin 0 := by
          intro v x l hl h3
          rcases orRow_shape v (row x 0 0) (row 0 0 0) with hh | hh
          · rw [hh]
            refine ⟨l, hl, h3, ?_⟩
            exact ((checkLocation_vector l (by simp [NArr.ndim, h3])).1.1 (checkLocation_idem hl)).2
          · rw [hh]
            exact ⟨_, row3 x, rfl, by simp [row, NArr.ofList]⟩
        obtain ⟨l1, hl1, h31, hz1⟩ := key locationA (-1) _ la sa.shape
        obtain ⟨l2, hl2, h32, hz2⟩ := key locationB 1 _ lb sb.shape
        rw [dipole_setLocationA_ok _ hl1 h31] at h
        simp only at h
        rw [dipole_setLocationB_ok _ hl2 h32] at h
        simp only [Except.ok.injEq] at h
        subst h
        have hr : b.rho = a.rho := by rw [ra] at rb; exact (Except.ok.inj rb).symm
        have hnum : ∀ y, (Obj.num a.rho).toFloat = .ok y → y ≠ .pinf := by
          intro y hy
          simp only [Obj.toFloat, Except.ok.injEq] at hy
          exact hy ▸ sa.rhoFin
        have hnd : ∀ l : NArr PyFloat, l.shape = [3] → ∀ b, (Obj.ndarray l).asFloatArray = .ok b → b.ndim ≤ 1 := by
          intro l h3 b hb
          simp only [Obj.asFloatArray, Except.ok.injEq] at hb
          subst hb
          simp [NArr.ndim, h3]
        refine ⟨⟨synced_setLocation (synced_setRho (synced_setCurrent sa _) _ hnum) _ (hnd _ h31),
          synced_setLocation (synced_setRho (synced_setCurrent sb _) _ hnum) _ (hnd _ h32), ?_, ?_, ?_, ?_, ?_, ?_⟩,
          ra, rfl, hl1, hl2⟩ <;>
        simp only [point_setCurrent_ok _ (v := .num c) rfl,
          point_setRho_ok _ (v := .num a.rho) rfl sa.rhoPos sa.rhoFin,
          point_setLocation_ok _ (checkLocation_idem hl1) h31, point_setLocation_ok _ (checkLocation_idem hl2) h32]

/-- The same for the dipole: after any construction and any ordinary history, building anew from the readable attributes
gives the very same object.  Missing: infinite resistivities and locations with several axes
(`dipole_rho_inf_desynchronises`). -/
theorem dipole_history_fresh_partial (hmu : 0 < mu0) (heps : 0 ≤ eps0) {rho current locationA locationB : Obj}
    {s : Dipole} (hnew : Dipole.new mu0 eps0 rho locationA locationB current = .ok s)
    (ops : List Dipole.Op) (ho : ∀ o ∈ ops, o.Ordinary) :
    let t := runOps Dipole.step s ops
    Dipole.new mu0 eps0 (.num t.rho) (.ndarray t.locationA) (.ndarray t.locationB) (.num t.current) = .ok t := by
  have h := (dipole_new_spec hnew).1
  clear hnew
  refine dipoleSynced_eq_fresh hmu heps ?_
  induction ops generalizing s with
  | nil => exact h
  | cons o ops ih =>
    exact ih (fun o' ho' => ho o' (List.mem_cons_of_mem _ ho')) (dipoleSynced_step h o (ho o List.mem_cons_self))

/-- **C33 fails for the dipole**: a rejected infinite resistivity leaves `rho` reading infinity on the dipole while its second
source still has the old one. -/
theorem dipole_rho_inf_desynchronises (s : Dipole) :
    let r := s.step (.rho (.num .pinf))
    r.2 = some .valueError ∧ r.1.rho = .pinf ∧ r.1.b = s.b := by
  have h : s.a.setRho (.num .pinf) = ({ s.a with rho := .pinf }, some .valueError) := by
    simp [Point.setRho, floatOrTypeError, Obj.toFloat, Source.setRho, em_setRho_pinf, SetResult.andThen]
  have : s.step (.rho (.num .pinf)) = ({ s with rho := .pinf, a := { s.a with rho := .pinf } }, some .valueError) := by
    simp [Dipole.step, Dipole.setRho, floatOrTypeError, Obj.toFloat, h, SetResult.andThen]
  rw [this]
  exact ⟨rfl, rfl, rfl⟩

/-- A rejected ordinary assignment to a dipole changes nothing. -/
theorem dipole_rejected_unchanged (s : Dipole) (o : Dipole.Op) (ho : o.Ordinary) (e : PyErr)
    (h : (s.step o).2 = some e) : (s.step o).1 = s := by
  cases o with
  | current v =>
    cases hv : v.toFloat with
    | error e =>
      have : ∃ e', floatOrTypeError v = .error e' := ⟨_, by simp [floatOrTypeError, hv]; rfl⟩
      obtain ⟨e', he⟩ := this
      simp [Dipole.step, Dipole.setCurrent, he]
    | ok x => simp [Dipole.step, dipole_setCurrent_ok s hv] at h
  | rho v =>
    cases hv : v.toFloat with
    | error e =>
      have : ∃ e', floatOrTypeError v = .error e' := ⟨_, by simp [floatOrTypeError, hv]; rfl⟩
      obtain ⟨e', he⟩ := this
      simp [Dipole.step, Dipole.setRho, he]
    | ok x =>
      by_cases hx : x ≤ .fin 0
      · simp [Dipole.step, Dipole.setRho, floatOrTypeError_ok.2 hv, hx]
      · simp [Dipole.step, dipole_setRho_ok s hv hx (ho x hv)] at h
  | locationA v =>
    cases hv : checkLocation v with
    | error e => simp [Dipole.step, Dipole.setLocationA, hv]
    | ok a =>
      obtain ⟨h3, _⟩ := checkLocation_triple hv ho
      simp [Dipole.step, dipole_setLocationA_ok s hv h3] at h
  | locationB v =>
    cases hv : checkLocation v with
    | error e => simp [Dipole.step, Dipole.setLocationB, hv]
    | ok a =>
      obtain ⟨h3, _⟩ := checkLocation_triple hv ho
      simp [Dipole.step, dipole_setLocationB_ok s hv h3] at h

/-- A dipole that can be constructed: the default electrodes. -/
example : ∃ s, Dipole.new 1 1 (.num (.fin 1)) .none .none (.num (.fin 1)) = .ok s := by
  have row3 : ∀ x, checkLocation (.ndarray (row x 0 0)) = .ok (row x 0 0) := fun x =>
    (checkLocation_vector _ rfl).1.2 ⟨rfl, by simp [row, NArr.ofList]⟩
  have h := point_unit_constructed
  have h' : Point.new 1 1 (.num (.fin 1)) (.num (.fin 1)) .none = .ok Point.unit := h
  have hx : ¬ PyFloat.fin 1 ≤ .fin 0 := by simp
  simp only [Dipole.new, h']
  rw [dipole_setCurrent_ok _ (x := .fin 1) rfl]
  simp only [SetResult.andThen]
  rw [dipole_setRho_ok _ (x := .fin 1) rfl hx (by simp)]
  simp only [orRow]
  rw [dipole_setLocationA_ok _ (row3 (-1)) rfl]
  simp only
  rw [dipole_setLocationB_ok _ (row3 1) rfl]
  exact ⟨_, rfl⟩

end Verif.HalfspaceState
