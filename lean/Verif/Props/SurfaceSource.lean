import Verif.Model.SurfaceSource
import Verif.Model.FdemHalfspace
import Verif.Props.WaveSetters
import Verif.Props.VectorSetters

/-!
# C114: dipoles that must stand on, or not below, the ground
-/

namespace Verif.SurfaceSource

open Classical Verif.Setters PyFloat

variable [FloatGrammar]

/-- The height that an assignment of a location asks for is `P`; other assignments are not concerned. -/
def Heights (P : PyFloat → Prop) : MagDipole.Op → Prop
  | .location v => ∀ w, vec3 v = .ok w → P w.z
  | _ => True

theorem dipole_height {P : PyFloat → Prop} {s : MagDipole} (hs : P s.location.z) {o : MagDipole.Op} (ho : Heights P o) :
    P (s.step o).1.location.z := by
  cases o with
  | moment v => simp only [MagDipole.step, MagDipole.setMoment]; split <;> exact hs
  | orientation v => simp only [MagDipole.step, MagDipole.setOrientation]; split <;> exact hs
  | location v =>
    simp only [MagDipole.step, MagDipole.setLocation]
    cases h : vec3 v with
    | error e => exact hs
    | ok w => exact ho w h

/-- **C114.** A magnetic dipole is made exactly when its three arguments are accepted, in which case they are what it holds. -/
theorem MagDipole.new_ok (moment location orientation : Obj) (d : MagDipole) :
    MagDipole.new moment location orientation = .ok d ↔
      moment.toFloat = .ok d.moment ∧ vec3 location = .ok d.location ∧ dipoleOrientation orientation = .ok d.orientation := by
  unfold MagDipole.new MagDipole.setMoment floatOrTypeError
  obtain ⟨m, l, o⟩ := d
  cases hm : moment.toFloat with
  | error e => simp [SetResult.andThen]
  | ok x =>
    cases hl : vec3 location with
    | error e => simp [SetResult.andThen, MagDipole.setLocation, hl]
    | ok w =>
      cases ho : dipoleOrientation orientation with
      | error e => simp [SetResult.andThen, MagDipole.setLocation, MagDipole.setOrientation, hl, ho]
      | ok u => simp [SetResult.andThen, MagDipole.setLocation, MagDipole.setOrientation, hl, ho]

/-- **C114.** An assignment to a magnetic dipole changes only the attribute assigned, to the value converted, and a refused assignment
changes nothing. -/
theorem MagDipole.assignment (s t : MagDipole) (v : Obj) :
    (s.step (.moment v) = (t, none) ↔ v.toFloat = .ok t.moment ∧ t.location = s.location ∧ t.orientation = s.orientation) ∧
    (s.step (.location v) = (t, none) ↔ vec3 v = .ok t.location ∧ t.moment = s.moment ∧ t.orientation = s.orientation) ∧
    (s.step (.orientation v) = (t, none) ↔ dipoleOrientation v = .ok t.orientation ∧ t.moment = s.moment ∧ t.location = s.location) := by
  obtain ⟨m, l, o⟩ := t
  obtain ⟨m', l', o'⟩ := s
  refine ⟨?_, ?_, ?_⟩
  · simp only [MagDipole.step, MagDipole.setMoment, floatOrTypeError]
    cases h : v.toFloat <;> simp
    grind
  · simp only [MagDipole.step, MagDipole.setLocation]
    cases h : vec3 v <;> simp
    grind
  · simp only [MagDipole.step, MagDipole.setOrientation]
    cases h : dipoleOrientation v <;> simp
    grind

/-- **C114.** A refused assignment changes nothing. -/
theorem MagDipole.rejected_unchanged (s : MagDipole) (o : MagDipole.Op) (e : PyErr) (h : (s.step o).2 = some e) : (s.step o).1 = s := by
  cases o <;>
    simp only [MagDipole.step, MagDipole.setMoment, MagDipole.setLocation, MagDipole.setOrientation] at h ⊢ <;>
    split <;> simp_all

/-- **C114.** An assignment to a dipole on a half-space or over layers changes the attribute assigned and nothing else: frequencies and the
quasi-static flag are stored as converted, the properties of the ground and the dipole by their own setters. -/
theorem OnGround.assignment (s t : OnGround) (v : Obj) (q : Flag) (o : EM.Op) (d : MagDipole.Op) :
    (s.step (.frequency v) = (t, none) ↔ sampleArray v = .ok t.frequency ∧ t.quasistatic = s.quasistatic ∧ t.em = s.em ∧ t.dipole = s.dipole) ∧
    s.step (.quasistatic q) = (⟨s.frequency, q, s.em, s.dipole⟩, none) ∧
    s.step (.em o) = (⟨s.frequency, s.quasistatic, (s.em.step o).1, s.dipole⟩, (s.em.step o).2) ∧
    s.step (.dipole d) = (⟨s.frequency, s.quasistatic, s.em, (s.dipole.step d).1⟩, (s.dipole.step d).2) := by
  refine ⟨?_, rfl, rfl, rfl⟩
  obtain ⟨f, q, em, d⟩ := t
  obtain ⟨f', q', em', d'⟩ := s
  simp only [OnGround.step]
  cases h : sampleArray v <;> simp
  grind

theorem AboveGround.assignment (mu0 eps0 : ℝ) (s : AboveGround) (o : LayeredState.Op) (d : MagDipole.Op) :
    s.step mu0 eps0 (.layers o) = (⟨(LayeredState.step mu0 eps0 s.layers o).1, s.dipole⟩, (LayeredState.step mu0 eps0 s.layers o).2) ∧
    s.step mu0 eps0 (.dipole d) = (⟨s.layers, (s.dipole.step d).1⟩, (s.dipole.step d).2) :=
  ⟨rfl, rfl⟩

/-- **C114.** The constructor of the dipole on a half-space accepts exactly the acceptable arguments with a location at height zero. -/
theorem OnGround.new_ok (frequency : Obj) (q : Flag) (sigma mu epsilon moment location orientation : Obj) (s : OnGround) :
    OnGround.new frequency q sigma mu epsilon moment location orientation = .ok s ↔
      sampleArray frequency = .ok s.frequency ∧ q = s.quasistatic ∧ EM.new sigma mu epsilon = .ok s.em ∧
        MagDipole.new moment location orientation = .ok s.dipole ∧ s.dipole.location.z = .fin 0 := by
  unfold OnGround.new onGround
  obtain ⟨f, q', em, d⟩ := s
  cases hf : sampleArray frequency with
  | error e => simp
  | ok f' =>
    cases he : EM.new sigma mu epsilon with
    | error e => simp
    | ok em' =>
      cases hd : MagDipole.new moment location orientation with
      | error e => simp
      | ok d' =>
        by_cases hz : d'.location.z = .fin 0
        · simp [hz]; grind
        · simp [hz]; grind

/-- **C114.** Off the ground it is a `ValueError`: what is wrong with the other arguments comes first. -/
theorem OnGround.new_off_ground {frequency sigma mu epsilon moment location orientation : Obj} {q : Flag} {f : NArr PyFloat} {em : EM}
    {d : MagDipole} (hf : sampleArray frequency = .ok f) (he : EM.new sigma mu epsilon = .ok em)
    (hd : MagDipole.new moment location orientation = .ok d) (hz : d.location.z ≠ .fin 0) :
    OnGround.new frequency q sigma mu epsilon moment location orientation = .error .valueError := by
  simp [OnGround.new, onGround, hf, he, hd, hz]

/-- **C114, partial.** The dipole stays on the ground as long as every location assigned to it is on the ground (the assignments themselves
are not checked: `OnGround.leaves`). -/
theorem OnGround.stays_partial {frequency sigma mu epsilon moment location orientation : Obj} {q : Flag} {s : OnGround}
    (h : OnGround.new frequency q sigma mu epsilon moment location orientation = .ok s) (ops : List OnGround.Op)
    (ho : ∀ o, .dipole o ∈ ops → Heights (· = .fin 0) o) : (runOps OnGround.step s ops).dipole.location.z = .fin 0 := by
  have h0 := ((OnGround.new_ok ..).1 h).2.2.2.2
  clear h
  induction ops generalizing s with
  | nil => exact h0
  | cons o ops ih =>
    refine ih (fun o' h' => ho o' (List.mem_cons_of_mem _ h')) ?_
    cases o with
    | frequency v => simp only [OnGround.step]; split <;> exact h0
    | quasistatic v => exact h0
    | em o => exact h0
    | dipole o => exact dipole_height (P := (· = .fin 0)) h0 (ho o (List.mem_cons_self ..))

/-- A row of three numbers. -/
noncomputable def triple (x y z : ℝ) : Obj := .ndarray (.ofList [.fin x, .fin y, .fin z] .nan)

theorem vec3_triple (x y z : ℝ) : vec3 (triple x y z) = .ok ⟨.fin x, .fin y, .fin z⟩ := by
  refine ((vec3_spec _).1 _).2 ⟨_, rfl, 0, 0, rfl, rfl, rfl, rfl⟩

/-- **C114, false of the code.** Any height can be assigned afterwards. -/
theorem OnGround.leaves (s : OnGround) (x y z : ℝ) :
    (s.step (.dipole (.location (triple x y z)))).2 = none ∧
    (s.step (.dipole (.location (triple x y z)))).1.dipole.location = ⟨.fin x, .fin y, .fin z⟩ := by
  simp [OnGround.step, MagDipole.step, MagDipole.setLocation, vec3_triple]

omit [FloatGrammar] in
/-- **C114, false of the code.** A dipole that has left the ground reports the field of a dipole on the ground below it. -/
theorem height_ignored (iv kv : ℕ → ℂ → ℂ) (mu0 : ℝ) (s : Fdem.HalfDipole) (h : ℝ) (p : V3 ℝ) (field : String) :
    ({ s with location := ⟨s.location.x, s.location.y, h⟩ } : Fdem.HalfDipole).magneticField iv kv mu0 p field =
      ({ s with location := ⟨s.location.x, s.location.y, 0⟩ } : Fdem.HalfDipole).magneticField iv kv mu0 p field := rfl

/-- **C114.** The constructor of the dipole over layers accepts exactly the acceptable arguments with a height that is not negative. -/
theorem AboveGround.new_ok (mu0 eps0 : ℝ) (frequency thickness : Obj) (q : Flag) (sigma mu epsilon : LayeredState.CObj)
    (moment location orientation : Obj) (s : AboveGround) :
    AboveGround.new mu0 eps0 frequency thickness q sigma mu epsilon moment location orientation = .ok s ↔
      LayeredState.Layered.new mu0 eps0 frequency thickness q sigma mu epsilon = .ok s.layers ∧
        MagDipole.new moment location orientation = .ok s.dipole ∧ ¬ s.dipole.location.z < .fin 0 := by
  unfold AboveGround.new aboveGround
  obtain ⟨l, d⟩ := s
  cases hf : LayeredState.Layered.new mu0 eps0 frequency thickness q sigma mu epsilon with
  | error e => simp
  | ok l' =>
    cases hd : MagDipole.new moment location orientation with
    | error e => simp
    | ok d' =>
      by_cases hz : d'.location.z < .fin 0
      · simp [hz]; grind
      · simp [hz]; grind

/-- **C114.** Below the ground it is a `ValueError`. -/
theorem AboveGround.new_below {mu0 eps0 : ℝ} {frequency thickness : Obj} {q : Flag} {sigma mu epsilon : LayeredState.CObj}
    {moment location orientation : Obj} {l : LayeredState.Layered} {d : MagDipole}
    (hl : LayeredState.Layered.new mu0 eps0 frequency thickness q sigma mu epsilon = .ok l)
    (hd : MagDipole.new moment location orientation = .ok d) (hz : d.location.z < .fin 0) :
    AboveGround.new mu0 eps0 frequency thickness q sigma mu epsilon moment location orientation = .error .valueError := by
  simp [AboveGround.new, aboveGround, hl, hd, hz]

/-- **C114, partial.** The dipole is never below the ground as long as no location below the ground is assigned to it. -/
theorem AboveGround.stays_partial {mu0 eps0 : ℝ} {frequency thickness : Obj} {q : Flag} {sigma mu epsilon : LayeredState.CObj}
    {moment location orientation : Obj} {s : AboveGround}
    (h : AboveGround.new mu0 eps0 frequency thickness q sigma mu epsilon moment location orientation = .ok s) (ops : List AboveGround.Op)
    (ho : ∀ o, .dipole o ∈ ops → Heights (¬ · < .fin 0) o) :
    ¬ (runOps (AboveGround.step mu0 eps0) s ops).dipole.location.z < .fin 0 := by
  have h0 := ((AboveGround.new_ok ..).1 h).2.2
  clear h
  induction ops generalizing s with
  | nil => exact h0
  | cons o ops ih =>
    refine ih (fun o' h' => ho o' (List.mem_cons_of_mem _ h')) ?_
    cases o with
    | layers o => exact h0
    | dipole o => exact dipole_height (P := (¬ · < .fin 0)) h0 (ho o (List.mem_cons_self ..))

/-- **C114, false of the code.** Any height, also a negative one, can be assigned afterwards. -/
theorem AboveGround.leaves (mu0 eps0 : ℝ) (s : AboveGround) (x y z : ℝ) :
    (s.step mu0 eps0 (.dipole (.location (triple x y z)))).2 = none ∧
    (s.step mu0 eps0 (.dipole (.location (triple x y z)))).1.dipole.location = ⟨.fin x, .fin y, .fin z⟩ := by
  simp [AboveGround.step, MagDipole.step, MagDipole.setLocation, vec3_triple]

omit [FloatGrammar] in
/-- **C114, false of the code.** NaN passes the check of the height over layers (but not the one on the half-space). -/
theorem nan_height (x y : PyFloat) : aboveGround ⟨x, y, .nan⟩ = none ∧ onGround ⟨x, y, .nan⟩ = some .valueError := by
  constructor
  · unfold aboveGround
    rw [if_neg]
    exact fun h => h
  · simp [onGround]

/-- A dipole on the ground and a history that keeps it there. -/
example : ∃ s, OnGround.new (.num (.fin 100)) (.bool false) (.num (.fin 1)) (.num (.fin 1)) (.num (.fin 1)) (.num (.fin 2)) (triple 1 2 0)
    (triple 0 0 1) = .ok s ∧
    (runOps OnGround.step s [.dipole (.location (triple 3 4 0)), .dipole (.moment (.num (.fin 7)))]).dipole.location.z = .fin 0 := by
  have hd : MagDipole.new (.num (.fin 2)) (triple 1 2 0) (triple 0 0 1) =
      .ok ⟨.fin 2, ⟨.fin 1, .fin 2, .fin 0⟩, (⟨.fin 0, .fin 0, .fin 1⟩ : Vec3).normalized⟩ :=
    (MagDipole.new_ok ..).2 ⟨rfl, vec3_triple _ _ _, by
      have h := vec3_triple 0 0 1
      unfold triple at h ⊢
      simp only [dipoleOrientation, h]⟩
  obtain ⟨f, hf⟩ : ∃ f, sampleArray (.num (.fin 100)) = .ok f := by
    refine ⟨⟨[], fun _ => .fin 100⟩, ?_⟩
    simp [sampleArray, Obj.asFloatArray, NArr.ndim, show ¬ (100 : ℝ) < 0 by norm_num]
  have h := (OnGround.new_ok (.num (.fin 100)) (.bool false) (.num (.fin 1)) (.num (.fin 1)) (.num (.fin 1)) (.num (.fin 2)) (triple 1 2 0)
    (triple 0 0 1) ⟨f, .bool false, EM.unit, _⟩).2 ⟨hf, rfl, em_unit_constructed, hd, rfl⟩
  refine ⟨_, h, OnGround.stays_partial h _ ?_⟩
  intro o ho
  simp only [List.mem_cons, OnGround.Op.dipole.injEq, List.not_mem_nil, or_false] at ho
  rcases ho with rfl | rfl
  · intro w hw
    rw [vec3_triple] at hw
    cases hw
    rfl
  · trivial

end Verif.SurfaceSource
