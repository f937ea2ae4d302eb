import Verif.Model.LayeredState
import Mathlib.Data.Complex.Basic
import Mathlib.Tactic

/-! # The stored properties of the layered halfspace over every history (C52) -/

namespace Verif.LayeredState

open Classical

variable [FloatGrammar]

/-- The array has one row per layer, and possibly one column per frequency. -/
def Fits (nLayer nFrequency : ℕ) (a : NArr CFloat) : Prop := a.shape = [nLayer] ∨ a.shape = [nLayer, nFrequency]

/-- The value of a property in a layer at a frequency. -/
def entry (a : NArr CFloat) (l f : ℕ) : CFloat := if a.ndim = 1 then a.get [l] else a.get [l, f]

/-- A finite complex number. -/
def CFloat.fin (z : ℂ) : CFloat := ⟨.fin z.re, .fin z.im⟩

omit [FloatGrammar] in
theorem CFloat.fin_mul (z w : ℂ) : CFloat.mul (.fin z) (.fin w) = .fin (z * w) := by
  simp only [CFloat.mul, CFloat.fin, PyFloat.fin_mul_fin, PyFloat.fin_sub_fin, PyFloat.fin_add_fin, Complex.mul_re, Complex.mul_im]

omit [FloatGrammar] in
theorem CFloat.fin_add (z w : ℂ) : CFloat.add (.fin z) (.fin w) = .fin (z + w) := by
  simp only [CFloat.add, CFloat.fin, PyFloat.fin_add_fin, Complex.add_re, Complex.add_im]

/-! ## What every history keeps -/

/-- The physical bounds: no entry on the wrong side (NaN is on neither side). -/
structure Bounded (mu0 eps0 : ℝ) (s : Layered) : Prop where
  thickness : ∀ i, InShape s.thickness.shape i → ¬ s.thickness.get i < .fin 0
  frequency : ∀ i, InShape s.frequency.shape i → ¬ s.frequency.get i < .fin 0
  sigma : ∀ i, InShape s.sigma.shape i → ¬ (s.sigma.get i).im < .fin 0 ∧ ¬ (s.sigma.get i).re ≤ .fin 0
  mu : ∀ i, InShape s.mu.shape i → ¬ (s.mu.get i).im < .fin 0 ∧ ¬ (s.mu.get i).re < .fin mu0
  epsilon : ∀ i, InShape s.epsilon.shape i → ¬ (s.epsilon.get i).im < .fin 0 ∧ ¬ (s.epsilon.get i).re < .fin eps0

/-- Thicknesses and frequencies are one-dimensional. -/
structure Shaped (s : Layered) : Prop where
  thickness : ∃ n, s.thickness.shape = [n]
  frequency : ∃ n, s.frequency.shape = [n]

theorem atleast1d_shape {v : Obj} {a : NArr PyFloat} (h : v.atleast1dFloat = .ok a) : a.shape ≠ [] := by
  simp only [Obj.atleast1dFloat] at h
  split at h
  · cases h
  · cases h
    split_ifs with h
    · simp
    · exact h

omit [FloatGrammar] in
theorem shape_one {α : Type} {a : NArr α} (h : a.shape ≠ []) (h' : ¬ a.ndim > 1) : ∃ n, a.shape = [n] := by
  rcases hs : a.shape with _ | ⟨n, _ | ⟨m, t⟩⟩
  · exact absurd hs h
  · exact ⟨n, rfl⟩
  · simp only [NArr.ndim, hs, List.length_cons] at h'
    omega

/-- What an accepted frequency is. -/
theorem setFrequency_spec (s : Layered) (v : Obj) :
    (s.setFrequency v).1 = s ∨ ∃ a, v.atleast1dFloat = .ok a ∧ (s.setFrequency v).1 = { s with frequency := a } ∧
      (∃ n, a.shape = [n]) ∧ ∀ i, InShape a.shape i → ¬ a.get i < .fin 0 := by
  simp only [Layered.setFrequency]
  rcases hv : v.atleast1dFloat with e | a
  · exact .inl rfl
  · simp only
    split_ifs with h1 h2
    · exact .inl rfl
    · exact .inl rfl
    · exact .inr ⟨a, rfl, rfl, shape_one (atleast1d_shape hv) h2, fun i hi hlt => h1 ⟨i, hi, hlt⟩⟩

/-- What `None` and other objects assigned to `thickness` are converted to. -/
def toThickness (v : Obj) : Py (NArr PyFloat) := match v with | .none => .ok ⟨[0], fun _ => .nan⟩ | v => v.atleast1dFloat

theorem setThickness_spec (s : Layered) (v : Obj) :
    (s.setThickness v).1 = s ∨ ∃ a, toThickness v = .ok a ∧ (s.setThickness v).1 = { s with thickness := a } ∧
      (∃ n, a.shape = [n]) ∧ ∀ i, InShape a.shape i → ¬ a.get i < .fin 0 := by
  have hd : (s.setThickness v) = match toThickness v with
    | .error _ => (s, some .typeError)
    | .ok a => if a.shape.headD 0 > 0 ∧ anyEntry a (· < .fin 0) then (s, some .valueError)
      else if a.ndim > 1 then (s, some .typeError) else ({ s with thickness := a }, none) := by
    cases v <;> rfl
  rw [hd]
  rcases hv : toThickness v with e | a
  · exact .inl rfl
  · simp only
    have hs : a.shape ≠ [] := by
      cases v with
      | none => simp only [toThickness, Except.ok.injEq] at hv; subst hv; simp
      | num _ | str _ | ndarray _ | seq _ | other => simp only [toThickness] at hv; exact atleast1d_shape hv
    split_ifs with h1 h2
    · exact .inl rfl
    · exact .inl rfl
    · obtain ⟨n, hn⟩ := shape_one hs h2
      refine .inr ⟨a, rfl, rfl, ⟨n, hn⟩, fun i hi hlt => h1 ⟨?_, i, hi, hlt⟩⟩
      rw [hn] at hi ⊢
      cases hi with
      | cons h _ => exact lt_of_le_of_lt (Nat.zero_le _) h

omit [FloatGrammar] in
theorem convert_shape {v : CObj} {n : ℕ} {a : NArr CFloat} (h : v.convert n = .ok a) : a.shape ≠ [] := by
  cases v with
  | scalar z => simp only [CObj.convert, Except.ok.injEq] at h; subst h; simp
  | array b =>
    simp only [CObj.convert, Except.ok.injEq] at h
    subst h
    split_ifs with h
    · simp
    · exact h
  | other => cases h

omit [FloatGrammar] in
theorem checkProperty_none {P : PyFloat → Prop} {nl nf : ℕ} {a : NArr CFloat} (hs : a.shape ≠ []) (h : checkProperty P nl nf a = none) :
    Fits nl nf a ∧ ∀ i, InShape a.shape i → ¬ (a.get i).im < .fin 0 ∧ ¬ P (a.get i).re := by
  simp only [checkProperty] at h
  split_ifs at h with h1 h2 h3 h4 h5
  refine ⟨?_, fun i hi => ⟨fun hlt => h1 ⟨i, hi, hlt⟩, fun hlt => h2 ⟨i, hi, hlt⟩⟩⟩
  simp only [NArr.ndim] at h3 h4 h5
  rcases hsh : a.shape with _ | ⟨n, _ | ⟨m, _ | ⟨k, t⟩⟩⟩
  · exact absurd hsh hs
  · simp only [hsh, List.length_cons, List.length_nil, List.headD_cons] at h3
    left
    rw [hsh]
    by_contra hc
    exact h3 ⟨by simp, fun e => hc (by rw [e])⟩
  · simp only [hsh, List.length_cons, List.length_nil] at h4
    right
    rw [hsh]
    by_contra hc
    exact h4 ⟨by simp, hc⟩
  · simp only [hsh, List.length_cons] at h5
    omega

omit [FloatGrammar] in
/-- What an accepted property is, for each of the three setters. -/
theorem setProperty_spec (mu0 eps0 : ℝ) (s : Layered) (v : CObj) :
    ((s.setSigma v).1 = s ∨ ∃ a, (s.setSigma v).1 = { s with sigma := a } ∧ Fits s.nLayer s.nFrequency a ∧
      ∀ i, InShape a.shape i → ¬ (a.get i).im < .fin 0 ∧ ¬ (a.get i).re ≤ .fin 0) ∧
    ((s.setMu mu0 v).1 = s ∨ ∃ a, (s.setMu mu0 v).1 = { s with mu := a } ∧ Fits s.nLayer s.nFrequency a ∧
      ∀ i, InShape a.shape i → ¬ (a.get i).im < .fin 0 ∧ ¬ (a.get i).re < .fin mu0) ∧
    ((s.setEpsilon eps0 v).1 = s ∨ ∃ a, (s.setEpsilon eps0 v).1 = { s with epsilon := a } ∧ Fits s.nLayer s.nFrequency a ∧
      ∀ i, InShape a.shape i → ¬ (a.get i).im < .fin 0 ∧ ¬ (a.get i).re < .fin eps0) := by
  simp only [Layered.setSigma, Layered.setMu, Layered.setEpsilon]
  rcases hc : v.convert s.nLayer with e | a
  · exact ⟨.inl rfl, .inl rfl, .inl rfl⟩
  · have hs := convert_shape hc
    refine ⟨?_, ?_, ?_⟩ <;> simp only
    · cases hp : checkProperty (· ≤ .fin 0) s.nLayer s.nFrequency a with
      | some e => exact .inl rfl
      | none => exact .inr ⟨a, rfl, checkProperty_none hs hp⟩
    · cases hp : checkProperty (· < .fin mu0) s.nLayer s.nFrequency a with
      | some e => exact .inl rfl
      | none => exact .inr ⟨a, rfl, checkProperty_none hs hp⟩
    · cases hp : checkProperty (· < .fin eps0) s.nLayer s.nFrequency a with
      | some e => exact .inl rfl
      | none => exact .inr ⟨a, rfl, checkProperty_none hs hp⟩

theorem step_bounded (mu0 eps0 : ℝ) (s : Layered) (o : Op) (h : Bounded mu0 eps0 s ∧ Shaped s) :
    Bounded mu0 eps0 (step mu0 eps0 s o).1 ∧ Shaped (step mu0 eps0 s o).1 := by
  obtain ⟨hb, hs⟩ := h
  cases o with
  | frequency v =>
    simp only [step]
    rcases setFrequency_spec s v with e | ⟨a, -, e, h1, h2⟩ <;> rw [e]
    · exact ⟨hb, hs⟩
    · exact ⟨⟨hb.thickness, h2, hb.sigma, hb.mu, hb.epsilon⟩, ⟨hs.thickness, h1⟩⟩
  | thickness v =>
    simp only [step]
    rcases setThickness_spec s v with e | ⟨a, -, e, h1, h2⟩ <;> rw [e]
    · exact ⟨hb, hs⟩
    · exact ⟨⟨h2, hb.frequency, hb.sigma, hb.mu, hb.epsilon⟩, ⟨h1, hs.frequency⟩⟩
  | sigma v =>
    simp only [step]
    rcases (setProperty_spec mu0 eps0 s v).1 with e | ⟨a, e, -, h2⟩ <;> rw [e]
    · exact ⟨hb, hs⟩
    · exact ⟨⟨hb.thickness, hb.frequency, h2, hb.mu, hb.epsilon⟩, ⟨hs.thickness, hs.frequency⟩⟩
  | mu v =>
    simp only [step]
    rcases (setProperty_spec mu0 eps0 s v).2.1 with e | ⟨a, e, -, h2⟩ <;> rw [e]
    · exact ⟨hb, hs⟩
    · exact ⟨⟨hb.thickness, hb.frequency, hb.sigma, h2, hb.epsilon⟩, ⟨hs.thickness, hs.frequency⟩⟩
  | epsilon v =>
    simp only [step]
    rcases (setProperty_spec mu0 eps0 s v).2.2 with e | ⟨a, e, -, h2⟩ <;> rw [e]
    · exact ⟨hb, hs⟩
    · exact ⟨⟨hb.thickness, hb.frequency, hb.sigma, hb.mu, h2⟩, ⟨hs.thickness, hs.frequency⟩⟩
  | quasistatic v => exact ⟨⟨hb.thickness, hb.frequency, hb.sigma, hb.mu, hb.epsilon⟩, ⟨hs.thickness, hs.frequency⟩⟩

omit [FloatGrammar] in
theorem andThen_none {σ : Type} {r : SetResult σ} {f : σ → SetResult σ} {s : σ} (h : r.andThen f = (s, none)) :
    ∃ s', r = (s', none) ∧ f s' = (s, none) := by
  rcases r with ⟨s', _ | e⟩
  · exact ⟨s', rfl, h⟩
  · simp [SetResult.andThen] at h

omit [FloatGrammar] in
/-- An accepted property assignment stores an array that fits. -/
theorem accepted_fits (mu0 eps0 : ℝ) (s t : Layered) (v : CObj) :
    (s.setSigma v = (t, none) → ∃ a, t = { s with sigma := a } ∧ Fits s.nLayer s.nFrequency a) ∧
    (s.setMu mu0 v = (t, none) → ∃ a, t = { s with mu := a } ∧ Fits s.nLayer s.nFrequency a) ∧
    (s.setEpsilon eps0 v = (t, none) → ∃ a, t = { s with epsilon := a } ∧ Fits s.nLayer s.nFrequency a) := by
  simp only [Layered.setSigma, Layered.setMu, Layered.setEpsilon]
  rcases hc : v.convert s.nLayer with e | a
  · exact ⟨fun h => by simp at h, fun h => by simp at h, fun h => by simp at h⟩
  · have hs := convert_shape hc
    refine ⟨?_, ?_, ?_⟩ <;> simp only
    · cases hp : checkProperty (· ≤ .fin 0) s.nLayer s.nFrequency a with
      | some e => exact fun h => by simp at h
      | none => exact fun h => ⟨a, (Prod.mk.inj h).1.symm, (checkProperty_none hs hp).1⟩
    · cases hp : checkProperty (· < .fin mu0) s.nLayer s.nFrequency a with
      | some e => exact fun h => by simp at h
      | none => exact fun h => ⟨a, (Prod.mk.inj h).1.symm, (checkProperty_none hs hp).1⟩
    · cases hp : checkProperty (· < .fin eps0) s.nLayer s.nFrequency a with
      | some e => exact fun h => by simp at h
      | none => exact fun h => ⟨a, (Prod.mk.inj h).1.symm, (checkProperty_none hs hp).1⟩

/-- The constructor is a history of accepted assignments to a blank object. -/
theorem new_is_history {mu0 eps0 : ℝ} {frequency thickness : Obj} {q : Flag} {sigma mu epsilon : CObj} {s : Layered}
    (h : Layered.new mu0 eps0 frequency thickness q sigma mu epsilon = .ok s) :
    s = runOps (step mu0 eps0) Layered.blank [.thickness thickness, .frequency frequency, .quasistatic q, .sigma sigma, .mu mu, .epsilon epsilon] ∧
    Fits s.nLayer s.nFrequency s.sigma ∧ Fits s.nLayer s.nFrequency s.mu ∧ Fits s.nLayer s.nFrequency s.epsilon := by
  simp only [Layered.new] at h
  split at h
  case h_2 => cases h
  case h_1 r s' hr =>
    cases h
    obtain ⟨s5, h5, e6⟩ := andThen_none hr
    obtain ⟨s4, h4, e5⟩ := andThen_none h5
    obtain ⟨s3, h3, e4⟩ := andThen_none h4
    obtain ⟨s2, h2, e3⟩ := andThen_none h3
    obtain ⟨s1, e1, e2⟩ := andThen_none h2
    refine ⟨?_, ?_⟩
    · simp only [runOps, step, List.foldl_cons, List.foldl_nil, e1, e2]
      simp only [Prod.mk.injEq, and_true] at e3
      rw [e3, e4, e5, e6]
    · obtain ⟨a, rfl, ha⟩ := (accepted_fits mu0 eps0 _ _ _).1 e4
      obtain ⟨b, rfl, hb⟩ := (accepted_fits mu0 eps0 _ _ _).2.1 e5
      obtain ⟨c, rfl, hc⟩ := (accepted_fits mu0 eps0 _ _ _).2.2 e6
      exact ⟨ha, hb, hc⟩

/-- **C52.** After the constructor and any history of assignments, accepted or not, thicknesses and frequencies are one-dimensional and
no stored value is on the wrong side of its physical bound. -/
theorem bounds_history {mu0 eps0 : ℝ} {frequency thickness : Obj} {q : Flag} {sigma mu epsilon : CObj} {s : Layered}
    (h : Layered.new mu0 eps0 frequency thickness q sigma mu epsilon = .ok s) (ops : List Op) :
    Bounded mu0 eps0 (runOps (step mu0 eps0) s ops) ∧ Shaped (runOps (step mu0 eps0) s ops) := by
  have hblank : Bounded mu0 eps0 Layered.blank ∧ Shaped Layered.blank := by
    have none : ∀ i, ¬ InShape [0] i := fun i hi => by cases hi with | cons h _ => exact absurd h (Nat.not_lt_zero _)
    exact ⟨⟨fun i hi => absurd hi (none i), fun i hi => absurd hi (none i), fun i hi => absurd hi (none i), fun i hi => absurd hi (none i),
      fun i hi => absurd hi (none i)⟩, ⟨⟨0, rfl⟩, ⟨0, rfl⟩⟩⟩
  refine runOps_invariant (I := fun s => Bounded mu0 eps0 s ∧ Shaped s) (fun s o => step_bounded mu0 eps0 s o) s ?_ ops
  rw [(new_is_history h).1]
  exact runOps_invariant (I := fun s => Bounded mu0 eps0 s ∧ Shaped s) (fun s o => step_bounded mu0 eps0 s o) _ hblank _

/-! ## Shapes -/

/-- The operation does not change the number of layers or frequencies. -/
def KeepsCounts (nLayer nFrequency : ℕ) : Op → Prop
  | .frequency v => ∀ a, v.atleast1dFloat = .ok a → a.shape.headD 0 = nFrequency
  | .thickness v => ∀ a, toThickness v = .ok a → a.shape.headD 0 + 1 = nLayer
  | _ => True

/-- The arrays of the three properties fit the numbers of layers and frequencies. -/
structure AllFit (nl nf : ℕ) (s : Layered) : Prop where
  nLayer : s.nLayer = nl
  nFrequency : s.nFrequency = nf
  sigma : Fits nl nf s.sigma
  mu : Fits nl nf s.mu
  epsilon : Fits nl nf s.epsilon

theorem step_fits (mu0 eps0 : ℝ) {nl nf : ℕ} (s : Layered) (o : Op) (hk : KeepsCounts nl nf o) (h : AllFit nl nf s) :
    AllFit nl nf (step mu0 eps0 s o).1 := by
  cases o with
  | frequency v =>
    simp only [step]
    rcases setFrequency_spec s v with e | ⟨a, ha, e, -⟩ <;> rw [e]
    · exact h
    · exact ⟨h.nLayer, hk a ha, h.sigma, h.mu, h.epsilon⟩
  | thickness v =>
    simp only [step]
    rcases setThickness_spec s v with e | ⟨a, ha, e, -⟩ <;> rw [e]
    · exact h
    · exact ⟨hk a ha, h.nFrequency, h.sigma, h.mu, h.epsilon⟩
  | sigma v =>
    simp only [step]
    rcases (setProperty_spec mu0 eps0 s v).1 with e | ⟨a, e, h1, -⟩ <;> rw [e]
    · exact h
    · rw [h.nLayer, h.nFrequency] at h1
      exact ⟨h.nLayer, h.nFrequency, h1, h.mu, h.epsilon⟩
  | mu v =>
    simp only [step]
    rcases (setProperty_spec mu0 eps0 s v).2.1 with e | ⟨a, e, h1, -⟩ <;> rw [e]
    · exact h
    · rw [h.nLayer, h.nFrequency] at h1
      exact ⟨h.nLayer, h.nFrequency, h.sigma, h1, h.epsilon⟩
  | epsilon v =>
    simp only [step]
    rcases (setProperty_spec mu0 eps0 s v).2.2 with e | ⟨a, e, h1, -⟩ <;> rw [e]
    · exact h
    · rw [h.nLayer, h.nFrequency] at h1
      exact ⟨h.nLayer, h.nFrequency, h.sigma, h.mu, h1⟩
  | quasistatic v => exact ⟨h.nLayer, h.nFrequency, h.sigma, h.mu, h.epsilon⟩

theorem runOps_fits (mu0 eps0 : ℝ) {nl nf : ℕ} (s : Layered) (ops : List Op) (hk : ∀ o ∈ ops, KeepsCounts nl nf o) (h : AllFit nl nf s) :
    AllFit nl nf (runOps (step mu0 eps0) s ops) := by
  induction ops generalizing s with
  | nil => exact h
  | cons o ops ih =>
    exact ih _ (fun o ho => hk o (List.mem_cons_of_mem _ ho)) (step_fits mu0 eps0 s o (hk o List.mem_cons_self) h)

omit [FloatGrammar] in
theorem tileProperty_fits {nl nf : ℕ} {p : NArr CFloat} (h : Fits nl nf p) :
    ∃ a, tileProperty nl nf p = .ok a ∧ a.shape = [nl, nf] ∧ ∀ l f, a.get [l, f] = entry p l f := by
  rcases h with h | h
  · refine ⟨⟨[nl, nf], fun i => p.get [i.headD 0]⟩, ?_, rfl, fun l f => ?_⟩
    · simp [tileProperty, NArr.ndim, NArr.size, h]
    · simp [entry, NArr.ndim, h]
  · refine ⟨p, ?_, h, fun l f => ?_⟩
    · simp [tileProperty, NArr.ndim, h]
    · simp [entry, NArr.ndim, h]

omit [FloatGrammar] in
/-- Two arrays of the same two-dimensional shape combine entry by entry. -/
theorem zipWith_same (f : CFloat → CFloat → CFloat) {nl nf : ℕ} (a b : NArr CFloat) (ha : a.shape = [nl, nf]) (hb : b.shape = [nl, nf]) :
    ∃ c, NArr.zipWith f a b = .ok c ∧ c.shape = [nl, nf] ∧
      ∀ l, l < nl → ∀ k, k < nf → c.get [l, k] = f (a.get [l, k]) (b.get [l, k]) := by
  refine ⟨_, by simp only [NArr.zipWith, NArr.bcastShape, ha, hb]; simp [NArr.bcastRev]; rfl, rfl, fun l hl k hk => ?_⟩
  simp only [NArr.broadcastTo, ha, hb, List.reverse_cons, List.reverse_nil, List.nil_append, List.cons_append, NArr.bcastIndexRev]
  have e1 : (if nl = 1 then 0 else l) = l := by split_ifs <;> omega
  have e2 : (if nf = 1 then 0 else k) = k := by split_ifs <;> omega
  simp [e1, e2]

omit [FloatGrammar] in
/-- The conductivity that the field uses, for arrays that fit. -/
theorem field_of_fits {nl nf : ℕ} {s : Layered} (h : AllFit nl nf s) :
    ∃ sigh mu, s.fieldProperties = .ok (sigh, mu) ∧ sigh.shape = [nl, nf] ∧ mu.shape = [nl, nf] ∧
      (∀ l, l < nl → ∀ k, k < nf → mu.get [l, k] = entry s.mu l k) ∧
      (∀ l, l < nl → ∀ k, k < nf → sigh.get [l, k] = if s.quasistatic.isTrue then entry s.sigma l k else
        (entry s.sigma l k).add ((CFloat.mul ⟨.fin 0, .fin 1⟩ ⟨.fin (2 * Real.pi) * s.frequency.get [k], .fin 0⟩).mul (entry s.epsilon l k))) := by
  obtain ⟨sg, e1, s1, g1⟩ := tileProperty_fits h.sigma
  obtain ⟨m, e2, s2, g2⟩ := tileProperty_fits h.mu
  obtain ⟨ep, e3, s3, g3⟩ := tileProperty_fits h.epsilon
  have hv : s.validProperties = .ok (sg, ep, m) := by
    simp only [Layered.validProperties, h.nLayer, h.nFrequency, e1, e2, e3]
    rfl
  by_cases hq : s.quasistatic.isTrue
  · refine ⟨sg, m, ?_, s1, s2, fun l _ k _ => g2 l k, fun l _ k _ => by rw [if_pos hq, g1]⟩
    simp only [Layered.fieldProperties, hv, LayeredState.sigmaHat, hq, if_true]
    rfl
  · obtain ⟨d, ed, sd, gd⟩ := zipWith_same CFloat.mul ⟨[nl, nf], fun i => CFloat.mul ⟨.fin 0, .fin 1⟩
      ⟨.fin (2 * Real.pi) * s.frequency.get [i.getD 1 0], .fin 0⟩⟩ ep rfl s3
    obtain ⟨c, ec, sc, gc⟩ := zipWith_same CFloat.add sg d s1 sd
    refine ⟨c, m, ?_, sc, s2, fun l _ k _ => g2 l k, fun l hl k hk => ?_⟩
    · simp only [Layered.fieldProperties, hv, LayeredState.sigmaHat, hq, h.nLayer, h.nFrequency]
      simp only [bind, Except.bind, if_false, ed, ec, Bool.false_eq_true]
      rfl
    · rw [if_neg hq, gc l hl k hk, gd l hl k hk, g1, g3]
      rfl

/-- **C52.** (partial: histories that keep the numbers of layers and of frequencies.)  After the constructor and any such history, the arrays that
`magnetic_field` computes with have one row per layer and one column per frequency, with the stored permeability and, for finite values,
`sigma + 2 pi i f epsilon` (or `sigma` in the quasistatic mode) as entries. -/
theorem shapes_history_partial {mu0 eps0 : ℝ} {frequency thickness : Obj} {q : Flag} {sigma mu epsilon : CObj} {s : Layered}
    (h : Layered.new mu0 eps0 frequency thickness q sigma mu epsilon = .ok s) (ops : List Op)
    (hk : ∀ o ∈ ops, KeepsCounts s.nLayer s.nFrequency o) :
    let t := runOps (step mu0 eps0) s ops
    ∃ sigh mu, t.fieldProperties = .ok (sigh, mu) ∧ sigh.shape = [t.nLayer, t.nFrequency] ∧ mu.shape = [t.nLayer, t.nFrequency] ∧
      ∀ l, l < t.nLayer → ∀ k, k < t.nFrequency → mu.get [l, k] = entry t.mu l k ∧
        ∀ (f : ℝ) (sg ep : ℂ), t.frequency.get [k] = .fin f → entry t.sigma l k = .fin sg → entry t.epsilon l k = .fin ep →
          sigh.get [l, k] = .fin (if t.quasistatic.isTrue then sg else sg + Complex.I * (2 * Real.pi * f : ℝ) * ep) := by
  intro t
  obtain ⟨-, f1, f2, f3⟩ := new_is_history h
  have hf : AllFit s.nLayer s.nFrequency t := runOps_fits mu0 eps0 s ops hk ⟨rfl, rfl, f1, f2, f3⟩
  obtain ⟨sigh, m, e, s1, s2, g1, g2⟩ := field_of_fits hf
  rw [hf.nLayer, hf.nFrequency]
  refine ⟨sigh, m, e, s1, s2, fun l hl k hk => ⟨g1 l hl k hk, fun f sg ep hf hs he => ?_⟩⟩
  rw [g2 l hl k hk, hf, hs, he]
  split_ifs
  · rfl
  · have e1 : (⟨.fin 0, .fin 1⟩ : CFloat) = .fin Complex.I := by simp [CFloat.fin]
    have e2 : (⟨.fin (2 * Real.pi) * .fin f, .fin 0⟩ : CFloat) = .fin ((2 * Real.pi * f : ℝ) : ℂ) := by
      simp [CFloat.fin, PyFloat.fin_mul_fin]
    rw [e1, e2, CFloat.fin_mul, CFloat.fin_mul, CFloat.fin_add]

omit [FloatGrammar] in
/-- **C52.** Whatever happened before, assigning the three properties anew makes the arrays fit. -/
theorem shapes_after_reassignment (mu0 eps0 : ℝ) (s s1 s2 s3 : Layered) (sigma mu epsilon : CObj) (h1 : s.setSigma sigma = (s1, none))
    (h2 : s1.setMu mu0 mu = (s2, none)) (h3 : s2.setEpsilon eps0 epsilon = (s3, none)) :
    ∃ sigh mu, s3.fieldProperties = .ok (sigh, mu) ∧ sigh.shape = [s3.nLayer, s3.nFrequency] ∧ mu.shape = [s3.nLayer, s3.nFrequency] := by
  obtain ⟨a, rfl, ha⟩ := (accepted_fits mu0 eps0 _ _ _).1 h1
  obtain ⟨b, rfl, hb⟩ := (accepted_fits mu0 eps0 _ _ _).2.1 h2
  obtain ⟨c, rfl, hc⟩ := (accepted_fits mu0 eps0 _ _ _).2.2 h3
  obtain ⟨sigh, m, e, s1, s2, -⟩ := field_of_fits (nl := s.nLayer) (nf := s.nFrequency)
    (s := { s with sigma := a, mu := b, epsilon := c }) ⟨rfl, rfl, ha, hb, hc⟩
  exact ⟨sigh, m, e, s1, s2⟩

/-! ## What is accepted -/

omit [FloatGrammar] in
theorem checkProperty_iff {tooSmall : PyFloat → Prop} {nl nf : ℕ} {a : NArr CFloat} (h : a.shape ≠ []) :
    checkProperty tooSmall nl nf a = none ↔ Fits nl nf a ∧ ∀ i, InShape a.shape i → ¬ (a.get i).im < .fin 0 ∧ ¬ tooSmall (a.get i).re := by
  refine ⟨fun hp => ⟨(checkProperty_none h hp).1, fun i hi => (checkProperty_none h hp).2 i hi⟩, fun ⟨hf, hb⟩ => ?_⟩
  have n1 : ¬ anyEntry a (fun z => z.im < .fin 0) := fun ⟨i, hi, h⟩ => (hb i hi).1 h
  have n2 : ¬ anyEntry a (fun z => tooSmall z.re) := fun ⟨i, hi, h⟩ => (hb i hi).2 h
  rcases hf with hf | hf <;> simp [checkProperty, n1, n2, NArr.ndim, hf]

omit [FloatGrammar] in
/-- **C52.** An array assigned to a property is accepted exactly when it has one row per layer (and one column per frequency, if it has columns) and is
within the bounds; then it is what is stored, and nothing else changes. -/
theorem array_accepted_iff (mu0 eps0 : ℝ) (s : Layered) (a : NArr CFloat) (h : a.shape ≠ []) :
    (s.setSigma (.array a) = ({ s with sigma := a }, none) ↔ Fits s.nLayer s.nFrequency a ∧
      ∀ i, InShape a.shape i → ¬ (a.get i).im < .fin 0 ∧ ¬ (a.get i).re ≤ .fin 0) ∧
    (s.setMu mu0 (.array a) = ({ s with mu := a }, none) ↔ Fits s.nLayer s.nFrequency a ∧
      ∀ i, InShape a.shape i → ¬ (a.get i).im < .fin 0 ∧ ¬ (a.get i).re < .fin mu0) ∧
    (s.setEpsilon eps0 (.array a) = ({ s with epsilon := a }, none) ↔ Fits s.nLayer s.nFrequency a ∧
      ∀ i, InShape a.shape i → ¬ (a.get i).im < .fin 0 ∧ ¬ (a.get i).re < .fin eps0) := by
  simp only [Layered.setSigma, Layered.setMu, Layered.setEpsilon, CObj.convert, if_neg h]
  refine ⟨?_, ?_, ?_⟩
  · refine Iff.trans ?_ (checkProperty_iff (tooSmall := (· ≤ .fin 0)) h)
    split <;> simp_all
  · refine Iff.trans ?_ (checkProperty_iff (tooSmall := (· < .fin mu0)) h)
    split <;> simp_all
  · refine Iff.trans ?_ (checkProperty_iff (tooSmall := (· < .fin eps0)) h)
    split <;> simp_all

omit [FloatGrammar] in
/-- **C52.** A finite number assigned to a property is accepted exactly when it is within the bounds, and then holds in every layer at every
frequency. -/
theorem number_accepted_iff (mu0 eps0 : ℝ) (s : Layered) (z : ℂ) (t : Layered) :
    (s.setSigma (.scalar (.fin z)) = (t, none) ↔ (0 ≤ z.im ∧ 0 < z.re) ∧ t = { s with sigma := ⟨[s.nLayer], fun _ => .fin z⟩ }) ∧
    (s.setMu mu0 (.scalar (.fin z)) = (t, none) ↔ (0 ≤ z.im ∧ mu0 ≤ z.re) ∧ t = { s with mu := ⟨[s.nLayer], fun _ => .fin z⟩ }) ∧
    (s.setEpsilon eps0 (.scalar (.fin z)) = (t, none) ↔
      (0 ≤ z.im ∧ eps0 ≤ z.re) ∧ t = { s with epsilon := ⟨[s.nLayer], fun _ => .fin z⟩ }) := by
  have e : (CFloat.fin z).mul ⟨.fin 1, .fin 0⟩ = .fin z := by
    have : (⟨.fin 1, .fin 0⟩ : CFloat) = .fin 1 := by simp [CFloat.fin]
    rw [this, CFloat.fin_mul, mul_one]
  have key : ∀ (P : PyFloat → Prop), (∀ i, InShape [s.nLayer] i → ¬ (CFloat.fin z).im < .fin 0 ∧ ¬ P (CFloat.fin z).re) ↔
      0 ≤ z.im ∧ ¬ P (.fin z.re) := fun P => by
    constructor
    · intro h
      have := h [0] (.cons (Nat.succ_pos _) .nil)
      simpa [CFloat.fin] using this
    · intro h i _
      simpa [CFloat.fin] using h
  have hf : Fits s.nLayer s.nFrequency ⟨[s.nLayer], fun _ => .fin z⟩ := .inl rfl
  have main : ∀ (P : PyFloat → Prop), checkProperty P s.nLayer s.nFrequency ⟨[s.nLayer], fun _ => .fin z⟩ = none ↔
      0 ≤ z.im ∧ ¬ P (.fin z.re) := fun P => by
    rw [checkProperty_iff (by simp)]
    exact ⟨fun h => (key P).1 h.2, fun h => ⟨hf, (key P).2 h⟩⟩
  simp only [Layered.setSigma, Layered.setMu, Layered.setEpsilon, CObj.convert, e]
  refine ⟨?_, ?_, ?_⟩
  · have m := main (· ≤ .fin 0)
    simp only [PyFloat.fin_le_fin, not_le] at m
    rw [← m]
    cases checkProperty _ s.nLayer s.nFrequency _ with
    | some e => simp
    | none => exact ⟨fun h => ⟨rfl, (Prod.mk.inj h).1.symm⟩, fun h => by rw [h.2]⟩
  · have m := main (· < .fin mu0)
    simp only [PyFloat.fin_lt_fin, not_lt] at m
    rw [← m]
    cases checkProperty _ s.nLayer s.nFrequency _ with
    | some e => simp
    | none => exact ⟨fun h => ⟨rfl, (Prod.mk.inj h).1.symm⟩, fun h => by rw [h.2]⟩
  · have m := main (· < .fin eps0)
    simp only [PyFloat.fin_lt_fin, not_lt] at m
    rw [← m]
    cases checkProperty _ s.nLayer s.nFrequency _ with
    | some e => simp
    | none => exact ⟨fun h => ⟨rfl, (Prod.mk.inj h).1.symm⟩, fun h => by rw [h.2]⟩

/-- **C52.** Thicknesses and frequencies are accepted exactly when they convert to a one-dimensional array without negative entries; `None` is no
layers. -/
theorem counts_accepted_iff (s t : Layered) (v : Obj) :
    (s.setFrequency v = (t, none) ↔ ∃ a, v.atleast1dFloat = .ok a ∧ (∃ n, a.shape = [n]) ∧ (∀ i, InShape a.shape i → ¬ a.get i < .fin 0) ∧
      t = { s with frequency := a }) ∧
    (v ≠ .none → (s.setThickness v = (t, none) ↔ ∃ a, v.atleast1dFloat = .ok a ∧ (∃ n, a.shape = [n]) ∧
      (∀ i, InShape a.shape i → ¬ a.get i < .fin 0) ∧ t = { s with thickness := a })) ∧
    (s.setThickness .none).2 = none ∧ (s.setThickness .none).1.nLayer = 1 := by
  refine ⟨?_, ?_, ?_, ?_⟩
  · simp only [Layered.setFrequency]
    rcases hv : v.atleast1dFloat with e | a
    · simp
    · constructor
      · intro h
        simp only at h
        by_cases h1 : anyEntry a (· < .fin 0)
        · simp [h1] at h
        by_cases h2 : a.ndim > 1
        · simp [h1, h2] at h
        rw [if_neg h1, if_neg h2] at h
        exact ⟨a, rfl, shape_one (atleast1d_shape hv) h2, fun i hi hn => h1 ⟨i, hi, hn⟩, (Prod.mk.inj h).1.symm⟩
      · rintro ⟨a', ha', ⟨n, hn⟩, hb, rfl⟩
        cases ha'
        have n1 : ¬ anyEntry a (· < .fin 0) := fun ⟨i, hi, h⟩ => hb i hi h
        simp [n1, NArr.ndim, hn]
  · intro hne
    simp only [Layered.setThickness]
    rcases hv : v.atleast1dFloat with e | a
    · simp
    · constructor
      · intro h
        simp only at h
        by_cases h1 : a.shape.headD 0 > 0 ∧ anyEntry a (· < .fin 0)
        · simp only [h1, and_self, if_true, Prod.mk.injEq, reduceCtorEq, and_false] at h
        by_cases h2 : a.ndim > 1
        · simp only [h1, h2, if_true, if_false, Prod.mk.injEq, reduceCtorEq, and_false] at h
        rw [if_neg h1, if_neg h2] at h
        obtain ⟨n, hn⟩ := shape_one (atleast1d_shape hv) h2
        refine ⟨a, rfl, ⟨n, hn⟩, fun i hi hneg => h1 ⟨?_, i, hi, hneg⟩, (Prod.mk.inj h).1.symm⟩
        rw [hn] at hi ⊢
        cases hi with | cons h _ => exact Nat.pos_of_ne_zero (fun h0 => by simp at h0; omega)
      · rintro ⟨a', ha', ⟨n, hn⟩, hb, rfl⟩
        cases ha'
        have n1 : ¬ (a.shape.headD 0 > 0 ∧ anyEntry a (· < .fin 0)) := fun ⟨_, i, hi, h⟩ => hb i hi h
        simp only [if_neg n1]
        simp [NArr.ndim, hn]
  · simp [Layered.setThickness, NArr.ndim]
  · simp [Layered.setThickness, NArr.ndim, Layered.nLayer]

/-! ## Where the code falls short of C52 -/

omit [FloatGrammar] in
theorem scalar_accepted {mu0 eps0 : ℝ} (nl nf : ℕ) (z : ℂ) (hi : z.im = 0) (hz : 0 < z.re) (hm : mu0 ≤ z.re) (he : eps0 ≤ z.re) :
    ∃ a, CObj.convert (.scalar (.fin z)) nl = .ok a ∧ a.shape = [nl] ∧ (∀ l, a.get [l] = .fin z) ∧
      checkProperty (· ≤ .fin 0) nl nf a = none ∧ checkProperty (· < .fin mu0) nl nf a = none ∧ checkProperty (· < .fin eps0) nl nf a = none := by
  have e : (CFloat.fin z).mul ⟨.fin 1, .fin 0⟩ = .fin z := by
    have : (⟨.fin 1, .fin 0⟩ : CFloat) = .fin 1 := by simp [CFloat.fin]
    rw [this, CFloat.fin_mul, mul_one]
  refine ⟨⟨[nl], fun _ => .fin z⟩, by simp only [CObj.convert, e], rfl, fun _ => rfl, ?_, ?_, ?_⟩ <;>
    simp [checkProperty, anyEntry, CFloat.fin, NArr.ndim, hi, hz, hm, he]

theorem num_array (x : PyFloat) : (Obj.num x).atleast1dFloat = .ok ⟨[1], fun _ => x⟩ := by
  simp [Obj.atleast1dFloat, Obj.asFloatArray]

/-- A halfspace without layers on top, one frequency, the same real positive value for all three properties. -/
theorem new_simple {mu0 eps0 : ℝ} (z : ℝ) (hz : 0 < z) (hm : mu0 ≤ z) (he : eps0 ≤ z) :
    ∃ s, Layered.new mu0 eps0 (.num (.fin 1)) .none (.bool false) (.scalar (.fin z)) (.scalar (.fin z)) (.scalar (.fin z)) = .ok s ∧
      s.thickness.shape = [0] ∧ s.frequency = ⟨[1], fun _ => .fin 1⟩ ∧ s.quasistatic = .bool false ∧
      s.sigma.shape = [1] ∧ s.mu.shape = [1] ∧ s.epsilon.shape = [1] := by
  obtain ⟨a, hc, hs, -, h1, h2, h3⟩ := scalar_accepted (mu0 := mu0) (eps0 := eps0) 1 1 (z : ℂ) (by simp) (by simpa) (by simpa) (by simpa)
  refine ⟨⟨⟨[0], fun _ => .nan⟩, ⟨[1], fun _ => .fin 1⟩, .bool false, a, a, a⟩, ?_, rfl, rfl, rfl, hs, hs, hs⟩
  have t : Layered.blank.setThickness .none = (Layered.blank, none) := by
    simp [Layered.setThickness, Layered.blank, NArr.ndim]
  have fr : Layered.blank.setFrequency (.num (.fin 1)) = ({ Layered.blank with frequency := ⟨[1], fun _ => .fin 1⟩ }, none) := by
    simp [Layered.setFrequency, num_array, NArr.ndim, anyEntry]
  simp only [Layered.new, t, SetResult.andThen, fr]
  simp only [Layered.setSigma, Layered.setMu, Layered.setEpsilon, Layered.nLayer, Layered.nFrequency, Layered.blank, List.headD_cons, Nat.zero_add, hc, h1, h2, h3]

/-- **C52, negation.** An accepted assignment of a new thickness leaves the properties with the old number of layers; `magnetic_field` then
raises from its reshape. -/
theorem shapes_broken (mu0 eps0 : ℝ) :
    ∃ (frequency thickness : Obj) (q : Flag) (sigma mu epsilon : CObj) (s t : Layered) (v : Obj),
      Layered.new mu0 eps0 frequency thickness q sigma mu epsilon = .ok s ∧ s.setThickness v = (t, none) ∧
      t.nLayer = 2 ∧ t.sigma.shape = [1] ∧ t.fieldProperties = .error .valueError := by
  obtain ⟨z, hz, hm, he⟩ : ∃ z : ℝ, 0 < z ∧ mu0 ≤ z ∧ eps0 ≤ z :=
    ⟨|mu0| + |eps0| + 1, by positivity, by linarith [le_abs_self mu0, abs_nonneg eps0], by linarith [le_abs_self eps0, abs_nonneg mu0]⟩
  obtain ⟨s, h, ht, hf, hq, h1, h2, h3⟩ := new_simple z hz hm he
  refine ⟨_, _, _, _, _, _, s, { s with thickness := ⟨[1], fun _ => .fin 1⟩ }, .num (.fin 1), h, ?_, rfl, h1, ?_⟩
  · simp [Layered.setThickness, num_array, NArr.ndim, anyEntry]
  · simp only [Layered.fieldProperties, Layered.validProperties, Layered.nLayer, tileProperty, NArr.ndim, NArr.size, h1]
    simp [bind, Except.bind]

omit [FloatGrammar] in
theorem validProperties_fits {nl nf : ℕ} {s : Layered} (h : AllFit nl nf s) :
    ∃ sg ep m, s.validProperties = .ok (sg, ep, m) ∧ sg.shape = [nl, nf] ∧ ep.shape = [nl, nf] ∧
      (∀ l f, sg.get [l, f] = entry s.sigma l f) ∧ ∀ l f, ep.get [l, f] = entry s.epsilon l f := by
  obtain ⟨sg, e1, s1, g1⟩ := tileProperty_fits h.sigma
  obtain ⟨m, e2, s2, g2⟩ := tileProperty_fits h.mu
  obtain ⟨ep, e3, s3, g3⟩ := tileProperty_fits h.epsilon
  refine ⟨sg, ep, m, ?_, s1, s3, g1, g3⟩
  simp only [Layered.validProperties, h.nLayer, h.nFrequency, e1, e2, e3]
  rfl

omit [FloatGrammar] in
/-- **C52, the `sigma_hat` property.** Without the quasistatic mode it raises unless the two counts agree or one of them is one. -/
theorem sigmaHat_raises {nl nf : ℕ} {s : Layered} (h : AllFit nl nf s) (hf : s.frequency.shape = [nf]) (hq : ¬ s.quasistatic.isTrue)
    (h1 : nl ≠ nf) (h2 : nl ≠ 1) (h3 : nf ≠ 1) : s.sigmaHat = .error .valueError := by
  obtain ⟨sg, ep, m, e, s1, s2, -, -⟩ := validProperties_fits h
  have hb : NArr.bcastShape ([nf] ++ [1]) [nl, nf] = .error .valueError := by
    simp [NArr.bcastShape, NArr.bcastRev, Ne.symm h1, h2, h3, Ne.symm h3]
  simp only [Layered.sigmaHat, e, LayeredState.sigmaHat, NArr.zipWith, NArr.newLast, hf, s2, hq, hb, bind, Except.bind, Bool.false_eq_true,
    if_false]

omit [FloatGrammar] in
/-- **C52, the `sigma_hat` property.** In the quasistatic mode it is the transpose: one row per frequency. -/
theorem sigmaHat_quasistatic {nl nf : ℕ} {s : Layered} (h : AllFit nl nf s) (hq : s.quasistatic.isTrue) :
    ∃ a, s.sigmaHat = .ok a ∧ a.shape = [nf, nl] ∧ ∀ l f, a.get [f, l] = entry s.sigma l f := by
  obtain ⟨sg, ep, m, e, s1, s2, g, -⟩ := validProperties_fits h
  refine ⟨transpose sg, ?_, by simp [transpose, s1], fun l f => by simp [transpose, g]⟩
  simp only [Layered.sigmaHat, e, LayeredState.sigmaHat, hq]
  rfl

omit [FloatGrammar] in
/-- **C52, the `sigma_hat` property.** With as many layers as frequencies it is silently wrong: the entry of layer `l` at frequency `f` is computed with the
frequency number `l`. -/
theorem sigmaHat_square {n : ℕ} {s : Layered} (h : AllFit n n s) (hf : s.frequency.shape = [n]) (hq : ¬ s.quasistatic.isTrue) :
    ∃ a, s.sigmaHat = .ok a ∧ a.shape = [n, n] ∧ ∀ l, l < n → ∀ f, f < n →
      ∀ (w : ℝ) (sg ep : ℂ), s.frequency.get [l] = .fin w → entry s.sigma l f = .fin sg → entry s.epsilon l f = .fin ep →
        a.get [f, l] = .fin (sg + Complex.I * (2 * Real.pi * w : ℝ) * ep) := by
  obtain ⟨sg, ep, m, e, s1, s2, g1, g2⟩ := validProperties_fits h
  have hb : NArr.bcastShape ([n] ++ [1]) [n, n] = .ok [n, n] := by
    simp only [NArr.bcastShape]
    by_cases h4 : 1 = n <;> simp [NArr.bcastRev, h4]
  have hb' : NArr.bcastShape [n, n] [n, n] = .ok [n, n] := by simp [NArr.bcastShape, NArr.bcastRev]
  refine ⟨_, by simp only [Layered.sigmaHat, e, LayeredState.sigmaHat, NArr.zipWith, NArr.newLast, hf, s1, s2, hq, hb, hb', bind, Except.bind,
    pure, Except.pure, Bool.false_eq_true, if_false]; rfl, rfl, fun l hl f hf' w σ ε hw hσ hε => ?_⟩
  have e1 : (if n = 1 then 0 else l) = l := by split_ifs <;> omega
  have e2 : (if n = 1 then 0 else f) = f := by split_ifs <;> omega
  have i1 : (⟨.fin 0, .fin 1⟩ : CFloat) = .fin Complex.I := by simp [CFloat.fin]
  have i2 : (⟨.fin (2 * Real.pi) * .fin w, .fin 0⟩ : CFloat) = .fin ((2 * Real.pi * w : ℝ) : ℂ) := by
    simp [CFloat.fin, PyFloat.fin_mul_fin]
  simp only [transpose, NArr.broadcastTo, NArr.bcastIndexRev, s1, s2, List.reverse_cons, List.reverse_nil, List.nil_append, List.cons_append,
    List.reverse_append, List.dropLast_cons_of_ne_nil, ne_eq, reduceCtorEq, not_false_eq_true, List.dropLast_singleton, e1, e2, if_true,
    List.append_nil, List.singleton_append, List.cons_ne_self]
  simp only [g1, g2, hσ, hε, hw, i1, i2, CFloat.fin_mul, CFloat.fin_add]

omit [FloatGrammar] in
/-- **C52.** (partial: only for one layer and one frequency.)  There `sigma_hat` is as the property says. -/
theorem sigmaHat_partial {s : Layered} (h : AllFit 1 1 s) (hf : s.frequency.shape = [1]) :
    ∃ a, s.sigmaHat = .ok a ∧ a.shape = [1, 1] ∧
      ∀ (w : ℝ) (sg ep : ℂ), s.frequency.get [0] = .fin w → entry s.sigma 0 0 = .fin sg → entry s.epsilon 0 0 = .fin ep →
        a.get [0, 0] = .fin (if s.quasistatic.isTrue then sg else sg + Complex.I * (2 * Real.pi * w : ℝ) * ep) := by
  by_cases hq : s.quasistatic.isTrue
  · obtain ⟨a, e, hs, hg⟩ := sigmaHat_quasistatic h hq
    exact ⟨a, e, hs, fun w sg ep _ h2 _ => by rw [hg, h2, if_pos hq]⟩
  · obtain ⟨a, e, hs, hg⟩ := sigmaHat_square h hf hq
    exact ⟨a, e, hs, fun w sg ep h1 h2 h3 => by rw [hg 0 (by norm_num) 0 (by norm_num) w sg ep h1 h2 h3, if_neg hq]⟩

/-- Non-vacuity: two layers, three frequencies, a table of conductivities, and a history that keeps the counts. -/
example : ∃ (s : Layered) (ops : List Op), (AllFit 2 3 s ∧ s.frequency.shape = [3] ∧ ¬ s.quasistatic.isTrue) ∧
    ops.length = 2 ∧ ∀ o ∈ ops, KeepsCounts 2 3 o := by
  refine ⟨⟨⟨[1], fun _ => .fin 4⟩, ⟨[3], fun i => .fin (i.headD 0 + 1)⟩, .bool false, ⟨[2, 3], fun i => .fin ((i.getD 0 0 + 1) * (i.getD 1 0 + 1) : ℝ)⟩,
    ⟨[2], fun _ => .fin 1⟩, ⟨[2], fun _ => .fin 1⟩⟩, [.thickness (.num (.fin 7)), .sigma (.scalar (.fin 2))],
    ⟨⟨rfl, rfl, .inr rfl, .inl rfl, .inl rfl⟩, rfl, by simp [Flag.isTrue]⟩, rfl, ?_⟩
  intro o ho
  simp only [List.mem_cons, List.not_mem_nil, or_false] at ho
  rcases ho with rfl | rfl
  · intro a ha
    simp [toThickness, num_array] at ha
    cases ha
    rfl
  · trivial

/-- Non-vacuity: constructors that succeed. -/
example : ∃ s, Layered.new 1 1 (.num (.fin 1)) .none (.bool false) (.scalar (.fin (2 : ℝ))) (.scalar (.fin (2 : ℝ))) (.scalar (.fin (2 : ℝ))) = .ok s :=
  (new_simple (mu0 := 1) (eps0 := 1) 2 (by norm_num) (by norm_num) (by norm_num)).imp fun _ h => h.1

end Verif.LayeredState
