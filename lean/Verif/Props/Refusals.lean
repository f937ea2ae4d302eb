import Verif.Props.HalfspaceState
import Verif.Props.LayeredState
import Verif.Props.Plot2D

/-!
# C84: which exception a refused call raises

The halfspace current sources, the layered halfspace and `plot2Ddata`.  Each theorem gives the exception class together with the
state left behind.
-/

namespace Verif

/-! ## Halfspace current sources -/

namespace HalfspaceState

open Classical Verif.Setters

variable [FloatGrammar]

/-- A list of numbers. -/
private theorem atleast1d_list (l : List PyFloat) :
    Obj.atleast1dFloat (.seq (NArr.ofList l .nan)) = .ok (NArr.ofList l .nan) := by
  simp [Obj.atleast1dFloat, Obj.asFloatArray, NArr.ofList]

private theorem checkLocation_refusals (v : Obj) (l : List PyFloat) :
    ((∀ a, v.atleast1dFloat ≠ .ok a) → checkLocation v = .error .typeError) ∧
    (l.length ≠ 3 → checkLocation (.seq (NArr.ofList l .nan)) = .error .valueError) ∧
    (∀ x y z : PyFloat, z > .fin 0 → checkLocation (.seq (NArr.ofList [x, y, z] .nan)) = .error .valueError) := by
  refine ⟨?_, ?_, ?_⟩
  · intro h
    cases hv : v.atleast1dFloat with
    | ok a => exact absurd hv (h a)
    | error e => simp [checkLocation, hv]
  · intro h
    have hl : len (NArr.ofList l PyFloat.nan) ≠ 3 := by simpa [len, NArr.ofList] using h
    simp [checkLocation, atleast1d_list, hl]
  · intro x y z hz
    have hl : len (NArr.ofList [x, y, z] PyFloat.nan) = 3 := rfl
    have h0 : (NArr.ofList [x, y, z] PyFloat.nan).shape.getLastD 0 ≠ 0 := by simp [NArr.ofList]
    have he : ∃ i, InShape (NArr.ofList [x, y, z] PyFloat.nan).shape.dropLast i ∧
        (NArr.ofList [x, y, z] PyFloat.nan).get (i ++ [(NArr.ofList [x, y, z] PyFloat.nan).shape.getLastD 0 - 1]) >
          PyFloat.fin 0 :=
      ⟨[], by simp [NArr.ofList, inShape_nil_iff], by simpa [NArr.ofList] using hz⟩
    simp only [checkLocation, atleast1d_list, hl, ne_eq, not_true_eq_false, if_false, h0, he, if_true]

/-- A point source: what is no number is a `TypeError`, a resistivity that is not positive a `ValueError`; a location that is no
array of numbers is a `TypeError`, one without exactly three entries or above the surface a `ValueError`.  Nothing changes. -/
theorem point_refusals (s : Point) (v : Obj) :
    ((∀ y, v.toFloat ≠ .ok y) → s.setCurrent v = (s, some .typeError) ∧ s.setRho v = (s, some .typeError)) ∧
    (∀ x, v.toFloat = .ok x → x ≤ .fin 0 → s.setRho v = (s, some .valueError)) ∧
    ((∀ a, v.atleast1dFloat ≠ .ok a) → s.setLocation v = (s, some .typeError)) ∧
    (∀ l : List PyFloat, l.length ≠ 3 → s.setLocation (.seq (NArr.ofList l .nan)) = (s, some .valueError)) ∧
    (∀ x y z : PyFloat, z > .fin 0 → s.setLocation (.seq (NArr.ofList [x, y, z] .nan)) = (s, some .valueError)) := by
  refine ⟨?_, ?_, ?_, ?_, ?_⟩
  · intro h
    cases hv : v.toFloat with
    | ok y => exact absurd hv (h y)
    | error e => simp [Point.setCurrent, Point.setRho, floatOrTypeError, hv]
  · intro x hv hx
    simp [Point.setRho, floatOrTypeError, hv, hx]
  · intro h
    simp [Point.setLocation, (checkLocation_refusals v []).1 h]
  · intro l h
    simp [Point.setLocation, (checkLocation_refusals v l).2.1 h]
  · intro x y z h
    simp [Point.setLocation, (checkLocation_refusals v []).2.2 x y z h]

/-- The same for a dipole source. -/
theorem dipole_refusals (s : Dipole) (v : Obj) :
    ((∀ y, v.toFloat ≠ .ok y) → s.setCurrent v = (s, some .typeError) ∧ s.setRho v = (s, some .typeError)) ∧
    (∀ x, v.toFloat = .ok x → x ≤ .fin 0 → s.setRho v = (s, some .valueError)) ∧
    ((∀ a, v.atleast1dFloat ≠ .ok a) →
      s.setLocationA v = (s, some .typeError) ∧ s.setLocationB v = (s, some .typeError)) ∧
    (∀ l : List PyFloat, l.length ≠ 3 → s.setLocationA (.seq (NArr.ofList l .nan)) = (s, some .valueError) ∧
      s.setLocationB (.seq (NArr.ofList l .nan)) = (s, some .valueError)) ∧
    (∀ x y z : PyFloat, z > .fin 0 → s.setLocationA (.seq (NArr.ofList [x, y, z] .nan)) = (s, some .valueError) ∧
      s.setLocationB (.seq (NArr.ofList [x, y, z] .nan)) = (s, some .valueError)) := by
  refine ⟨?_, ?_, ?_, ?_, ?_⟩
  · intro h
    cases hv : v.toFloat with
    | ok y => exact absurd hv (h y)
    | error e => simp [Dipole.setCurrent, Dipole.setRho, floatOrTypeError, hv]
  · intro x hv hx
    simp [Dipole.setRho, floatOrTypeError, hv, hx]
  · intro h
    simp [Dipole.setLocationA, Dipole.setLocationB, (checkLocation_refusals v []).1 h]
  · intro l h
    simp [Dipole.setLocationA, Dipole.setLocationB, (checkLocation_refusals v l).2.1 h]
  · intro x y z h
    simp [Dipole.setLocationA, Dipole.setLocationB, (checkLocation_refusals v []).2.2 x y z h]

/-- The resistivity given to a constructor: zero raises `ZeroDivisionError` before any check, a negative number `ValueError`, a
list or string or `None` `TypeError`. -/
theorem point_new_refusals (mu0 eps0 : ℝ) (current location : Obj) :
    Point.new mu0 eps0 (.num (.fin 0)) current location = .error .zeroDivisionError ∧
    (∀ r : ℝ, r < 0 → Point.new mu0 eps0 (.num (.fin r)) current location = .error .valueError) ∧
    (∀ a, Point.new mu0 eps0 (.seq a) current location = .error .typeError) ∧
    (∀ t, Point.new mu0 eps0 (.str t) current location = .error .typeError) ∧
    Point.new mu0 eps0 .none current location = .error .typeError := by
  refine ⟨?_, ?_, ?_, ?_, ?_⟩
  · simp [Point.new, Source.new, invObj, PyFloat.pyDiv]
  · intro r hr
    have h1 : (1 / r : ℝ) ≤ 0 := (div_neg_of_pos_of_neg one_pos hr).le
    have : Source.new mu0 eps0 (.num (.fin r)) = .error .valueError := by
      simp [Source.new, invObj, PyFloat.pyDiv, hr.ne, PyFloat.npDiv, EM.new, EM.setSigma, floatOrTypeError, Obj.toFloat,
        SetResult.andThen, hr.le]
    simp [Point.new, this]
  · intro a; simp [Point.new, Source.new, invObj]
  · intro a; simp [Point.new, Source.new, invObj]
  · simp [Point.new, Source.new, invObj]

end HalfspaceState

/-! ## The layered halfspace -/

namespace LayeredState

open Classical

variable [FloatGrammar]

/-- Frequencies: what is no array of numbers is a `TypeError`, a negative entry a `ValueError`, more than one axis (without
negative entries) a `TypeError`.  Nothing changes. -/
theorem frequency_refusals (s : Layered) (v : Obj) :
    ((∀ a, v.atleast1dFloat ≠ .ok a) → s.setFrequency v = (s, some .typeError)) ∧
    (∀ a i, v.atleast1dFloat = .ok a → InShape a.shape i → a.get i < .fin 0 → s.setFrequency v = (s, some .valueError)) ∧
    (∀ a, v.atleast1dFloat = .ok a → (∀ i, InShape a.shape i → ¬ a.get i < .fin 0) → 2 ≤ a.ndim →
      s.setFrequency v = (s, some .typeError)) := by
  refine ⟨?_, ?_, ?_⟩
  · intro h
    cases hv : v.atleast1dFloat with
    | ok a => exact absurd hv (h a)
    | error e => simp [Layered.setFrequency, hv]
  · intro a i hv hi hlt
    have : anyEntry a (· < .fin 0) := ⟨i, hi, hlt⟩
    simp [Layered.setFrequency, hv, this]
  · intro a hv hn h2
    have : ¬ anyEntry a (· < .fin 0) := fun ⟨i, hi, hlt⟩ => hn i hi hlt
    simp [Layered.setFrequency, hv, this, show a.ndim > 1 from h2]

/-- Thicknesses: the same, `None` standing for no layers. -/
theorem thickness_refusals (s : Layered) (v : Obj) :
    (v ≠ .none → (∀ a, v.atleast1dFloat ≠ .ok a) → s.setThickness v = (s, some .typeError)) ∧
    (∀ a i, v ≠ .none → v.atleast1dFloat = .ok a → InShape a.shape i → a.get i < .fin 0 →
      s.setThickness v = (s, some .valueError)) ∧
    (∀ a, v ≠ .none → v.atleast1dFloat = .ok a → (∀ i, InShape a.shape i → ¬ a.get i < .fin 0) → 2 ≤ a.ndim →
      s.setThickness v = (s, some .typeError)) ∧
    ∃ a, a.shape = [0] ∧ s.setThickness .none = ({ s with thickness := a }, none) := by
  have hd : ∀ v, v ≠ .none → s.setThickness v = match v.atleast1dFloat with
    | .error _ => (s, some .typeError)
    | .ok a => if a.shape.headD 0 > 0 ∧ anyEntry a (· < .fin 0) then (s, some .valueError)
      else if a.ndim > 1 then (s, some .typeError) else ({ s with thickness := a }, none) := by
    intro v hv
    cases v <;> first | rfl | exact absurd rfl hv
  refine ⟨?_, ?_, ?_, ?_⟩
  · intro hn h
    cases hv : v.atleast1dFloat with
    | ok a => exact absurd hv (h a)
    | error e => simp [hd v hn, hv]
  · intro a i hn hv hi hlt
    have h1 : anyEntry a (· < .fin 0) := ⟨i, hi, hlt⟩
    have h2 : 0 < a.shape.headD 0 := by
      have := atleast1d_shape hv
      revert hi
      cases hsh : a.shape with
      | nil => exact absurd hsh this
      | cons n t =>
        intro hi
        cases hi with
        | cons h _ => exact lt_of_le_of_lt (Nat.zero_le _) h
    rw [hd v hn, hv]
    simp only
    rw [if_pos ⟨h2, h1⟩]
  · intro a hn hv hneg h2
    have : ¬ anyEntry a (· < .fin 0) := fun ⟨i, hi, hlt⟩ => hneg i hi hlt
    simp [hd v hn, hv, this, show a.ndim > 1 from h2]
  · refine ⟨⟨[0], fun _ => .nan⟩, rfl, ?_⟩
    simp [Layered.setThickness, NArr.ndim]

omit [FloatGrammar] in
/-- The outcome of a property assignment that is refused. -/
private theorem property_refusals (P : PyFloat → Prop) (nl nf : ℕ) (a : NArr CFloat) :
    (∀ i, InShape a.shape i → (a.get i).im < .fin 0 → checkProperty P nl nf a = some .valueError) ∧
    (∀ i, (∀ j, InShape a.shape j → ¬ (a.get j).im < .fin 0) → InShape a.shape i → P (a.get i).re →
      checkProperty P nl nf a = some .valueError) ∧
    ((∀ j, InShape a.shape j → ¬ (a.get j).im < .fin 0 ∧ ¬ P (a.get j).re) → a.shape ≠ [] → a.shape ≠ [nl] →
      a.shape ≠ [nl, nf] → checkProperty P nl nf a = some .typeError) := by
  refine ⟨?_, ?_, ?_⟩
  · intro i hi h
    have : anyEntry a (fun z => z.im < .fin 0) := ⟨i, hi, h⟩
    simp [checkProperty, this]
  · intro i hn hi h
    have h1 : ¬ anyEntry a (fun z => z.im < .fin 0) := fun ⟨j, hj, hlt⟩ => hn j hj hlt
    have h2 : anyEntry a (fun z => P z.re) := ⟨i, hi, h⟩
    simp [checkProperty, h1, h2]
  · intro hn h0 h1 h2
    have e1 : ¬ anyEntry a (fun z => z.im < .fin 0) := fun ⟨j, hj, hlt⟩ => (hn j hj).1 hlt
    have e2 : ¬ anyEntry a (fun z => P z.re) := fun ⟨j, hj, hlt⟩ => (hn j hj).2 hlt
    unfold checkProperty
    rw [if_neg e1, if_neg e2]
    by_cases c1 : a.ndim = 1 ∧ a.shape.headD 0 ≠ nl
    · rw [if_pos c1]
    rw [if_neg c1]
    by_cases c2 : a.ndim = 2 ∧ a.shape ≠ [nl, nf]
    · rw [if_pos c2]
    rw [if_neg c2]
    by_cases c3 : a.ndim > 2
    · rw [if_pos c3]
    · exfalso
      simp only [NArr.ndim] at c1 c2 c3
      rcases hs : a.shape with _ | ⟨n, _ | ⟨m, _ | ⟨k, t⟩⟩⟩ <;> rw [hs] at c1 c2 c3 h0 h1 h2
      · exact h0 rfl
      · exact c1 ⟨rfl, fun h => h1 (by rw [← h]; rfl)⟩
      · exact c2 ⟨rfl, h2⟩
      · simp at c3

/-- Conductivities, permeabilities and permittivities: what is neither a number nor an array of numbers is a `TypeError`; a
negative imaginary part or a real part below the bound is a `ValueError`; a shape that fits neither the layers nor layers times
frequencies is a `TypeError`.  Nothing changes. -/
theorem property_refusals_all (mu0 eps0 : ℝ) (s : Layered) (set : CObj → SetResult Layered) (tooSmall : PyFloat → Prop)
    (h : (set = s.setSigma ∧ tooSmall = (· ≤ .fin 0)) ∨ (set = s.setMu mu0 ∧ tooSmall = (· < .fin mu0)) ∨
      (set = s.setEpsilon eps0 ∧ tooSmall = (· < .fin eps0))) :
    set .other = (s, some .typeError) ∧
    ∀ a : NArr CFloat, a.shape ≠ [] →
      (∀ i, InShape a.shape i → (a.get i).im < .fin 0 → set (.array a) = (s, some .valueError)) ∧
      (∀ i, (∀ j, InShape a.shape j → ¬ (a.get j).im < .fin 0) → InShape a.shape i → tooSmall (a.get i).re →
        set (.array a) = (s, some .valueError)) ∧
      ((∀ j, InShape a.shape j → ¬ (a.get j).im < .fin 0 ∧ ¬ tooSmall (a.get j).re) → a.shape ≠ [s.nLayer] →
        a.shape ≠ [s.nLayer, s.nFrequency] → set (.array a) = (s, some .typeError)) := by
  have hset : set .other = (s, some .typeError) ∧ ∀ a : NArr CFloat, a.shape ≠ [] → ∀ e,
      checkProperty tooSmall s.nLayer s.nFrequency a = some e → set (.array a) = (s, some e) := by
    rcases h with ⟨rfl, rfl⟩ | ⟨rfl, rfl⟩ | ⟨rfl, rfl⟩ <;>
      refine ⟨rfl, fun a ha e he => ?_⟩
    · simp [Layered.setSigma, CObj.convert, ha, he]
    · simp [Layered.setMu, CObj.convert, ha, he]
    · simp [Layered.setEpsilon, CObj.convert, ha, he]
  refine ⟨hset.1, fun a ha => ?_⟩
  obtain ⟨p1, p2, p3⟩ := property_refusals tooSmall s.nLayer s.nFrequency a
  exact ⟨fun i hi hlt => hset.2 a ha _ (p1 i hi hlt), fun i hn hi hlt => hset.2 a ha _ (p2 i hn hi hlt),
    fun hn h1 h2 => hset.2 a ha _ (p3 hn ha h1 h2)⟩

/-- A concrete case: `-1` Hz is refused with `ValueError`. -/
example (s : Layered) : s.setFrequency (.num (.fin (-1))) = (s, some .valueError) := by
  refine (frequency_refusals s _).2.1 ⟨[1], fun _ => .fin (-1)⟩ [0] (num_array _) ?_ ?_
  · exact List.Forall₂.cons (by norm_num) .nil
  · norm_num

end LayeredState

/-! ## `plot2Ddata` -/

namespace Plot2D

open Classical

/-- An empty `clim` raises `ValueError` and leaves the options alone. -/
theorem empty_clim_raises (a : Args) (opts : Dict) (h : a.clim = some []) : plot2Ddata a opts = (opts, .error .valueError) := by
  simp [plot2Ddata, resolveLimits, h, npMin, bind, Except.bind]

/-- A limit among the options that is no number, next to `clim`, raises `TypeError`. -/
theorem option_not_number_raises (a : Args) (opts : Dict) (c : List ℝ) (hc : c ≠ []) (ha : a.clim = some (c.map .fin)) (v : Val)
    (hv : opts "vmin" = some v) (hn : ∀ x, v ≠ .num x) : plot2Ddata a opts = (opts, .error .typeError) := by
  rcases c with _ | ⟨x, xs⟩
  · exact absurd rfl hc
  have e1 := npMin_fin x xs
  have e2 := npMax_fin x xs
  have : resolveOne opts "vmin" (.num (.fin (xs.foldl min x))) = (opts, .error .typeError) := by
    cases v with
    | num y => exact absurd rfl (hn y)
    | _ => simp [resolveOne, hv]
  simp only [plot2Ddata, resolveLimits, ha, e1, e2, bind, Except.bind, pure, Except.pure, this]

/-- The keyword arguments of the two drawing calls: the caller's options, and where the caller gave none the levels, the norm and
the drawing order for the filled contours, the levels and the drawing order for the lines.  Nothing else is passed. -/
theorem drawn_options {a : Args} {opts : Dict} {r : Drawn} (h : (plot2Ddata a opts).2 = .ok r) :
    (∀ k, k ≠ "levels" → k ≠ "norm" → k ≠ "zorder" → r.contourf k = (plot2Ddata a opts).1 k) ∧
    (∀ k, k = "norm" ∨ k = "zorder" → (plot2Ddata a opts).1 k = none → r.contourf k = some .other) ∧
    (∀ c, r.contour = some c →
      (∀ k, k ≠ "levels" → k ≠ "zorder" → c k = a.levelOpts k) ∧
      (∀ k v, a.levelOpts k = some v → c k = some v) ∧
      (a.levelOpts "levels" = none → c "levels" = some (levelsOf a.scale r.vmin r.vmax a.ncontour)) ∧
      (a.levelOpts "zorder" = none → c "zorder" = some .other)) := by
  simp only [plot2Ddata] at h ⊢
  rcases hr : resolveLimits a.clim opts with ⟨o, e | ⟨lo, hi⟩⟩ <;> rw [hr] at h
  · simp at h
  · simp only at h ⊢
    rcases hd : gridData a with e | d
    · rw [hd] at h
      simp [bind, Except.bind] at h
    rcases h1 : fillMin lo (finiteEntries d) with e | v1
    · rw [hd] at h
      simp [bind, Except.bind, h1] at h
    rcases h2 : fillMax hi (finiteEntries d) with e | v2
    · rw [hd] at h
      simp [bind, Except.bind, h1, h2] at h
    rw [hd] at h
    simp only [bind, Except.bind, h1, h2] at h
    by_cases hc1 : a.level.truthy ∧ a.vec ≠ .bool false ∧
        ((Dict.over (fun k => if k = "levels" then some (levelsOf a.scale v1 v2 a.ncontour) else
          if k = "zorder" then some Val.other else Option.none) a.levelOpts "levels").isSome ∨
        (Dict.over (fun k => if k = "levels" then some (levelsOf a.scale v1 v2 a.ncontour) else
          if k = "zorder" then some Val.other else Option.none) a.levelOpts "zorder").isSome)
    · rw [if_pos hc1] at h; cases h
    rw [if_neg hc1] at h
    by_cases hc2 : a.fignameGiven ∧ a.axGiven
    · rw [if_pos hc2] at h; cases h
    rw [if_neg hc2] at h
    simp only [pure, Except.pure, Except.ok.injEq] at h
    subst h
    refine ⟨?_, ?_, ?_⟩
    · intro k k1 k2 k3
      simp only [Dict.over, k1, k2, k3, if_false, or_self]
      cases o k <;> rfl
    · intro k hk ho
      have hl : k ≠ "levels" := by rcases hk with rfl | rfl <;> decide
      simp only [Dict.over, ho, hl, if_false, if_pos hk]
      rfl
    · intro c hc
      by_cases hlev : a.level.truthy
      · simp only [hlev, if_true, Option.some.injEq] at hc
        subst hc
        refine ⟨?_, ?_, ?_, ?_⟩
        · intro k k1 k2
          simp only [Dict.over, k1, k2, if_false]
          cases a.levelOpts k <;> rfl
        · intro k v hk
          simp [Dict.over, hk]
        · intro hk
          simp [Dict.over, hk]
        · intro hk
          simp [Dict.over, hk]
      · simp [hlev] at hc

/-- A call without `clim` and options draws, so the hypothesis of `drawn_options` is met. -/
example : ∃ r, (plot2Ddata (plainArgs none) fun _ => none).2 = .ok r := by
  obtain ⟨r, hr, _⟩ := otherwise_draws (plainArgs none) (fun _ => none) _ (limits_from_options _) [.fin 3, .fin 5]
    (by simp [gridData, plainArgs]) ⟨3, by simp⟩ (by simp [plainArgs]) (by simp [plainArgs])
  exact ⟨r, hr⟩

end Plot2D

end Verif
