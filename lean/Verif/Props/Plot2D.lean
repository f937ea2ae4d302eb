import Verif.Model.Plot2D
import Mathlib.Tactic

/-! # Options of `plot2Ddata` (C67) -/

namespace Verif.Plot2D

open Classical

/-! ## Extremes -/

theorem foldl_min_least (x : ℝ) (xs : List ℝ) : xs.foldl min x ∈ x :: xs ∧ ∀ y ∈ x :: xs, xs.foldl min x ≤ y := by
  induction xs generalizing x with
  | nil => simp
  | cons a xs ih =>
    obtain ⟨h1, h2⟩ := ih (min x a)
    refine ⟨?_, fun y hy => ?_⟩
    · rw [List.foldl_cons]
      rcases List.mem_cons.1 h1 with h | h
      · rw [h]
        rcases min_choice x a with e | e <;> rw [e] <;> simp
      · simp [h]
    · rw [List.foldl_cons]
      have h0 := h2 _ List.mem_cons_self
      rcases List.mem_cons.1 hy with rfl | hy
      · exact h0.trans (min_le_left _ _)
      · rcases List.mem_cons.1 hy with rfl | hy
        · exact h0.trans (min_le_right _ _)
        · exact h2 y (List.mem_cons_of_mem _ hy)

theorem foldl_max_greatest (x : ℝ) (xs : List ℝ) : xs.foldl max x ∈ x :: xs ∧ ∀ y ∈ x :: xs, y ≤ xs.foldl max x := by
  induction xs generalizing x with
  | nil => simp
  | cons a xs ih =>
    obtain ⟨h1, h2⟩ := ih (max x a)
    refine ⟨?_, fun y hy => ?_⟩
    · rw [List.foldl_cons]
      rcases List.mem_cons.1 h1 with h | h
      · rw [h]
        rcases max_choice x a with e | e <;> rw [e] <;> simp
      · simp [h]
    · rw [List.foldl_cons]
      have h0 := h2 _ List.mem_cons_self
      rcases List.mem_cons.1 hy with rfl | hy
      · exact (le_max_left _ _).trans h0
      · rcases List.mem_cons.1 hy with rfl | hy
        · exact (le_max_right _ _).trans h0
        · exact h2 y (List.mem_cons_of_mem _ hy)

theorem min2_fin (a b : ℝ) : min2 (.fin a) (.fin b) = .fin (min a b) := by
  simp only [min2, reduceCtorEq, or_self, if_false, PyFloat.fin_le_fin, min_def]
  split_ifs <;> rfl

theorem max2_fin (a b : ℝ) : max2 (.fin a) (.fin b) = .fin (max a b) := by
  simp only [max2, reduceCtorEq, or_self, if_false, PyFloat.fin_le_fin, max_comm a b, max_def]
  split_ifs <;> rfl

theorem npMin_fin (x : ℝ) (xs : List ℝ) : npMin ((x :: xs).map .fin) = .ok (.fin (xs.foldl min x)) := by
  have : ∀ x, (xs.map PyFloat.fin).foldl min2 (.fin x) = .fin (xs.foldl min x) := by
    induction xs with
    | nil => simp
    | cons a xs ih => intro x; simp [min2_fin, ih]
  simp [npMin, this]

theorem npMax_fin (x : ℝ) (xs : List ℝ) : npMax ((x :: xs).map .fin) = .ok (.fin (xs.foldl max x)) := by
  have : ∀ x, (xs.map PyFloat.fin).foldl max2 (.fin x) = .fin (xs.foldl max x) := by
    induction xs with
    | nil => simp
    | cons a xs ih => intro x; simp [max2_fin, ih]
  simp [npMax, this]

/-! ## Colour limits -/

/-- The option, if there is one, agrees with the limit. -/
def Agrees (v : Option Val) (l : ℝ) : Prop := v = none ∨ ∃ x : ℝ, v = some (.num (.fin x)) ∧ |x - l| ≤ 1e-8 + 1e-5 * |l|

theorem resolveOne_agrees {opts : Dict} {key : String} {l : ℝ} (h : Agrees (opts key) l) :
    (resolveOne opts key (.num (.fin l))).2 = .ok (.num (.fin l)) ∧ ∀ k, k ≠ key → (resolveOne opts key (.num (.fin l))).1 k = opts k := by
  rcases h with h | ⟨x, h, hx⟩
  · simp [resolveOne, h]
  · have : isclose (.fin x) (.fin l) := hx
    simp only [resolveOne, h, if_pos this, true_and]
    intro k hk
    simp [Dict.erase, hk]

/-- **C67.** With `clim`, the limits are its least and greatest entry, if the limits in the options (if any) agree with them. -/
theorem limits_from_clim (c : List ℝ) (hc : c ≠ []) (opts : Dict) :
    ∃ lo hi, (lo ∈ c ∧ ∀ y ∈ c, lo ≤ y) ∧ (hi ∈ c ∧ ∀ y ∈ c, y ≤ hi) ∧
      (Agrees (opts "vmin") lo → Agrees (opts "vmax") hi →
        (resolveLimits (some (c.map .fin)) opts).2 = .ok (.num (.fin lo), .num (.fin hi))) := by
  rcases c with _ | ⟨x, xs⟩
  · exact absurd rfl hc
  refine ⟨xs.foldl min x, xs.foldl max x, foldl_min_least x xs, foldl_max_greatest x xs, fun h1 h2 => ?_⟩
  have e1 := npMin_fin x xs
  have e2 := npMax_fin x xs
  simp only [resolveLimits, e1, e2, bind, Except.bind, pure, Except.pure]
  obtain ⟨g1, g2⟩ := resolveOne_agrees h1
  rcases hr : resolveOne opts "vmin" (.num (.fin (xs.foldl min x))) with ⟨o, r⟩
  rw [hr] at g1 g2
  simp only at g1 g2
  subst g1
  have h2' : Agrees (o "vmax") (xs.foldl max x) := by rwa [g2 _ (by decide)]
  obtain ⟨g3, -⟩ := resolveOne_agrees h2'
  simp only
  rcases hr' : resolveOne o "vmax" (.num (.fin (xs.foldl max x))) with ⟨o', r'⟩
  rw [hr'] at g3
  simp only at g3
  subst g3
  rfl

/-- **C67.** A number in the options that is not close to the limit that `clim` gives raises, and nothing is drawn. -/
theorem conflict_raises (c : List ℝ) (hc : c ≠ []) (opts : Dict) (a : Args) (ha : a.clim = some (c.map .fin)) :
    ∃ lo hi, (lo ∈ c ∧ ∀ y ∈ c, lo ≤ y) ∧ (hi ∈ c ∧ ∀ y ∈ c, y ≤ hi) ∧
      (∀ x : ℝ, opts "vmin" = some (.num (.fin x)) → 1e-8 + 1e-5 * |lo| < |x - lo| → (plot2Ddata a opts).2 = .error .exception) ∧
      (∀ x : ℝ, Agrees (opts "vmin") lo → opts "vmax" = some (.num (.fin x)) → 1e-8 + 1e-5 * |hi| < |x - hi| →
        (plot2Ddata a opts).2 = .error .exception) := by
  rcases c with _ | ⟨x, xs⟩
  · exact absurd rfl hc
  refine ⟨xs.foldl min x, xs.foldl max x, foldl_min_least x xs, foldl_max_greatest x xs, ?_, ?_⟩
  · intro v hv hn
    have e1 := npMin_fin x xs
    have e2 := npMax_fin x xs
    have hcl : ¬ isclose (.fin v) (.fin (xs.foldl min x)) := not_le.2 hn
    simp only [plot2Ddata, ha, resolveLimits, e1, e2, bind, Except.bind, pure, Except.pure, resolveOne, hv, if_neg hcl]
  · intro v hag hv hn
    have e1 := npMin_fin x xs
    have e2 := npMax_fin x xs
    have hcl : ¬ isclose (.fin v) (.fin (xs.foldl max x)) := not_le.2 hn
    obtain ⟨g1, g2⟩ := resolveOne_agrees hag
    rcases hr : resolveOne opts "vmin" (.num (.fin (xs.foldl min x))) with ⟨o, r⟩
    rw [hr] at g1 g2
    simp only at g1 g2
    subst g1
    have hv' : o "vmax" = some (.num (.fin v)) := by rw [g2 _ (by decide), hv]
    have hr' : resolveOne o "vmax" (.num (.fin (xs.foldl max x))) = (o, .error .exception) := by
      simp only [resolveOne, hv', if_neg hcl]
    simp only [plot2Ddata, ha, resolveLimits, e1, e2, bind, Except.bind, pure, Except.pure, hr, hr']

/-- **C67.** Without `clim`, the limits are those of the options; `None` where there is none. -/
theorem limits_from_options (opts : Dict) :
    (resolveLimits none opts).2 = .ok ((opts "vmin").getD .none, (opts "vmax").getD .none) := by
  rcases h1 : opts "vmin" with _ | v <;> rcases h2 : opts "vmax" with _ | w <;>
    simp [resolveLimits, resolveOne, h1, h2, Dict.erase]

theorem finiteEntries_mem (d : List PyFloat) (x : ℝ) : x ∈ finiteEntries d ↔ PyFloat.fin x ∈ d := by
  simp only [finiteEntries, List.mem_filterMap]
  constructor
  · rintro ⟨a, ha, h⟩
    cases a <;> simp at h
    subst h
    exact ha
  · exact fun h => ⟨_, h, rfl⟩

/-- **C67.** A limit that is still `None` becomes the least (greatest) entry of the data that is neither NaN nor infinite; without such an entry the call
raises; a limit that is set stays. -/
theorem limits_from_data (d : List PyFloat) :
    (∀ v, v ≠ Val.none → fillMin v (finiteEntries d) = .ok v ∧ fillMax v (finiteEntries d) = .ok v) ∧
    ((∀ x : ℝ, PyFloat.fin x ∉ d) → fillMin .none (finiteEntries d) = .error .valueError ∧ fillMax .none (finiteEntries d) = .error .valueError) ∧
    ((∃ x : ℝ, PyFloat.fin x ∈ d) → ∃ lo hi : ℝ, fillMin .none (finiteEntries d) = .ok (.num (.fin lo)) ∧
      fillMax .none (finiteEntries d) = .ok (.num (.fin hi)) ∧
      (PyFloat.fin lo ∈ d ∧ ∀ y : ℝ, PyFloat.fin y ∈ d → lo ≤ y) ∧ (PyFloat.fin hi ∈ d ∧ ∀ y : ℝ, PyFloat.fin y ∈ d → y ≤ hi)) := by
  refine ⟨fun v hv => ?_, fun h => ?_, fun ⟨x, hx⟩ => ?_⟩
  · cases v <;> first | exact absurd rfl hv | exact ⟨rfl, rfl⟩
  · have : finiteEntries d = [] := List.eq_nil_iff_forall_not_mem.2 fun x hx => h x ((finiteEntries_mem d x).1 hx)
    simp [this, fillMin, fillMax]
  · have hx' := (finiteEntries_mem d x).2 hx
    rcases hd : finiteEntries d with _ | ⟨y, ys⟩
    · rw [hd] at hx'
      simp at hx'
    · have m := fun z => finiteEntries_mem d z
      rw [hd] at m
      obtain ⟨a1, a2⟩ := foldl_min_least y ys
      obtain ⟨b1, b2⟩ := foldl_max_greatest y ys
      exact ⟨_, _, rfl, rfl, ⟨(m _).1 a1, fun z hz => a2 z ((m z).2 hz)⟩, (m _).1 b1, fun z hz => b2 z ((m z).2 hz)⟩

/-- **C67.** The limits that are drawn: those of the options and `clim`, filled in from the magnitude of the data on the grid. -/
theorem drawn_limits {a : Args} {opts : Dict} {r : Drawn} (h : (plot2Ddata a opts).2 = .ok r) :
    ∃ lo hi d, (resolveLimits a.clim opts).2 = .ok (lo, hi) ∧ gridData a = .ok d ∧
      fillMin lo (finiteEntries d) = .ok r.vmin ∧ fillMax hi (finiteEntries d) = .ok r.vmax ∧
      r.contourf "levels" = some (((plot2Ddata a opts).1 "levels").getD (levelsOf a.scale r.vmin r.vmax a.ncontour)) ∧
      ∀ k v, (plot2Ddata a opts).1 k = some v → r.contourf k = some v := by
  simp only [plot2Ddata] at h ⊢
  rcases hr : resolveLimits a.clim opts with ⟨o, e | ⟨lo, hi⟩⟩ <;> rw [hr] at h
  · simp at h
  · simp only at h ⊢
    rcases hd : gridData a with e | d
    · rw [hd] at h
      simp [bind, Except.bind] at h
    rcases h1 : fillMin lo (finiteEntries d) with e | v1
    · rw [hd] at h
      simp [bind, Except.bind, h1] at h
    rcases h2 : fillMax hi (finiteEntries d) with e | v2
    · rw [hd] at h
      simp [bind, Except.bind, h1, h2] at h
    rw [hd] at h
    simp only [bind, Except.bind, h1, h2] at h
    split_ifs at h
    all_goals
      simp only [pure, Except.pure, Except.ok.injEq] at h
      subst h
      refine ⟨lo, hi, d, rfl, rfl, h1, h2, ?_, fun k v hk => ?_⟩
      · simp only [Dict.over, if_true]
        cases o "levels" <;> rfl
      · simp [Dict.over, hk]

/-! ## Levels -/

/-- **C67.** On the linear scale there are `ncontour + 1` levels, evenly spaced from one limit to the other. -/
theorem levels_linear (scale : String) (hs : scale ≠ "log") (a b : ℝ) (n : ℕ) (hn : 0 < n) :
    ∃ l, levelsOf scale (.num (.fin a)) (.num (.fin b)) n = .levels l ∧ l.length = n + 1 ∧ l[0]? = some a ∧ l[n]? = some b ∧
      ∀ i, i < n → ∃ x y, l[i]? = some x ∧ l[i + 1]? = some y ∧ y - x = (b - a) / n := by
  have hn' : (n : ℝ) ≠ 0 := by exact_mod_cast hn.ne'
  refine ⟨linspace a b n, by simp [levelsOf, hs], by simp [linspace], by simp [linspace], ?_, fun i hi => ?_⟩
  · simp only [linspace, List.getElem?_map, List.getElem?_range (Nat.lt_succ_self n), Option.map_some, Option.some.injEq]
    field_simp
    ring
  · refine ⟨a + i * ((b - a) / n), a + (i + 1 : ℕ) * ((b - a) / n), ?_, ?_, by push_cast; ring⟩ <;>
      simp only [linspace, List.getElem?_map, List.getElem?_range (show i < n + 1 by omega), List.getElem?_range (show i + 1 < n + 1 by omega),
        Option.map_some]

/-- **C67.** On the logarithmic scale the levels are in geometric progression from one limit to the other. -/
theorem levels_log (a b : ℝ) (ha : 0 < a) (hb : 0 < b) (n : ℕ) (hn : 0 < n) :
    ∃ l, levelsOf "log" (.num (.fin a)) (.num (.fin b)) n = .levels l ∧ l.length = n + 1 ∧ l[0]? = some a ∧ l[n]? = some b ∧
      ∀ i, i < n → ∃ x y, l[i]? = some x ∧ l[i + 1]? = some y ∧ 0 < x ∧ y = x * (b / a) ^ (1 / (n : ℝ)) := by
  have hn' : (n : ℝ) ≠ 0 := by exact_mod_cast hn.ne'
  have key : ∀ x : ℝ, 0 < x → (10 : ℝ) ^ Real.logb 10 x = x := fun x hx => Real.rpow_logb (by norm_num) (by norm_num) hx
  refine ⟨(linspace (Real.logb 10 a) (Real.logb 10 b) n).map fun t => (10 : ℝ) ^ t, by simp [levelsOf, ha, hb], by simp [linspace],
    by simp [linspace, key a ha], ?_, fun i hi => ?_⟩
  · simp only [linspace, List.getElem?_map, List.getElem?_range (Nat.lt_succ_self n), Option.map_some, Option.some.injEq]
    rw [show Real.logb 10 a + (n : ℝ) * ((Real.logb 10 b - Real.logb 10 a) / n) = Real.logb 10 b by field_simp; ring]
    exact key b hb
  · refine ⟨(10 : ℝ) ^ (Real.logb 10 a + i * ((Real.logb 10 b - Real.logb 10 a) / n)),
      (10 : ℝ) ^ (Real.logb 10 a + (i + 1 : ℕ) * ((Real.logb 10 b - Real.logb 10 a) / n)), ?_, ?_, by positivity, ?_⟩
    · simp only [linspace, List.getElem?_map, List.getElem?_range (show i < n + 1 by omega), Option.map_some]
    · simp only [linspace, List.getElem?_map, List.getElem?_range (show i + 1 < n + 1 by omega), Option.map_some]
    · have hba : b / a = (10 : ℝ) ^ (Real.logb 10 b - Real.logb 10 a) := by
        rw [Real.rpow_sub (by norm_num), key a ha, key b hb]
      rw [hba, ← Real.rpow_mul (by norm_num), ← Real.rpow_add (by norm_num)]
      congr 1
      push_cast
      ring

/-! ## The caller's dictionary -/

theorem resolveOne_other (opts : Dict) (key : String) (l : Val) (k : String) (hk : k ≠ key) : (resolveOne opts key l).1 k = opts k := by
  simp only [resolveOne]
  split
  · rfl
  · split
    · simp [Dict.erase, hk]
    · split
      · split_ifs <;> simp [Dict.erase, hk]
      · rfl
    · rfl

theorem plot_dict (a : Args) (opts : Dict) : (plot2Ddata a opts).1 = (resolveLimits a.clim opts).1 := by
  simp only [plot2Ddata]
  rcases resolveLimits a.clim opts with ⟨o, e | ⟨lo, hi⟩⟩ <;> rfl

theorem resolveLimits_other (clim : Option (List PyFloat)) (opts : Dict) (k : String) (h1 : k ≠ "vmin") (h2 : k ≠ "vmax") :
    (resolveLimits clim opts).1 k = opts k := by
  simp only [resolveLimits]
  split
  · rfl
  · rename_i lo hi _
    have g1 := resolveOne_other opts "vmin" lo k h1
    rcases hr : resolveOne opts "vmin" lo with ⟨o, e | v⟩ <;> rw [hr] at g1 <;> simp only at g1 ⊢
    · exact g1
    · have g2 := resolveOne_other o "vmax" hi k h2
      rcases hr' : resolveOne o "vmax" hi with ⟨o', e | v'⟩ <;> rw [hr'] at g2 <;> simp only at g2 ⊢ <;> rw [g2, g1]

theorem resolveOne_absent (opts : Dict) (key : String) (l : Val) (h : opts key = none) : resolveOne opts key l = (opts, .ok l) := by
  simp [resolveOne, h]

/-- **C67.** (partial: dictionaries without colour limits.)  They are not modified, whether or not the call raises; no other key ever is.  In
particular the shared default dictionary stays empty. -/
theorem options_kept_partial (a : Args) (opts : Dict) :
    (opts "vmin" = none → opts "vmax" = none → (plot2Ddata a opts).1 = opts) ∧
    ∀ k, k ≠ "vmin" → k ≠ "vmax" → (plot2Ddata a opts).1 k = opts k := by
  rw [plot_dict]
  refine ⟨fun h1 h2 => ?_, fun k => resolveLimits_other a.clim opts k⟩
  simp only [resolveLimits]
  split
  · rfl
  · rw [resolveOne_absent opts "vmin" _ h1]
    simp only
    rw [resolveOne_absent opts "vmax" _ h2]

/-- Data from 3 to 5 and nothing else chosen. -/
def plainArgs (clim : Option (List PyFloat)) : Args :=
  ⟨.scalar [.fin 3, .fin 5], .bool false, false, .bool false, false, 10, fun _ => none, "linear", clim⟩

/-- Colour limits from 0 to 9. -/
def limitOpts : Dict := fun k => if k = "vmin" then some (.num (.fin 0)) else if k = "vmax" then some (.num (.fin 9)) else none

/-- **C67, negation.** The dictionary of the caller is modified: it loses its colour limits, and the same call with the same dictionary draws with other
limits the second time. -/
theorem options_modified :
    ∃ (a : Args) (opts : Dict) (r r' : Drawn), (plot2Ddata a opts).2 = .ok r ∧ (plot2Ddata a opts).1 "vmin" ≠ opts "vmin" ∧
      (plot2Ddata a (plot2Ddata a opts).1).2 = .ok r' ∧ r.vmin = .num (.fin 0) ∧ r'.vmin = .num (.fin 3) ∧
      r.vmax = .num (.fin 9) ∧ r'.vmax = .num (.fin 5) := by
  have e1 : resolveLimits none limitOpts = (fun _ => none, .ok (.num (.fin 0), .num (.fin 9))) := by
    have : (limitOpts.erase "vmin").erase "vmax" = fun _ => none := by
      funext k
      simp only [Dict.erase, limitOpts]
      split_ifs <;> rfl
    rw [← this]
    simp [resolveLimits, resolveOne, limitOpts, Dict.erase]
  have e2 : resolveLimits none (fun _ => none) = (fun _ => none, .ok (.none, .none)) := by
    simp [resolveLimits, resolveOne]
  have f : finiteEntries [.fin 3, .fin 5] = [3, 5] := by simp [finiteEntries]
  refine ⟨plainArgs none, limitOpts, ?_⟩
  simp only [plot2Ddata, plainArgs, e1, e2, gridData, fillMin, fillMax, bind, Except.bind, Flag.truthy, if_true, if_false, pure, Except.pure,
    Bool.false_eq_true, false_and, show ("linear" = "log") = False by decide, f]
  refine ⟨_, _, rfl, by simp [limitOpts], rfl, rfl, ?_, rfl, ?_⟩
  · norm_num
  · norm_num

/-- **C67, negation.** Even a call that raises because of `vmax` takes `vmin` out of the caller's dictionary. -/
theorem options_modified_on_error :
    ∃ (a : Args) (opts : Dict), (plot2Ddata a opts).2 = .error .exception ∧ opts "vmin" ≠ none ∧ (plot2Ddata a opts).1 "vmin" = none := by
  have e1 := npMin_fin 0 [1]
  have e2 := npMax_fin 0 [1]
  simp only [List.map_cons, List.map_nil, List.foldl_cons, List.foldl_nil] at e1 e2
  have c1 : isclose (.fin 0) (.fin (min 0 1)) := by
    simp [isclose]
    norm_num
  have c2 : ¬ isclose (.fin 9) (.fin (max 0 1)) := by
    simp [isclose]
    norm_num
  refine ⟨plainArgs (some [.fin 0, .fin 1]), limitOpts, ?_⟩
  simp only [plot2Ddata, plainArgs, resolveLimits, e1, e2, bind, Except.bind, pure, Except.pure]
  simp only [resolveOne, limitOpts, if_true, if_pos c1, Dict.erase, show ("vmax" = "vmin") = False by decide, if_false, if_neg c2, ne_eq, reduceCtorEq,
    not_false_eq_true, and_self]

/-- Drawing contour lines over vectors always raises: line 233 passes `levels` twice. -/
theorem level_with_vectors_raises (a : Args) (opts : Dict) (hl : a.level.truthy) (hv : a.vec ≠ .bool false) (r : Drawn) :
    (plot2Ddata a opts).2 ≠ .ok r := by
  intro h
  simp only [plot2Ddata] at h
  rcases hr : resolveLimits a.clim opts with ⟨o, e | ⟨lo, hi⟩⟩ <;> rw [hr] at h
  · simp at h
  · simp only at h
    rcases hd : gridData a with e | d
    · rw [hd] at h
      simp [bind, Except.bind] at h
    rcases h1 : fillMin lo (finiteEntries d) with e | v1
    · rw [hd] at h
      simp [bind, Except.bind, h1] at h
    rcases h2 : fillMax hi (finiteEntries d) with e | v2
    · rw [hd] at h
      simp [bind, Except.bind, h1, h2] at h
    rw [hd] at h
    simp only [bind, Except.bind, h1, h2] at h
    rw [if_pos ⟨hl, hv, .inl (by simp only [Dict.over, if_true]; cases a.levelOpts "levels" <;> rfl)⟩] at h
    cases h

/-- Saving a figure into given axes always raises: line 273 reads an unbound name. -/
theorem figname_with_axes_raises (a : Args) (opts : Dict) (hf : a.fignameGiven) (hx : a.axGiven) (r : Drawn) :
    (plot2Ddata a opts).2 ≠ .ok r := by
  intro h
  simp only [plot2Ddata] at h
  rcases hr : resolveLimits a.clim opts with ⟨o, e | ⟨lo, hi⟩⟩ <;> rw [hr] at h
  · simp at h
  · simp only at h
    rcases hd : gridData a with e | d
    · rw [hd] at h
      simp [bind, Except.bind] at h
    rcases h1 : fillMin lo (finiteEntries d) with e | v1
    · rw [hd] at h
      simp [bind, Except.bind, h1] at h
    rcases h2 : fillMax hi (finiteEntries d) with e | v2
    · rw [hd] at h
      simp [bind, Except.bind, h1, h2] at h
    rw [hd] at h
    simp only [bind, Except.bind, h1, h2] at h
    split_ifs at h
    all_goals exact absurd ⟨hf, hx⟩ ‹¬(a.fignameGiven = true ∧ a.axGiven = true)›

/-- Every other call with data that fit the mode and with a finite entry draws, and returns three objects exactly when contour lines are asked for. -/
theorem otherwise_draws (a : Args) (opts : Dict) (lim : Val × Val) (hr : (resolveLimits a.clim opts).2 = .ok lim) (d : List PyFloat)
    (hd : gridData a = .ok d) (hfin : ∃ x : ℝ, PyFloat.fin x ∈ d) (hl : ¬ (a.level.truthy ∧ a.vec ≠ .bool false)) (hf : ¬ (a.fignameGiven ∧ a.axGiven)) :
    ∃ r, (plot2Ddata a opts).2 = .ok r ∧ r.returned = (if a.level.truthy then 3 else 2) ∧ (r.contour.isSome ↔ a.level.truthy) := by
  obtain ⟨h0, -, h1⟩ := limits_from_data d
  obtain ⟨lo, hi, e1, e2, -⟩ := h1 hfin
  have f1 : ∃ v, fillMin lim.1 (finiteEntries d) = .ok v := by
    by_cases h : lim.1 = .none
    · exact ⟨_, h ▸ e1⟩
    · exact ⟨_, (h0 _ h).1⟩
  have f2 : ∃ v, fillMax lim.2 (finiteEntries d) = .ok v := by
    by_cases h : lim.2 = .none
    · exact ⟨_, h ▸ e2⟩
    · exact ⟨_, (h0 _ h).2⟩
  obtain ⟨v1, f1⟩ := f1
  obtain ⟨v2, f2⟩ := f2
  simp only [plot2Ddata]
  rcases hr' : resolveLimits a.clim opts with ⟨o, r⟩
  rw [hr'] at hr
  simp only at hr
  subst hr
  simp only [hd, bind, Except.bind, f1, f2]
  rw [if_neg (fun h => hl ⟨h.1, h.2.1⟩), if_neg hf]
  refine ⟨_, rfl, rfl, ?_⟩
  by_cases h : a.level.truthy <;> simp [h]

/-- What is drawn in colour: scalars (their magnitudes on the logarithmic scale), or the lengths of the vectors.  Only the singleton `False` selects
scalars. -/
theorem grid_data (a : Args) :
    (∀ d : List ℝ, a.vec = .bool false → a.grid = .scalar (d.map .fin) →
      gridData a = .ok ((if a.scale = "log" then d.map fun x => |x| else d).map .fin)) ∧
    (∀ d : List (ℝ × ℝ), a.vec ≠ .bool false → a.grid = .vector (d.map fun v => (.fin v.1, .fin v.2)) →
      gridData a = .ok (d.map fun v => .fin (Real.sqrt (v.1 ^ 2 + v.2 ^ 2)))) ∧
    (∀ d, a.vec ≠ .bool false → a.grid = .scalar d → gridData a = .error .indexError) ∧
    (∀ d, a.vec = .bool false → a.grid = .vector d → gridData a = .error .valueError) := by
  have key : ∀ u v : ℝ, PyFloat.sqrt (.fin u ^ 2 + .fin v ^ 2) = .fin (Real.sqrt (u ^ 2 + v ^ 2)) := fun u v => by
    rw [PyFloat.fin_pow, PyFloat.fin_pow, PyFloat.fin_add_fin]
    simp only [PyFloat.sqrt]
    rw [if_neg (not_lt.2 (by positivity))]
  refine ⟨fun d hv hg => ?_, fun d hv hg => ?_, fun d hv hg => ?_, fun d hv hg => ?_⟩
  · simp only [gridData, hv, hg, if_true]
    split_ifs <;> simp [PyFloat.abs, Function.comp_def]
  · simp only [gridData, hv, hg, if_false, List.map_map, Function.comp_def, key]
    split_ifs
    · simp [PyFloat.abs, abs_of_nonneg (Real.sqrt_nonneg _)]
    · rfl
  · simp [gridData, hv, hg]
  · simp [gridData, hv, hg]

/-- Non-vacuity: limits that agree with `clim`, and a plain call. -/
example : Agrees (limitOpts "vmin") 0 ∧ gridData (plainArgs none) = .ok [.fin 3, .fin 5] := by
  refine ⟨.inr ⟨0, rfl, by norm_num⟩, ?_⟩
  simp [gridData, plainArgs]

end Verif.Plot2D
