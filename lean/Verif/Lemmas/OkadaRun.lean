import Verif.Lemmas.OkadaTrace

/-! # Runs of `_dc3d3` (helper lemmas) -/

namespace Verif.Okada

open Real

theorem eps_pos : 0 < eps := by rw [eps]; positivity

theorem dipConstants_sq (dip : ℝ) : (dipConstants dip).1 ^ 2 + (dipConstants dip).2 ^ 2 = 1 := by
  have h := sin_sq_add_cos_sq (dip * pl8)
  simp only [dipConstants]
  by_cases hc : |cos (dip * pl8)| < eps
  · have hs : sin (dip * pl8) ≠ 0 := by
      intro h0
      rw [h0] at h
      have h1 : |cos (dip * pl8)| ^ 2 = 1 := by rw [sq_abs]; linarith
      have h2 : |cos (dip * pl8)| < 1 := lt_of_lt_of_le hc (by rw [eps]; norm_num)
      nlinarith [abs_nonneg (cos (dip * pl8))]
    rw [if_pos hc]
    rcases lt_or_gt_of_ne hs with h1 | h1
    · simp [h1, not_lt.2 h1.le]
    · simp [h1]
  · rw [if_neg hc]; exact h

/-! ## Rounding to zero -/

theorem dcMax_nonneg : ∀ ks, 0 ≤ dcMax ks
  | [] => le_rfl
  | _ :: ks => le_max_of_le_right (dcMax_nonneg ks)

theorem dcMax_le {M : ℝ} (hM : 0 ≤ M) : ∀ ks : List Corner, (∀ k ∈ ks, |k.xi| ≤ M ∧ |k.et| ≤ M ∧ |k.q| ≤ M) → dcMax ks ≤ M
  | [], _ => hM
  | k :: ks, h => by
    obtain ⟨a, b, c⟩ := h k (by simp)
    exact max_le (max_le a (max_le b c)) (dcMax_le hM ks fun k hk => h k (by simp [hk]))

theorem le_dcMax : ∀ (ks : List Corner) (k : Corner), k ∈ ks → |k.et| ≤ dcMax ks ∧ |k.q| ≤ dcMax ks
  | k' :: ks, k, h => by
    rcases List.mem_cons.1 h with h | h
    · subst h
      exact ⟨le_max_of_le_left (le_max_of_le_right (le_max_left _ _)), le_max_of_le_left (le_max_of_le_right (le_max_right _ _))⟩
    · exact ⟨le_max_of_le_right (le_dcMax ks k h).1, le_max_of_le_right (le_dcMax ks k h).2⟩

theorem snap_eq {m M v : ℝ} (hm : 0 < m) (hmM : m ≤ M) (hM : 1 ≤ M) (hv : v = 0 ∨ eps * M ≤ |v|) : snap m v = v := by
  rw [snap]
  rcases hv with rfl | hv
  · simp
  · have he := eps_pos
    rw [if_neg]
    rintro (h | h)
    · rw [abs_div, abs_of_pos hm, div_lt_iff₀ hm] at h
      nlinarith
    · nlinarith

/-! ## Arrays of three rows -/

/-- The array whose columns are the values of `g` at the stations. -/
def Mat (g : Station → V3 ℝ) (L : List Station) : Arr := .matrix ⟨L.map fun s => (g s).x, L.map fun s => (g s).y, L.map fun s => (g s).z⟩

/-- The stations repeated until there are three columns. -/
def wide : List Station → List Station
  | [s] => [s, s, s]
  | L => L

theorem mat_congr {g h : Station → V3 ℝ} {L : List Station} (e : ∀ s ∈ L, g s = h s) : Mat g L = Mat h L := by
  simp only [Mat]
  congr 2 <;> exact List.map_congr_left fun s hs => by rw [e s hs]

theorem one_or_three {st : List Station} (h : st.length = 1 ∨ st.length = 3) : (∃ s, st = [s]) ∨ ∃ a b c, st = [a, b, c] := by
  rcases h with h | h
  · exact .inl (List.length_eq_one_iff.1 h)
  · exact .inr (List.length_eq_three.1 h)

theorem mat_add_vector {st : List Station} (h : st.length = 1 ∨ st.length = 3) (g : Station → V3 ℝ) :
    (Mat g st).add (.vector 0) = .ok (Mat g (wide st)) ∧ (Mat g (wide st)).add (.vector 0) = .ok (Mat g (wide st)) ∧
      (Arr.vector 0).add (Mat g st) = .ok (Mat g (wide st)) := by
  rcases one_or_three h with ⟨s, rfl⟩ | ⟨a, b, c, rfl⟩ <;> simp [Mat, Arr.add, Arr.asRows, rowAdd, wide, bind, Except.bind]

theorem mat_add_mat (st : List Station) (g k : Station → V3 ℝ) : (Mat g st).add (Mat k st) = .ok (Mat (fun s => g s + k s) st) := by
  simp [Mat, Arr.add, Arr.asRows, rowAdd, bind, Except.bind, List.zipWith_self]

theorem mat_add_wide {st : List Station} (h : st.length = 1 ∨ st.length = 3) (g k : Station → V3 ℝ) :
    (Mat g st).add (Mat k (wide st)) = .ok (Mat (fun s => g s + k s) (wide st)) ∧
      (Mat g (wide st)).add (Mat k (wide st)) = .ok (Mat (fun s => g s + k s) (wide st)) := by
  refine ⟨?_, mat_add_mat _ _ _⟩
  rcases one_or_three h with ⟨s, rfl⟩ | ⟨a, b, c, rfl⟩ <;> simp [Mat, Arr.add, Arr.asRows, rowAdd, wide, bind, Except.bind]

theorem mat_turn (L : List Station) (g : Station → V3 ℝ) (s c : ℝ) : (Mat g L).turn s c = Mat (fun p => Corner.turned (g p) s c) L := by
  simp [Mat, Arr.turn, Corner.turned, List.zipWith_self]

theorem mat_neg (L : List Station) (g : Station → V3 ℝ) : (Mat g L).neg = Mat (fun p => -g p) L := by
  simp [Mat, Arr.neg, V3.map]

theorem columns_eq (L : List Station) (k : Station → Corner) (f : Corner → V3 ℝ) (d : ℝ) :
    columns f d (L.map k) = Mat (fun s => (d / (2 * π)) • f (k s)) L := by
  simp [columns, Mat, mul_comm]

/-! ## One turn of the loop -/

/-- The station lies on the line of the surface trace of a fault that stays below the surface, and is not level with an end of it if the
fault is given by positive distances down the dip. -/
def OnTrace (f : Fault) (p : Station) : Prop :=
  p.Y = 0 ∧ f.aw1 * (dipConstants f.dip).1 < 0 ∧ f.aw2 * (dipConstants f.dip).1 < 0 ∧
    (0 < (dipConstants f.dip).1 ∨ p.X ≠ f.al1 ∧ p.X ≠ f.al2)

/-- No coordinate relative to a corner is so small, compared with `1` and with the others, that it is rounded to zero without being zero,
and stations on the line of the surface trace are clear of the fault. -/
def Resolved (f : Fault) (st : List Station) : Prop :=
  ∃ M, 1 ≤ M ∧ ∀ p ∈ st, (eps * M ≤ |p.Y * (dipConstants f.dip).1| ∨ OnTrace f p) ∧ |p.Y * (dipConstants f.dip).1| ≤ M ∧
    ∀ v ∈ [p.X - f.al1, p.X - f.al2, p.Y * (dipConstants f.dip).2 - f.aw1, p.Y * (dipConstants f.dip).2 - f.aw2],
      |v| ≤ M ∧ (v = 0 ∨ eps * M ≤ |v|)

theorem ret_ge {k : Corner} {M : ℝ} (hM : 1 ≤ M) (hx : |k.xi| ≤ M) (he : |k.et| ≤ M) (hq : |k.q| ≤ M)
    (hq' : (eps * M) ^ 2 ≤ k.xi ^ 2 + k.q ^ 2) : tiny ≤ k.ret := by
  have heps := eps_pos
  have h2 := Corner.r_sq k
  have hr : 0 ≤ k.r := sqrt_nonneg _
  have hM2 : ∀ v : ℝ, |v| ≤ M → v ^ 2 ≤ M ^ 2 := fun v hv => by
    rw [← sq_abs v]; exact pow_le_pow_left₀ (abs_nonneg v) hv 2
  have hr2 : k.r ≤ 2 * M := by
    refine abs_le_of_sq_le_sq' ?_ (by linarith) |>.2
    nlinarith [hM2 _ hx, hM2 _ he, hM2 _ hq]
  have hpos : 0 ≤ k.r + k.et := by have := (abs_le.1 (Corner.abs_et_le k)).1; linarith
  have e : (k.r + k.et) * (k.r - k.et) = k.xi ^ 2 + k.q ^ 2 := by linear_combination h2
  have h3 : k.r - k.et ≤ 3 * M := by have := (abs_le.1 he).1; linarith
  have h4 : (eps * M) ^ 2 ≤ (k.r + k.et) * (3 * M) := by
    have := mul_le_mul_of_nonneg_left h3 hpos
    nlinarith
  have h5 : eps ^ 2 * M ≤ (k.r + k.et) * 3 := by
    have : 0 < M := by linarith
    have h6 : (eps ^ 2 * M) * M ≤ ((k.r + k.et) * 3) * M := by nlinarith
    exact le_of_mul_le_mul_right h6 this
  rw [Corner.ret, tiny]
  have h7 : eps ^ 2 = 1 / 10 ^ 12 := by rw [eps]; norm_num
  rw [h7] at h5
  have : (1 : ℝ) / 10 ^ 12 ≤ 1 / 10 ^ 12 * M := by nlinarith
  have h8 : (3 : ℝ) * (1 / 10 ^ 14) ≤ 1 / 10 ^ 12 := by norm_num
  nlinarith

/-- One turn for stations that are resolved. -/
theorem turn_resolved {f : Fault} {st : List Station} {s c al aw : ℝ} {j k : ℕ} (hsc : dipConstants f.dip = (s, c))
    (hres : Resolved f st) (hst : st ≠ []) (haw : aw * s ≤ 0) (hal : al = if j = 1 then f.al1 else f.al2) (hw : aw = f.aw1 ∨ aw = f.aw2)
    (u : Arr) :
    turn f s c st j k (st.map fun p => p.Y * c - aw) (st.map fun p => p.Y * s) u = (do
      let ks := st.map fun p => (⟨p.X - al, p.Y * c - aw, p.Y * s⟩ : Corner)
      let du ← dub f s c ((1 - f.alpha) / f.alpha) ks
      let u ← if j + k ≠ 3 then (du.turn s c).add u else (du.turn s c).neg.add u
      .ok (st.map fun p => p.Y * c - aw, st.map fun p => p.Y * s, u)) := by
  obtain ⟨M, hM, hall⟩ := hres
  simp only [hsc] at hall
  have hM0 : 0 ≤ M := by linarith
  have he := eps_pos
  have hzip : ∀ ξ : Station → ℝ, List.zipWith (fun x (eq : ℝ × ℝ) => (⟨x, eq.1, eq.2⟩ : Corner)) (st.map ξ)
      (List.zip (st.map fun p => p.Y * c - aw) (st.map fun p => p.Y * s)) = st.map fun p => (⟨ξ p, p.Y * c - aw, p.Y * s⟩ : Corner) := by
    intro ξ
    simp [List.zip, List.zipWith_self]
  have hsc1 : s ^ 2 + c ^ 2 = 1 := by have := dipConstants_sq f.dip; rw [hsc] at this; exact this
  set g : Station → Corner := fun p => ⟨p.X - al, p.Y * c - aw, p.Y * s⟩ with hg
  have hxi : ∀ p ∈ st, |p.X - al| ≤ M ∧ (p.X - al = 0 ∨ eps * M ≤ |p.X - al|) := by
    intro p hp
    rw [hal]
    split_ifs
    · exact (hall p hp).2.2 _ (by simp)
    · exact (hall p hp).2.2 _ (by simp)
  have het : ∀ p ∈ st, |p.Y * c - aw| ≤ M ∧ (p.Y * c - aw = 0 ∨ eps * M ≤ |p.Y * c - aw|) := by
    intro p hp
    rcases hw with rfl | rfl
    · exact (hall p hp).2.2 _ (by simp)
    · exact (hall p hp).2.2 _ (by simp)
  have haw0 : ∀ p ∈ st, ¬ eps * M ≤ |p.Y * s| → p.Y = 0 ∧ aw * s < 0 ∧ 0 < f.aw1 * f.aw2 ∧ (0 < s ∨ p.X - al ≠ 0) := by
    intro p hp h
    obtain ⟨h0, h1, h2, h3⟩ := (hall p hp).1.resolve_left h
    rw [hsc] at h1 h2 h3
    simp only at h1 h2 h3
    refine ⟨h0, by rcases hw with rfl | rfl <;> assumption, ?_, ?_⟩
    · by_contra hh
      have : 0 < (f.aw1 * f.aw2) * s ^ 2 := by nlinarith
      nlinarith [sq_nonneg s]
    · refine h3.imp_right fun h3 => ?_
      rw [hal]
      split_ifs
      · exact sub_ne_zero.2 h3.1
      · exact sub_ne_zero.2 h3.2
  -- either `q` or `et` is not small
  have hbig : ∀ p ∈ st, eps * M ≤ |p.Y * s| ∨ (p.Y * c - aw ≠ 0 ∧ eps * M ≤ |p.Y * c - aw|) := by
    intro p hp
    by_cases h : eps * M ≤ |p.Y * s|
    · exact .inl h
    · obtain ⟨h0, h1, -⟩ := haw0 p hp h
      have hne : p.Y * c - aw ≠ 0 := by
        rw [h0, zero_mul, zero_sub, neg_ne_zero]
        rintro rfl
        simp at h1
      exact .inr ⟨hne, (het p hp).2.resolve_left hne⟩
  obtain ⟨p0, hp0⟩ := List.exists_mem_of_ne_nil st hst
  have hmax : dcMax (st.map g) ≤ M := dcMax_le hM0 _ fun k hk => by
    obtain ⟨p, hp, rfl⟩ := List.mem_map.1 hk
    exact ⟨(hxi p hp).1, (het p hp).1, (hall p hp).2.1⟩
  have hmax0 : 0 < dcMax (st.map g) := by
    have h := le_dcMax _ (g p0) (List.mem_map_of_mem hp0)
    have : 0 < eps * M := by positivity
    rcases hbig p0 hp0 with h' | h'
    · exact lt_of_lt_of_le this (h'.trans h.2)
    · exact lt_of_lt_of_le this (h'.2.trans h.1)
  have hks : (st.map g).map (fun k => (⟨snap (dcMax (st.map g)) k.xi, snap (dcMax (st.map g)) k.et, snap (dcMax (st.map g)) k.q⟩ : Corner)) =
      st.map g := by
    rw [List.map_map]
    refine List.map_congr_left fun p hp => ?_
    have hq : p.Y * s = 0 ∨ eps * M ≤ |p.Y * s| := by
      by_cases h : eps * M ≤ |p.Y * s|
      · exact .inr h
      · exact .inl (by rw [(haw0 p hp h).1, zero_mul])
    simp only [hg, Function.comp]
    rw [snap_eq hmax0 hmax hM (hxi p hp).2, snap_eq hmax0 hmax hM (het p hp).2, snap_eq hmax0 hmax hM hq]
  have hr : ∀ p ∈ st, eps * M ≤ (g p).r := by
    intro p hp
    rcases hbig p hp with h | h
    · refine h.trans (abs_le_of_sq_le_sq ?_ (sqrt_nonneg _))
      change _ ≤ (g p).r ^ 2
      rw [Corner.r_sq]
      simp only [hg]
      nlinarith [sq_nonneg (p.X - al), sq_nonneg (p.Y * c - aw)]
    · exact h.2.trans (Corner.abs_et_le (g p))
  have hrd : ∀ k ∈ st.map g, tiny ≤ k.rd s c := by
    intro k hk
    obtain ⟨p, hp, rfl⟩ := List.mem_map.1 hk
    have h1 := hr p hp
    have h3 : tiny ≤ eps := by rw [tiny, eps]; norm_num
    have h4 : (g p).rd s c = (g p).r - aw * s := by
      simp only [Corner.rd, Corner.d, hg]; ring
    rw [h4]
    nlinarith
  have c1 : ¬ ∃ k ∈ st.map g, k.r = 0 := by
    rintro ⟨k, hk, h⟩
    obtain ⟨p, hp, rfl⟩ := List.mem_map.1 hk
    have := hr p hp
    rw [h] at this
    nlinarith
  have c2 : ¬ ∃ k ∈ st.map g, k.ret < tiny := by
    rintro ⟨k, hk, h⟩
    obtain ⟨p, hp, rfl⟩ := List.mem_map.1 hk
    have heM : 0 ≤ eps * M := by positivity
    by_cases h1 : eps * M ≤ |p.Y * s|
    · have : (eps * M) ^ 2 ≤ (p.Y * s) ^ 2 := by rw [← sq_abs (p.Y * s)]; exact pow_le_pow_left₀ heM h1 2
      exact absurd h (not_lt.2 (ret_ge hM (hxi p hp).1 (het p hp).1 (hall p hp).2.1 (by simp only [hg]; nlinarith [sq_nonneg (p.X - al)])))
    · obtain ⟨h0, h2, -, h4⟩ := haw0 p hp h1
      rcases h4 with h4 | h4
      · have h5 : 0 < p.Y * c - aw := by rw [h0]; nlinarith
        have h6 := (het p hp).2.resolve_left h5.ne'
        rw [abs_of_pos h5] at h6
        have h7 : (0 : ℝ) ≤ (g p).r := sqrt_nonneg _
        have h8 : (g p).ret = (g p).r + (p.Y * c - aw) := rfl
        have h3 : tiny ≤ eps := by rw [tiny, eps]; norm_num
        rw [h8] at h
        nlinarith
      · have h6 := (hxi p hp).2.resolve_left h4
        have : (eps * M) ^ 2 ≤ (p.X - al) ^ 2 := by rw [← sq_abs (p.X - al)]; exact pow_le_pow_left₀ heM h6 2
        exact absurd h (not_lt.2 (ret_ge hM (hxi p hp).1 (het p hp).1 (hall p hp).2.1 (by simp only [hg]; nlinarith [sq_nonneg (p.Y * s)])))
  have c3 : ¬ ∃ p ∈ List.zip st (st.map g), p.2.q = 0 ∧
      (((p.1.X - f.al1) * (p.1.X - f.al2) ≤ 0 ∧ p.2.et = 0) ∨
       ((p.1.Y * c - f.aw1) * (p.1.Y * c - f.aw2) ≤ 0 ∧ p.2.xi = 0)) ∨ p.2.r = 0 := by
    rintro ⟨⟨p, k⟩, hpk, h⟩
    have hzip : List.zip st (st.map g) = st.map fun p => (p, g p) := by
      rw [List.zip_map_right, List.zip, List.zipWith_self, List.map_map]; rfl
    rw [hzip] at hpk
    obtain ⟨p', hp, e⟩ := List.mem_map.1 hpk
    cases e
    rcases h with ⟨h, h'⟩ | h
    · have hn : ¬ eps * M ≤ |p.Y * s| := by
        change p.Y * s = 0 at h
        rw [h, abs_zero, not_le]
        positivity
      obtain ⟨h0, -, h3, -⟩ := haw0 p hp hn
      rcases h' with h' | h'
      · exact ((hbig p hp).resolve_left hn).1 h'.2
      · have h4 := h'.1
        simp only [h0, zero_mul, zero_sub] at h4
        nlinarith
    · exact c1 ⟨_, List.mem_map_of_mem hp, h⟩
  have c4 : ¬ ∃ k ∈ st.map g, k.rd s c < tiny := fun ⟨k, hk, h⟩ => absurd h (not_lt.2 (hrd k hk))
  have hne : st.map g ≠ [] := by simpa using hst
  have hgg : (st.map fun p => (⟨p.X - (if j = 1 then f.al1 else f.al2), p.Y * c - aw, p.Y * s⟩ : Corner)) = st.map g := by
    rw [← hal]
  rw [turn]
  simp only [hzip, hgg, hks]
  rw [if_neg hne, if_neg c1, if_neg c2, if_neg c3, if_neg c4]
  have e1 : (st.map g).map Corner.et = st.map fun p => p.Y * c - aw := by simp [hg, Function.comp_def]
  have e2 : (st.map g).map Corner.q = st.map fun p => p.Y * s := by simp [hg, Function.comp_def]
  rw [e1, e2]

/-! ## The whole run -/

theorem dub_eq {f : Fault} {st : List Station} (h : st.length = 1 ∨ st.length = 3) (hslip : f.disl1 ≠ 0 ∨ f.disl2 ≠ 0) (s c m : ℝ)
    (g : Station → Corner) :
    ∃ L, (L = st ∨ L = wide st) ∧ dub f s c m (st.map g) =
      .ok (Mat (fun p => (f.disl1 / (2 * π)) • (g p).strikeSlip s c m + (f.disl2 / (2 * π)) • (g p).dipSlip s c m) L) := by
  by_cases h1 : f.disl1 = 0
  · have h2 : f.disl2 ≠ 0 := by simpa [h1] using hslip
    refine ⟨wide st, .inr rfl, ?_⟩
    simp only [dub, h1, ne_eq, not_true_eq_false, if_false, h2, not_false_eq_true, if_true, columns_eq]
    rw [(mat_add_vector h _).2.2]
    congr 1
    refine mat_congr fun p _ => ?_
    ext <;> simp
  · by_cases h2 : f.disl2 = 0
    · refine ⟨st, .inl rfl, ?_⟩
      simp only [dub, h1, ne_eq, not_true_eq_false, if_false, h2, not_false_eq_true, if_true, columns_eq]
      congr 1
      refine mat_congr fun p _ => ?_
      ext <;> simp
    · refine ⟨st, .inl rfl, ?_⟩
      simp only [dub, h1, ne_eq, h2, not_false_eq_true, if_true, columns_eq]
      exact mat_add_mat _ _ _

theorem turn_run {f : Fault} {st : List Station} {s c al aw : ℝ} {j k : ℕ} (h : st.length = 1 ∨ st.length = 3)
    (hslip : f.disl1 ≠ 0 ∨ f.disl2 ≠ 0) (hsc : dipConstants f.dip = (s, c))
    (hres : Resolved f st) (haw : aw * s ≤ 0) (hal : al = if j = 1 then f.al1 else f.al2) (hw : aw = f.aw1 ∨ aw = f.aw2)
    (u : Arr) (v : Station → V3 ℝ) (hu : u = .vector 0 ∧ v = 0 ∨ u = Mat v (wide st)) :
    turn f s c st j k (st.map fun p => p.Y * c - aw) (st.map fun p => p.Y * s) u = .ok (st.map fun p => p.Y * c - aw,
      st.map fun p => p.Y * s, Mat (fun p => (if j + k ≠ 3 then (1 : ℝ) else -1) •
        (⟨p.X - al, p.Y * c - aw, p.Y * s⟩ : Corner).field s c ((1 - f.alpha) / f.alpha) f.disl1 f.disl2 + v p) (wide st)) := by
  have hst : st ≠ [] := by rintro rfl; simp at h
  rw [turn_resolved hsc hres hst haw hal hw]
  obtain ⟨L, hL, e⟩ := dub_eq h hslip s c ((1 - f.alpha) / f.alpha) (fun p => (⟨p.X - al, p.Y * c - aw, p.Y * s⟩ : Corner))
  have hadd : ∀ g : Station → V3 ℝ, (Mat g L).add u = .ok (Mat (fun p => g p + v p) (wide st)) := by
    intro g
    rcases hu with ⟨rfl, rfl⟩ | rfl
    · have e0 : Mat (fun p => g p + (0 : Station → V3 ℝ) p) (wide st) = Mat g (wide st) := mat_congr fun p _ => by ext <;> simp
      rw [e0]
      rcases hL with rfl | rfl
      · exact (mat_add_vector h g).1
      · exact (mat_add_vector h g).2.1
    · rcases hL with rfl | rfl
      · exact (mat_add_wide h g v).1
      · exact (mat_add_wide h g v).2
  simp only [e, bind, Except.bind, mat_turn, mat_neg]
  split_ifs with h3
  · rw [hadd]
    simp only
    congr 3
    exact mat_congr fun p _ => by ext <;> simp [Corner.field]
  · rw [hadd]
    simp only
    congr 3
    exact mat_congr fun p _ => by ext <;> simp [Corner.field]

/-- The result for stations that are resolved: the four corner terms with alternating signs. -/
theorem dc3d3_resolved {f : Fault} {st : List Station} {s c : ℝ} (h : st.length = 1 ∨ st.length = 3)
    (hslip : f.disl1 ≠ 0 ∨ f.disl2 ≠ 0) (hsc : dipConstants f.dip = (s, c)) (hres : Resolved f st)
    (h1 : f.aw1 * s ≤ 0) (h2 : f.aw2 * s ≤ 0) :
    dc3d3 f st = .ok (Mat (fun p =>
      let F := fun a w => (⟨p.X - a, p.Y * c - w, p.Y * s⟩ : Corner).field s c ((1 - f.alpha) / f.alpha) f.disl1 f.disl2
      F f.al1 f.aw1 - F f.al2 f.aw1 - F f.al1 f.aw2 + F f.al2 f.aw2) (wide st)) := by
  rw [dc3d3]
  simp only [hsc]
  rw [turn_run h hslip hsc hres h1 rfl (.inl rfl) _ 0 (.inl ⟨rfl, rfl⟩)]
  simp only [bind, Except.bind]
  rw [turn_run h hslip hsc hres h1 rfl (.inl rfl) _ _ (.inr rfl)]
  simp only
  rw [turn_run h hslip hsc hres h2 rfl (.inr rfl) _ _ (.inr rfl)]
  simp only
  rw [turn_run h hslip hsc hres h2 rfl (.inr rfl) _ _ (.inr rfl)]
  simp only
  congr 1
  refine mat_congr fun p _ => ?_
  ext <;> simp <;> ring

end Verif.Okada
