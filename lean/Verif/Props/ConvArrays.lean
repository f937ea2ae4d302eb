import Verif.Model.SpatialArrays
import Verif.Lemmas.PointArrays
import Verif.Props.Coordinates

/-!
# Conversions between coordinate systems of whole arrays (C101)
-/

namespace Verif.ConvArr

open NArr Utils Spatial Layout PointArr

variable {sh s t u : List ℕ} {grid vec : NArr ℝ} {x v : List ℕ → V3 ℝ}

/-! ## Broadcasting -/

theorem bcastRev_absorb : ∀ {s t u : List ℕ}, bcastRev s t = some u → bcastRev u s = some u
  | [], t, u, h => by
    obtain rfl := Option.some.inj h
    exact bcastRev_nil _
  | a :: s, [], u, h => by
    obtain rfl := Option.some.inj h
    have : ∀ l : List ℕ, bcastRev l l = some l := by
      intro l
      induction l with
      | nil => rfl
      | cons a l ih => simp [bcastRev, ih]
    exact this _
  | a :: s, b :: t, u, h => by
    simp only [bcastRev] at h
    split_ifs at h with h1 h2 h3 <;>
    · obtain ⟨w, hw, rfl⟩ := Option.map_eq_some_iff.1 h
      have := bcastRev_absorb hw
      simp_all [bcastRev]

theorem bcast_comm (s t : List ℕ) : bcastShape s t = bcastShape t s := by
  simp only [bcastShape, bcastRev_comm s.reverse]

theorem bcast_left (h : bcastShape s t = .ok u) : bcastShape u s = .ok u := by
  unfold bcastShape
  rw [bcastRev_absorb (bcastShape_rev h)]
  simp

theorem bcast_right (h : bcastShape s t = .ok u) : bcastShape u t = .ok u := by
  rw [bcast_comm] at h
  exact bcast_left h

theorem bcast_self (s : List ℕ) : bcastShape s s = .ok s := by
  have h : bcastRev s.reverse [] = some s.reverse := bcastRev_nil _
  unfold bcastShape
  rw [bcastRev_absorb h]
  simp

theorem through_self {i : List ℕ} (hi : InShape u i) : through u i = i := by
  unfold through
  rw [Dipole.bcastIndexRev_self (Dipole.inShape_reverse hi)]
  simp

/-- An operation of an array of the common shape with one that is broadcast. -/
theorem zipR {a b : NArr ℝ} {f g : List ℕ → ℝ} (op : ℝ → ℝ → ℝ) (ha : Sc u a f) (hb : Sc s b g) (h : bcastShape u s = .ok u) :
    Ok (zipWith op a b) fun r => Sc u r fun i => op (f i) (g (through s i)) :=
  (ha.zipAny op hb h).mono fun _ hr => hr.congr fun i hi => by rw [through_self hi]

theorem zipL {a b : NArr ℝ} {f g : List ℕ → ℝ} (op : ℝ → ℝ → ℝ) (ha : Sc s a f) (hb : Sc u b g) (h : bcastShape u s = .ok u) :
    Ok (zipWith op a b) fun r => Sc u r fun i => op (f (through s i)) (g i) :=
  (ha.zipAny op hb ((bcast_comm _ _).trans h)).mono fun _ hr => hr.congr fun i hi => by rw [through_self hi]

theorem item_at {a : NArr ℝ} {n k : ℕ} (h : a.shape = sh ++ [n]) (hk : k < n) :
    Ok (item a k) fun r => Sc sh r fun i => a.get (i ++ [k]) := by
  refine ⟨a.col k, ?_, by simp [col, h], fun i _ => rfl⟩
  simp [item, h, hk]

theorem item_raises {a : NArr ℝ} {k : ℕ} (h : a.shape = [] ∨ ∃ sh n, a.shape = sh ++ [n] ∧ n ≤ k) : item a k = .error .indexError := by
  rcases h with h | ⟨sh, n, h, hk⟩
  · simp [item, h]
  · simp [item, h, Nat.not_lt.2 hk]

theorem stack_refuses {a b c : NArr ℝ} (h : c.shape ≠ a.shape) : stackLast [a, b, c] = .error .valueError := by
  unfold stackLast
  simp only
  rw [if_neg]
  intro h'
  exact h (h' c (by simp))

theorem stackOut3 {n : ℕ} {a b c : NArr ℝ} (hg : grid.shape = sh ++ [3]) (h : item vec n = .ok c) :
    stackOut grid a b (item vec n) = stackLast [a, b, c] := by
  simp only [stackOut, hg, List.getLast?_concat, if_true]
  rw [h]
  rfl

theorem stackOut2 {a b : NArr ℝ} {c : Py (NArr ℝ)} (hg : grid.shape = sh ++ [2]) : stackOut grid a b c = stackLast [a, b] := by
  simp [stackOut, hg]

/-! ## Points -/

/-- **C101.** `cylindrical_to_cartesian` converts each point of an array of points. -/
theorem cylToCart_points (hg : grid.shape = sh ++ [3]) :
    ∃ r, cylToCart grid none = .ok r ∧ HoldsVectors sh (vecAt grid) Spatial.cylToCart r := by
  show Ok (cylToCart grid none) _
  refine Ok.bind (item_at hg (by norm_num)) fun _ h0 => Ok.bind (item_at hg (by norm_num)) fun _ h1 => ?_
  refine Ok.bind (h0.zip _ (h1.map _)) fun _ hx => Ok.bind (h0.zip _ (h1.map _)) fun _ hy => ?_
  obtain ⟨c, hc, h2⟩ := item_at (k := 2) hg (by norm_num)
  rw [stackOut3 hg hc]
  exact (stack3 hx hy h2).mono fun _ h => h

/-- **C101.** `cartesian_to_cylindrical` converts each point of an array of points. -/
theorem cartToCyl_points (hg : grid.shape = sh ++ [3]) :
    ∃ r, cartToCyl grid none = .ok r ∧ HoldsVectors sh (vecAt grid) Spatial.cartToCyl r := by
  show Ok (cartToCyl grid none) _
  refine Ok.bind (item_at hg (by norm_num)) fun _ h0 => Ok.bind (item_at hg (by norm_num)) fun _ h1 => ?_
  refine Ok.bind (h0.zip _ h1) fun _ hx => Ok.bind (h1.zip _ h0) fun _ hy => ?_
  obtain ⟨c, hc, h2⟩ := item_at (k := 2) hg (by norm_num)
  rw [stackOut3 hg hc]
  exact (stack3 (hx.map Real.sqrt) hy h2).mono fun _ h => h

/-- **C101.** `spherical_to_cartesian` converts each point of an array of points. -/
theorem sphToCart_points (hg : grid.shape = sh ++ [3]) :
    ∃ r, sphToCart grid none = .ok r ∧ HoldsVectors sh (vecAt grid) Spatial.sphToCart r := by
  show Ok (sphToCart grid none) _
  refine Ok.bind (item_at hg (by norm_num)) fun _ h0 => Ok.bind (item_at hg (by norm_num)) fun _ h2 => ?_
  refine Ok.bind (h0.zip _ (h2.map _)) fun _ hz => Ok.bind (h0.zip _ (h2.map _)) fun _ hr => ?_
  refine Ok.bind (item_at hg (by norm_num)) fun _ h1 => ?_
  refine Ok.bind (hr.zip _ (h1.map _)) fun _ hx => Ok.bind (hr.zip _ (h1.map _)) fun _ hy => ?_
  exact (stack3 hx hy hz).mono fun _ h => h

theorem rho_at (hg : grid.shape = sh ++ [3]) :
    Ok (rhoOf grid) fun r => Sc sh r fun i => Real.sqrt (grid.get (i ++ [0]) ^ 2 + grid.get (i ++ [1]) ^ 2) := by
  refine ⟨Dipole.normLast ⟨sh ++ [2], grid.get⟩, by simp [rhoOf, hg], by simp [Dipole.normLast], fun i _ => ?_⟩
  simp [Dipole.normLast, List.range_succ]

theorem norm_at (hg : grid.shape = sh ++ [3]) : Sc sh (Dipole.normLast grid) fun i => (vecAt grid i).len :=
  Vc.norm ⟨hg, fun _ _ => rfl⟩

/-- **C101.** `cartesian_to_spherical` converts each point of an array of points. -/
theorem cartToSph_points (hg : grid.shape = sh ++ [3]) :
    ∃ r, cartToSph grid none = .ok r ∧ HoldsVectors sh (vecAt grid) Spatial.cartToSph r := by
  show Ok (cartToSph grid none) _
  refine Ok.bind (rho_at hg) fun _ hr => ?_
  refine Ok.bind (item_at hg (by norm_num)) fun _ h1 => Ok.bind (item_at hg (by norm_num)) fun _ h0 => ?_
  refine Ok.bind (h1.zip _ h0) fun _ hp => Ok.bind (item_at hg (by norm_num)) fun _ h2 => Ok.bind (hr.zip _ h2) fun _ ht => ?_
  exact (stack3 (norm_at hg) hp ht).mono fun _ h => h

/-- The point of the plane at position `i` of an array with two columns. -/
def pairAt (a : NArr ℝ) (i : List ℕ) : V2 := ⟨a.get (i ++ [0]), a.get (i ++ [1])⟩

/-- **C101.** With two columns the cylindrical conversions are those of the plane. -/
theorem plane_points (hg : grid.shape = sh ++ [2]) :
    (∃ r, cylToCart grid none = .ok r ∧ r.shape = sh ++ [2] ∧ ∀ i, InShape sh i → pairAt r i = cylToCart2 (pairAt grid i)) ∧
      ∃ r, cartToCyl grid none = .ok r ∧ r.shape = sh ++ [2] ∧ ∀ i, InShape sh i → pairAt r i = cartToCyl2 (pairAt grid i) := by
  constructor
  · show Ok (cylToCart grid none) _
    refine Ok.bind (item_at hg (by norm_num)) fun _ h0 => Ok.bind (item_at hg (by norm_num)) fun _ h1 => ?_
    refine Ok.bind (h0.zip _ (h1.map _)) fun _ hx => Ok.bind (h0.zip _ (h1.map _)) fun _ hy => ?_
    rw [stackOut2 hg]
    exact (stack2 hx hy).mono fun _ h => ⟨h.1, fun i hi => V2.ext (h.2.1 i hi) (h.2.2 i hi)⟩
  · show Ok (cartToCyl grid none) _
    refine Ok.bind (item_at hg (by norm_num)) fun _ h0 => Ok.bind (item_at hg (by norm_num)) fun _ h1 => ?_
    refine Ok.bind (h0.zip _ h1) fun _ hx => Ok.bind (h1.zip _ h0) fun _ hy => ?_
    rw [stackOut2 hg]
    exact (stack2 (hx.map Real.sqrt) hy).mono fun _ h => ⟨h.1, fun i hi => V2.ext (h.2.1 i hi) (h.2.2 i hi)⟩

/-! ## Vectors -/

variable {p q v0 v1 v2 : NArr ℝ} {fp fq f0 f1 f2 : List ℕ → ℝ}

theorem sphToCartX_at (hp : Sc s p fp) (hq : Sc s q fq) (h0 : Sc t v0 f0) (h1 : Sc t v1 f1) (h2 : Sc t v2 f2) (hu : bcastShape s t = .ok u) :
    Ok (sphToCartX p q v0 v1 v2) fun r => Sc u r fun i =>
      f0 (through t i) * Real.sin (fq (through s i)) * Real.cos (fp (through s i)) - f1 (through t i) * Real.sin (fp (through s i)) +
        f2 (through t i) * Real.cos (fq (through s i)) * Real.cos (fp (through s i)) := by
  have hu' := (bcast_comm t s).trans hu
  have hs := bcast_left hu
  unfold sphToCartX
  refine Ok.bind (h0.zipAny (· * ·) (hq.map Real.sin) hu') fun _ a => Ok.bind (zipR (· * ·) a (hp.map Real.cos) hs) fun _ a => ?_
  refine Ok.bind (h1.zipAny (· * ·) (hp.map Real.sin) hu') fun _ b => ?_
  refine Ok.bind (h2.zipAny (· * ·) (hq.map Real.cos) hu') fun _ c => Ok.bind (zipR (· * ·) c (hp.map Real.cos) hs) fun _ c => ?_
  exact Ok.bind (a.zip (· - ·) b) fun _ x => x.zip (· + ·) c

theorem sphToCartY_at (hp : Sc s p fp) (hq : Sc s q fq) (h0 : Sc t v0 f0) (h1 : Sc t v1 f1) (h2 : Sc t v2 f2) (hu : bcastShape s t = .ok u) :
    Ok (sphToCartY p q v0 v1 v2) fun r => Sc u r fun i =>
      f0 (through t i) * Real.sin (fq (through s i)) * Real.sin (fp (through s i)) + f1 (through t i) * Real.cos (fq (through s i)) +
        f2 (through t i) * Real.cos (fq (through s i)) * Real.sin (fp (through s i)) := by
  have hu' := (bcast_comm t s).trans hu
  have hs := bcast_left hu
  unfold sphToCartY
  refine Ok.bind (h0.zipAny (· * ·) (hq.map Real.sin) hu') fun _ a => Ok.bind (zipR (· * ·) a (hp.map Real.sin) hs) fun _ a => ?_
  refine Ok.bind (h1.zipAny (· * ·) (hq.map Real.cos) hu') fun _ b => ?_
  refine Ok.bind (h2.zipAny (· * ·) (hq.map Real.cos) hu') fun _ c => Ok.bind (zipR (· * ·) c (hp.map Real.sin) hs) fun _ c => ?_
  exact Ok.bind (a.zip (· + ·) b) fun _ x => x.zip (· + ·) c

theorem sphToCartZ_at (hq : Sc s q fq) (h0 : Sc t v0 f0) (h2 : Sc t v2 f2) (hu : bcastShape s t = .ok u) :
    Ok (sphToCartZ q v0 v2) fun r => Sc u r fun i =>
      f0 (through t i) * Real.cos (fq (through s i)) - f2 (through t i) * Real.sin (fq (through s i)) := by
  have hu' := (bcast_comm t s).trans hu
  unfold sphToCartZ
  refine Ok.bind (h0.zipAny (· * ·) (hq.map Real.cos) hu') fun _ a => Ok.bind (h2.zipAny (· * ·) (hq.map Real.sin) hu') fun _ b => ?_
  exact a.zip (· - ·) b

theorem cartToSphR_at (hp : Sc s p fp) (hq : Sc s q fq) (h0 : Sc t v0 f0) (h1 : Sc t v1 f1) (h2 : Sc t v2 f2) (hu : bcastShape s t = .ok u) :
    Ok (cartToSphR p q v0 v1 v2) fun r => Sc u r fun i =>
      f0 (through t i) * Real.sin (fq (through s i)) * Real.cos (fp (through s i)) +
        f1 (through t i) * Real.sin (fq (through s i)) * Real.sin (fp (through s i)) + f2 (through t i) * Real.cos (fq (through s i)) := by
  have hu' := (bcast_comm t s).trans hu
  have hs := bcast_left hu
  unfold cartToSphR
  refine Ok.bind (h0.zipAny (· * ·) (hq.map Real.sin) hu') fun _ a => Ok.bind (zipR (· * ·) a (hp.map Real.cos) hs) fun _ a => ?_
  refine Ok.bind (h1.zipAny (· * ·) (hq.map Real.sin) hu') fun _ b => Ok.bind (zipR (· * ·) b (hp.map Real.sin) hs) fun _ b => ?_
  refine Ok.bind (h2.zipAny (· * ·) (hq.map Real.cos) hu') fun _ c => ?_
  exact Ok.bind (a.zip (· + ·) b) fun _ x => x.zip (· + ·) c

theorem cartToSphPhi_at (hp : Sc s p fp) (h0 : Sc t v0 f0) (h1 : Sc t v1 f1) (hu : bcastShape s t = .ok u) :
    Ok (cartToSphPhi p v0 v1) fun r => Sc u r fun i =>
      -f0 (through t i) * Real.sin (fp (through s i)) + f1 (through t i) * Real.cos (fp (through s i)) := by
  have hu' := (bcast_comm t s).trans hu
  unfold cartToSphPhi
  refine Ok.bind ((h0.map (-·)).zipAny (· * ·) (hp.map Real.sin) hu') fun _ a => ?_
  exact Ok.bind (h1.zipAny (· * ·) (hp.map Real.cos) hu') fun _ b => a.zip (· + ·) b

theorem cartToSphTheta_at (hp : Sc u p fp) (hq : Sc s q fq) (h0 : Sc t v0 f0) (h1 : Sc t v1 f1) (h2 : Sc t v2 f2) (hu : bcastShape s t = .ok u) :
    Ok (cartToSphTheta p q v0 v1 v2) fun r => Sc u r fun i =>
      f0 (through t i) * Real.cos (fq (through s i)) * Real.cos (fp i) +
        f1 (through t i) * Real.cos (fq (through s i)) * Real.sin (fp i) - f2 (through t i) * Real.sin (fq (through s i)) := by
  have hu' := (bcast_comm t s).trans hu
  unfold cartToSphTheta
  refine Ok.bind (h0.zipAny (· * ·) (hq.map Real.cos) hu') fun _ a => Ok.bind (a.zip (· * ·) (hp.map Real.cos)) fun _ a => ?_
  refine Ok.bind (h1.zipAny (· * ·) (hq.map Real.cos) hu') fun _ b => Ok.bind (b.zip (· * ·) (hp.map Real.sin)) fun _ b => ?_
  refine Ok.bind (h2.zipAny (· * ·) (hq.map Real.sin) hu') fun _ c => ?_
  exact Ok.bind (a.zip (· + ·) b) fun _ x => x.zip (· - ·) c

/-- **C101.** `spherical_to_cartesian` converts each vector of an array of vectors at its point, with broadcasting between the two. -/
theorem sphToCart_vectors (hg : grid.shape = s ++ [3]) (hv : vec.shape = t ++ [3]) :
    PairVectors s (vecAt grid) t (vecAt vec) (fun g v => .ok (sphToCartVec g v)) (sphToCart grid (some vec)) := by
  obtain ⟨p, hp, h1⟩ := item_at (k := 1) hg (by norm_num)
  obtain ⟨q, hq, h2⟩ := item_at (k := 2) hg (by norm_num)
  obtain ⟨v0, e0, g0⟩ := item_at (k := 0) hv (by norm_num)
  obtain ⟨v1, e1, g1⟩ := item_at (k := 1) hv (by norm_num)
  obtain ⟨v2, e2, g2⟩ := item_at (k := 2) hv (by norm_num)
  unfold sphToCart
  simp only [hp, hq, e0, e1, e2, ok_bind]
  constructor
  · intro e he
    have : sphToCartX p q v0 v1 v2 = .error e := by
      unfold sphToCartX
      rw [zip_error _ (by rw [g0.1, (h2.map Real.sin).1, bcast_comm]; exact he)]
      rfl
    rw [this]
    rfl
  · intro u hu
    obtain ⟨_, k, hx⟩ := sphToCartX_at h1 h2 g0 g1 g2 hu
    simp only [k, ok_bind]
    obtain ⟨_, k, hy⟩ := sphToCartY_at h1 h2 g0 g1 g2 hu
    simp only [k, ok_bind]
    obtain ⟨_, k, hz⟩ := sphToCartZ_at h2 g0 g2 hu
    simp only [k, ok_bind]
    exact (stack3 hx hy hz).mono fun _ h => ⟨h.1, fun i hi => congrArg Except.ok (h.2 i hi).symm⟩

/-- **C101.** `cartesian_to_spherical` converts each vector of an array of vectors at its point, with broadcasting between the two. -/
theorem cartToSph_vectors (hg : grid.shape = s ++ [3]) (hv : vec.shape = t ++ [3]) :
    PairVectors s (vecAt grid) t (vecAt vec) (fun g v => .ok (cartToSphVec g v)) (cartToSph grid (some vec)) := by
  obtain ⟨rho, hr, h3⟩ := rho_at hg
  obtain ⟨gx, hx, h0⟩ := item_at (k := 0) hg (by norm_num)
  obtain ⟨gy, hy, h1⟩ := item_at (k := 1) hg (by norm_num)
  obtain ⟨gz, hz, h2⟩ := item_at (k := 2) hg (by norm_num)
  obtain ⟨phi, hp, p⟩ := h1.zip arctan2 h0
  obtain ⟨theta, ht, q⟩ := h3.zip arctan2 h2
  obtain ⟨v0, e0, g0⟩ := item_at (k := 0) hv (by norm_num)
  obtain ⟨v1, e1, g1⟩ := item_at (k := 1) hv (by norm_num)
  obtain ⟨v2, e2, g2⟩ := item_at (k := 2) hv (by norm_num)
  unfold cartToSph
  simp only [hr, hx, hy, hz, hp, ht, e0, e1, e2, ok_bind]
  constructor
  · intro e he
    have : cartToSphR phi theta v0 v1 v2 = .error e := by
      unfold cartToSphR
      rw [zip_error _ (by rw [g0.1, (q.map Real.sin).1, bcast_comm]; exact he)]
      rfl
    rw [this]
    rfl
  · intro u hu
    obtain ⟨_, k, r⟩ := cartToSphR_at p q g0 g1 g2 hu
    simp only [k, ok_bind]
    obtain ⟨_, k, pn⟩ := cartToSphPhi_at p g0 g1 hu
    simp only [k, ok_bind]
    obtain ⟨_, k, tn⟩ := cartToSphTheta_at pn q g0 g1 g2 hu
    simp only [k, ok_bind]
    exact (stack3 r pn tn).mono fun _ h => ⟨h.1, fun i hi => congrArg Except.ok (h.2 i hi).symm⟩

/-- What the cylindrical conversions of vectors do with points of shape `s` and vectors of shape `t`: the vectors are converted each at
its point as long as there is a vector for every point; points are broadcast to the vectors, but vectors to the points are refused. -/
def CylVectors (s : List ℕ) (x : List ℕ → V3 ℝ) (t : List ℕ) (y : List ℕ → V3 ℝ) (f : V3 ℝ → V3 ℝ → V3 ℝ) (m : Py (NArr ℝ)) : Prop :=
  (bcastShape s t = .ok t → ∃ r, m = .ok r ∧ r.shape = t ++ [3] ∧ ∀ i, InShape t i → vecAt r i = f (x (through s i)) (y i)) ∧
    (bcastShape s t ≠ .ok t → m = .error .valueError)

/-- **C101.** `cylindrical_to_cartesian` converts each vector at its point. -/
theorem cylToCart_vectors (hg : grid.shape = s ++ [3]) (hv : vec.shape = t ++ [3]) :
    CylVectors s (vecAt grid) t (vecAt vec) cylToCartVec (cylToCart grid (some vec)) := by
  obtain ⟨p, hp, h1⟩ := item_at (k := 1) hg (by norm_num)
  obtain ⟨v0, e0, g0⟩ := item_at (k := 0) hv (by norm_num)
  obtain ⟨v1, e1, g1⟩ := item_at (k := 1) hv (by norm_num)
  obtain ⟨v2, e2, g2⟩ := item_at (k := 2) hv (by norm_num)
  have key : ∀ u, bcastShape s t = .ok u → (t = u → Ok (cylToCart grid (some vec)) fun r => Vc u r fun i =>
      cylToCartVec (vecAt grid (through s i)) (vecAt vec (through t i))) ∧ (t ≠ u → cylToCart grid (some vec) = .error .valueError) := by
    intro u hu
    have hu' := (bcast_comm t s).trans hu
    unfold cylToCart
    simp only [hp, e0, e1, ok_bind]
    obtain ⟨_, k, a⟩ := g0.zipAny (· * ·) (h1.map Real.cos) hu'
    simp only [k, ok_bind]
    obtain ⟨_, k, b⟩ := g1.zipAny (· * ·) (h1.map Real.sin) hu'
    simp only [k, ok_bind]
    obtain ⟨_, k, hx⟩ := a.zip (· - ·) b
    simp only [k, ok_bind]
    obtain ⟨_, k, a⟩ := g0.zipAny (· * ·) (h1.map Real.sin) hu'
    simp only [k, ok_bind]
    obtain ⟨_, k, b⟩ := g1.zipAny (· * ·) (h1.map Real.cos) hu'
    simp only [k, ok_bind]
    obtain ⟨_, k, hy⟩ := a.zip (· + ·) b
    simp only [k, ok_bind]
    rw [stackOut3 hg e2]
    constructor
    · rintro rfl
      exact (stack3 hx hy g2).mono fun _ h => ⟨h.1, fun i hi => (h.2 i hi).trans (by simp only [through_self hi]; rfl)⟩
    · intro h
      exact stack_refuses (by rw [g2.1, hx.1]; exact h)
  constructor
  · intro h
    obtain ⟨r, hr, hs, hval⟩ := (key t h).1 rfl
    exact ⟨r, hr, hs, fun i hi => (hval i hi).trans (by beta_reduce; rw [through_self hi])⟩
  · intro h
    rcases hb : bcastShape s t with e | u
    · have he : e = .valueError := by
        simp only [bcastShape] at hb
        split at hb <;> cases hb
        rfl
      unfold cylToCart
      simp only [hp, e0, e1, ok_bind]
      rw [zip_error _ (by rw [g0.1, (h1.map Real.cos).1, bcast_comm]; exact hb), he]
      rfl
    · exact (key u hb).2 fun hh => h (by rw [hb, hh])

/-- **C101.** `cartesian_to_cylindrical` converts each vector at its point. -/
theorem cartToCyl_vectors (hg : grid.shape = s ++ [3]) (hv : vec.shape = t ++ [3]) :
    CylVectors s (vecAt grid) t (vecAt vec) cartToCylVec (cartToCyl grid (some vec)) := by
  obtain ⟨gx, hx0, h0⟩ := item_at (k := 0) hg (by norm_num)
  obtain ⟨gy, hy0, h1⟩ := item_at (k := 1) hg (by norm_num)
  obtain ⟨theta, ht, q⟩ := h1.zip arctan2 h0
  obtain ⟨v0, e0, g0⟩ := item_at (k := 0) hv (by norm_num)
  obtain ⟨v1, e1, g1⟩ := item_at (k := 1) hv (by norm_num)
  obtain ⟨v2, e2, g2⟩ := item_at (k := 2) hv (by norm_num)
  have key : ∀ u, bcastShape s t = .ok u → (t = u → Ok (cartToCyl grid (some vec)) fun r => Vc u r fun i =>
      cartToCylVec (vecAt grid (through s i)) (vecAt vec (through t i))) ∧ (t ≠ u → cartToCyl grid (some vec) = .error .valueError) := by
    intro u hu
    unfold cartToCyl
    simp only [hx0, hy0, ht, e0, e1, ok_bind]
    obtain ⟨_, k, a⟩ := (q.map Real.cos).zipAny (· * ·) g0 hu
    simp only [k, ok_bind]
    obtain ⟨_, k, b⟩ := (q.map Real.sin).zipAny (· * ·) g1 hu
    simp only [k, ok_bind]
    obtain ⟨_, k, hx⟩ := a.zip (· + ·) b
    simp only [k, ok_bind]
    obtain ⟨_, k, a⟩ := (q.map fun t => -Real.sin t).zipAny (· * ·) g0 hu
    simp only [k, ok_bind]
    obtain ⟨_, k, b⟩ := (q.map Real.cos).zipAny (· * ·) g1 hu
    simp only [k, ok_bind]
    obtain ⟨_, k, hy⟩ := a.zip (· + ·) b
    simp only [k, ok_bind]
    rw [stackOut3 hg e2]
    constructor
    · rintro rfl
      exact (stack3 hx hy g2).mono fun _ h => ⟨h.1, fun i hi => (h.2 i hi).trans (by simp only [through_self hi]; rfl)⟩
    · intro h
      exact stack_refuses (by rw [g2.1, hx.1]; exact h)
  constructor
  · intro h
    obtain ⟨r, hr, hs, hval⟩ := (key t h).1 rfl
    exact ⟨r, hr, hs, fun i hi => (hval i hi).trans (by beta_reduce; rw [through_self hi])⟩
  · intro h
    rcases hb : bcastShape s t with e | u
    · have he : e = .valueError := by
        simp only [bcastShape] at hb
        split at hb <;> cases hb
        rfl
      unfold cartToCyl
      simp only [hx0, hy0, ht, e0, e1, ok_bind]
      rw [zip_error _ (by rw [(q.map Real.cos).1, g0.1]; exact hb), he]
      rfl
    · exact (key u hb).2 fun hh => h (by rw [hb, hh])

/-- **C101.** With two columns the cylindrical conversions of vectors are those of the plane (a third column of the vectors is not read). -/
theorem plane_vectors {m : ℕ} (hm : 2 ≤ m) (hg : grid.shape = sh ++ [2]) (hv : vec.shape = sh ++ [m]) :
    (∃ r, cylToCart grid (some vec) = .ok r ∧ r.shape = sh ++ [2] ∧
      ∀ i, InShape sh i → pairAt r i = cylToCartVec2 (pairAt grid i) (pairAt vec i)) ∧
    ∃ r, cartToCyl grid (some vec) = .ok r ∧ r.shape = sh ++ [2] ∧
      ∀ i, InShape sh i → pairAt r i = cartToCylVec2 (pairAt grid i) (pairAt vec i) := by
  constructor
  · show Ok (cylToCart grid (some vec)) _
    refine Ok.bind (item_at hv (by omega)) fun _ v0 => Ok.bind (item_at hg (by norm_num)) fun _ p => Ok.bind (item_at hv (by omega)) fun _ v1 => ?_
    refine Ok.bind (v0.zip _ (p.map _)) fun _ a => Ok.bind (v1.zip _ (p.map _)) fun _ b => Ok.bind (a.zip _ b) fun _ hx => ?_
    refine Ok.bind (v0.zip _ (p.map _)) fun _ a => Ok.bind (v1.zip _ (p.map _)) fun _ b => Ok.bind (a.zip _ b) fun _ hy => ?_
    rw [stackOut2 hg]
    exact (stack2 hx hy).mono fun _ h => ⟨h.1, fun i hi => V2.ext (h.2.1 i hi) (h.2.2 i hi)⟩
  · show Ok (cartToCyl grid (some vec)) _
    refine Ok.bind (item_at hg (by norm_num)) fun _ g1 => Ok.bind (item_at hg (by norm_num)) fun _ g0 => Ok.bind (g1.zip _ g0) fun _ p => ?_
    refine Ok.bind (item_at hv (by omega)) fun _ v0 => Ok.bind (item_at hv (by omega)) fun _ v1 => ?_
    refine Ok.bind ((p.map _).zip _ v0) fun _ a => Ok.bind ((p.map _).zip _ v1) fun _ b => Ok.bind (a.zip _ b) fun _ hx => ?_
    refine Ok.bind ((p.map _).zip _ v0) fun _ a => Ok.bind ((p.map _).zip _ v1) fun _ b => Ok.bind (a.zip _ b) fun _ hy => ?_
    rw [stackOut2 hg]
    exact (stack2 hx hy).mono fun _ h => ⟨h.1, fun i hi => V2.ext (h.2.1 i hi) (h.2.2 i hi)⟩

/-- The rows of `grid` have less than `n` columns, or it is a plain number. -/
def TooNarrow (grid : NArr ℝ) (n : ℕ) : Prop := grid.shape = [] ∨ ∃ sh k, grid.shape = sh ++ [k] ∧ k < n

theorem item_cases (a : NArr ℝ) (k : ℕ) : item a k = .error .indexError ∨ ∃ r, item a k = .ok r := by
  unfold item
  split
  · exact .inl rfl
  · split_ifs
    · exact .inr ⟨_, rfl⟩
    · exact .inl rfl

/-- **C101.** Rows that are too short raise `IndexError`. -/
theorem narrow_points :
    (TooNarrow grid 2 → cylToCart grid none = .error .indexError ∧ cartToCyl grid none = .error .indexError) ∧
    (TooNarrow grid 3 → sphToCart grid none = .error .indexError) := by
  have two : TooNarrow grid 2 → item grid 1 = .error .indexError := by
    rintro (h | ⟨sh, k, h, hk⟩)
    · exact item_raises (.inl h)
    · exact item_raises (.inr ⟨sh, k, h, by omega⟩)
  have three : TooNarrow grid 3 → item grid 2 = .error .indexError := by
    rintro (h | ⟨sh, k, h, hk⟩)
    · exact item_raises (.inl h)
    · exact item_raises (.inr ⟨sh, k, h, by omega⟩)
  refine ⟨fun h => ⟨?_, ?_⟩, fun h => ?_⟩
  · unfold cylToCart
    rcases item_cases grid 0 with h0 | ⟨_, h0⟩ <;> simp only [h0, two h] <;> rfl
  · unfold cartToCyl
    rcases item_cases grid 0 with h0 | ⟨_, h0⟩ <;> simp only [h0, two h] <;> rfl
  · unfold sphToCart
    rcases item_cases grid 0 with h0 | ⟨_, h0⟩ <;> simp only [h0, three h] <;> rfl

/-! ## Round trips -/

theorem holds_same {r : NArr ℝ} (hr : r.shape = sh ++ [3]) (hg : grid.shape = sh ++ [3]) (h : ∀ i, InShape sh i → vecAt r i = vecAt grid i) :
    r.Same grid := by
  refine ⟨hr.trans hg.symm, fun j hj => ?_⟩
  rw [hr] at hj
  have hne : j ≠ [] := by
    rintro rfl
    simpa using inShape_length hj
  have hsplit := List.dropLast_append_getLast hne
  have hj' : InShape sh j.dropLast ∧ j.getLast hne < 3 := by
    rw [← hsplit] at hj
    have h1 := Dipole.inShape_reverse hj
    simp only [List.reverse_append, List.reverse_cons, List.reverse_nil, List.nil_append, List.singleton_append] at h1
    cases h1 with
    | cons hk ht => exact ⟨by simpa using Dipole.inShape_reverse ht, hk⟩
  rw [← hsplit, vecAt_eq.1 (h _ hj'.1) _ hj'.2, ← vecAt_eq.1 rfl _ hj'.2]

/-- **C101.** Converting an array of points to cylindrical coordinates and back returns the array. -/
theorem cyl_round_trip (hg : grid.shape = sh ++ [3]) :
    ∃ a b, cartToCyl grid none = .ok a ∧ cylToCart a none = .ok b ∧ b.Same grid := by
  obtain ⟨a, ha, hs, hv⟩ := cartToCyl_points hg
  obtain ⟨b, hb, hs', hv'⟩ := cylToCart_points hs
  exact ⟨a, b, ha, hb, holds_same hs' hg fun i hi => by rw [hv' i hi, hv i hi, cylToCart_cartToCyl]⟩

/-- **C101.** Converting an array of points to spherical coordinates and back returns the array. -/
theorem sph_round_trip (hg : grid.shape = sh ++ [3]) :
    ∃ a b, cartToSph grid none = .ok a ∧ sphToCart a none = .ok b ∧ b.Same grid := by
  obtain ⟨a, ha, hs, hv⟩ := cartToSph_points hg
  obtain ⟨b, hb, hs', hv'⟩ := sphToCart_points hs
  exact ⟨a, b, ha, hb, holds_same hs' hg fun i hi => by rw [hv' i hi, hv i hi, sphToCart_cartToSph]⟩

/-- **C101.** Converting an array of vectors to cylindrical components and back returns the array. -/
theorem cyl_vectors_round_trip (hg : grid.shape = sh ++ [3]) (hv : vec.shape = sh ++ [3]) :
    ∃ p a b, cartToCyl grid none = .ok p ∧ cartToCyl grid (some vec) = .ok a ∧ cylToCart p (some a) = .ok b ∧ b.Same vec := by
  obtain ⟨p, hp, hs, hpv⟩ := cartToCyl_points hg
  obtain ⟨a, ha, has, hav⟩ := (cartToCyl_vectors hg hv).1 (bcast_self _)
  obtain ⟨b, hb, hbs, hbv⟩ := (cylToCart_vectors hs has).1 (bcast_self _)
  refine ⟨p, a, b, hp, ha, hb, holds_same hbs hv fun i hi => ?_⟩
  rw [hbv i hi, hav i hi, through_self hi, hpv i hi, cylToCartVec_cartToCylVec]

/-! ## Flattened vectors -/

/-- The array of shape `(3 n,)` that holds the array of vectors of shape `(n, 3)` in column-major order. -/
def flattened (vec : NArr ℝ) : NArr ℝ := vec.flattenF

/-- **C101 is false for flattened vectors.** The documentation accepts, in place of the vectors, the same numbers flattened in
column-major order.  The cylindrical conversions refuse them, whatever the points and vectors. -/
theorem flattened_refused {n : ℕ} (hn : 0 < n) (hg : grid.shape = [n, 3]) (hv : vec.shape = [n, 3]) :
    cylToCart grid (some (flattened vec)) = .error .valueError ∧ cartToCyl grid (some (flattened vec)) = .error .valueError := by
  have hs : (flattened vec).shape = [] ++ [n * 3] := by simp [flattened, flattenF, NArr.size, hv]
  have hg' : grid.shape = [n] ++ [3] := hg
  have hb : bcastShape [n] [] = .ok [n] := rfl
  have hb' : bcastShape [] [n] = .ok [n] := rfl
  obtain ⟨gx, hx0, h0⟩ := item_at (k := 0) hg' (by norm_num)
  obtain ⟨gy, hy0, h1⟩ := item_at (k := 1) hg' (by norm_num)
  obtain ⟨theta, ht, q⟩ := h1.zip arctan2 h0
  obtain ⟨v0, e0, g0⟩ := item_at (k := 0) hs (by omega)
  obtain ⟨v1, e1, g1⟩ := item_at (k := 1) hs (by omega)
  obtain ⟨v2, e2, g2⟩ := item_at (k := 2) hs (by omega)
  constructor
  · unfold cylToCart
    simp only [hy0, e0, e1, ok_bind]
    obtain ⟨_, k, a⟩ := g0.zipAny (· * ·) (h1.map Real.cos) hb'
    simp only [k, ok_bind]
    obtain ⟨_, k, b⟩ := g1.zipAny (· * ·) (h1.map Real.sin) hb'
    simp only [k, ok_bind]
    obtain ⟨_, k, hx⟩ := a.zip (· - ·) b
    simp only [k, ok_bind]
    obtain ⟨_, k, a⟩ := g0.zipAny (· * ·) (h1.map Real.sin) hb'
    simp only [k, ok_bind]
    obtain ⟨_, k, b⟩ := g1.zipAny (· * ·) (h1.map Real.cos) hb'
    simp only [k, ok_bind]
    obtain ⟨_, k, hy⟩ := a.zip (· + ·) b
    simp only [k, ok_bind]
    rw [stackOut3 hg' e2]
    exact stack_refuses (by rw [g2.1, hx.1]; simp)
  · unfold cartToCyl
    simp only [hx0, hy0, ht, e0, e1, ok_bind]
    obtain ⟨_, k, a⟩ := (q.map Real.cos).zipAny (· * ·) g0 hb
    simp only [k, ok_bind]
    obtain ⟨_, k, b⟩ := (q.map Real.sin).zipAny (· * ·) g1 hb
    simp only [k, ok_bind]
    obtain ⟨_, k, hx⟩ := a.zip (· + ·) b
    simp only [k, ok_bind]
    obtain ⟨_, k, a⟩ := (q.map fun t => -Real.sin t).zipAny (· * ·) g0 hb
    simp only [k, ok_bind]
    obtain ⟨_, k, b⟩ := (q.map Real.cos).zipAny (· * ·) g1 hb
    simp only [k, ok_bind]
    obtain ⟨_, k, hy⟩ := a.zip (· + ·) b
    simp only [k, ok_bind]
    rw [stackOut3 hg' e2]
    exact stack_refuses (by rw [g2.1, hx.1]; simp)

/-- The spherical conversions only read the first three numbers of a flattened array, as if they were one vector for all points. -/
theorem sph_reads_first {k : ℕ} (hg : grid.shape = s ++ [3]) (hv : vec.shape = [k]) (hk : 3 ≤ k) :
    (∃ r, sphToCart grid (some vec) = .ok r ∧ HoldsVectors s (vecAt grid) (fun g => sphToCartVec g (vecAt vec [])) r) ∧
    ∃ r, cartToSph grid (some vec) = .ok r ∧ HoldsVectors s (vecAt grid) (fun g => cartToSphVec g (vecAt vec [])) r := by
  have e : ∀ c, c < 3 → item vec c = item ⟨[3], vec.get⟩ c := by
    intro c hc
    have h : ([3] : List ℕ).getLast? = some 3 := rfl
    simp only [item, hv, List.getLast?_singleton, h, if_pos (show c < k by omega), if_pos hc]
    simp [col, hv]
  have h1 : sphToCart grid (some vec) = sphToCart grid (some ⟨[3], vec.get⟩) := by
    unfold sphToCart
    simp only [e 0 (by norm_num), e 1 (by norm_num), e 2 (by norm_num)]
  have h2 : cartToSph grid (some vec) = cartToSph grid (some ⟨[3], vec.get⟩) := by
    unfold cartToSph
    simp only [e 0 (by norm_num), e 1 (by norm_num), e 2 (by norm_num)]
  have hb : bcastShape s [] = .ok s := by
    unfold bcastShape
    rw [List.reverse_nil, bcastRev_nil]
    simp
  rw [h1, h2]
  constructor
  · obtain ⟨r, hr, hs, hval⟩ := (sphToCart_vectors (vec := ⟨[3], vec.get⟩) (t := []) hg rfl).2 s hb
    refine ⟨r, hr, hs, fun i hi => ?_⟩
    have := hval i hi
    rw [through_self hi] at this
    exact (Except.ok.inj this).symm
  · obtain ⟨r, hr, hs, hval⟩ := (cartToSph_vectors (vec := ⟨[3], vec.get⟩) (t := []) hg rfl).2 s hb
    refine ⟨r, hr, hs, fun i hi => ?_⟩
    have := hval i hi
    rw [through_self hi] at this
    exact (Except.ok.inj this).symm

/-- Two points on the x axis with the vector `(0, 0, 1)` at the second of them only. -/
def twoPoints : NArr ℝ := ⟨[2, 3], fun i => if i = [0, 0] ∨ i = [1, 0] then 1 else 0⟩

/-- See `twoPoints`. -/
def oneVector : NArr ℝ := ⟨[2, 3], fun i => if i = [1, 2] then 1 else 0⟩

/-- **C101 is false for flattened vectors.** The spherical conversion returns a wrong result without an exception: here the second vector
has polar component -1, but all the components returned are zero. -/
theorem flattened_wrong :
    ∃ r r', cartToSph twoPoints (some oneVector) = .ok r ∧ cartToSph twoPoints (some (flattened oneVector)) = .ok r' ∧
      vecAt r [1] ≠ vecAt r' [1] := by
  obtain ⟨r, hr, -, hv⟩ := (cartToSph_vectors (grid := twoPoints) (vec := oneVector) (s := [2]) (t := [2]) rfl rfl).2 [2] (bcast_self _)
  obtain ⟨r', hr', -, hv'⟩ := (sph_reads_first (grid := twoPoints) (vec := flattened oneVector) (s := [2]) (k := 6) rfl rfl (by norm_num)).2
  refine ⟨r, r', hr, hr', ?_⟩
  have hi : InShape [2] [1] := inShape_one.2 ⟨1, rfl, by norm_num⟩
  have h1 := Except.ok.inj (hv [1] hi)
  rw [through_self hi] at h1
  rw [← h1, hv' [1] hi]
  have e1 : vecAt twoPoints [1] = ⟨1, 0, 0⟩ := by simp [vecAt, twoPoints]
  have e2 : vecAt oneVector [1] = ⟨0, 0, 1⟩ := by simp [vecAt, oneVector]
  have e3 : vecAt (flattened oneVector) [] = ⟨0, 0, 0⟩ := by
    simp [vecAt, flattened, flattenF, oneVector, unravelF, NArr.size]
  beta_reduce
  rw [e1, e2, e3]
  intro h
  have h3 := congrArg V3.z h
  have ha : arctan2 1 0 = Real.pi / 2 := by
    unfold arctan2
    have : (⟨0, 1⟩ : ℂ) = Complex.I := rfl
    rw [this, Complex.arg_I]
  simp [cartToSphVec, ha] at h3

/-! ## Names and other helpers -/

/-- **C101.** The older names are the same functions. -/
theorem aliases (grid : NArr ℝ) (vec : Option (NArr ℝ)) :
    cylindrical2Cartesian grid vec = cylToCart grid vec ∧ cartesian2Cylindrical grid vec = cartToCyl grid vec ∧
    spherical2Cartesian grid vec = sphToCart grid vec ∧ cartesian2Spherical grid vec = cartToSph grid vec := ⟨rfl, rfl, rfl, rfl⟩

/-- **C101.** `vector_magnitude` returns the length of each vector of an array. -/
theorem vectorMagnitude_each (hg : vec.shape = sh ++ [3]) :
    ∃ r, vectorMagnitude vec = .ok r ∧ HoldsScalars sh (vecAt vec) V3.len r := by
  refine ⟨Dipole.normLast vec, ?_, norm_at hg⟩
  simp [vectorMagnitude, hg]

/-- **C101.** A single number has no magnitude and cannot be repeated: the exceptions are those of numpy and of `len`. -/
theorem scalars_rejected (a : NArr ℝ) (dim : ℕ) (h : a.shape = []) :
    vectorMagnitude a = .error .valueError ∧ repeatScalar a dim = .error .typeError := by
  simp [vectorMagnitude, repeatScalar, h]

/-- **C101.** `repeat_scalar` repeats each number of a one-dimensional array.  The check of its argument never fails: a matrix of numbers
is accepted as well, and its transpose is repeated. -/
theorem repeatScalar_accepts (a : NArr ℝ) (dim : ℕ) :
    (∀ n, a.shape = [n] → ∃ m, repeatScalar a dim = .ok m ∧ m.rows = n ∧ m.width = dim ∧ ∀ i < n, ∀ j < dim, m.get i j = a.get [i]) ∧
    (∀ n k, a.shape = [n, k] → ∃ m, repeatScalar a dim = .ok m ∧ m.rows = k ∧ m.width = dim * n ∧
      ∀ i < k, ∀ j < dim * n, m.get i j = a.get [j % n, i]) ∧ repeatScalar a dim ≠ .error .assertionError := by
  refine ⟨fun n h => ?_, fun n k h => ?_, ?_⟩
  · refine ⟨_, by simp only [repeatScalar, h, List.mem_singleton, if_true, atleast2dT]; rfl, by simp [kron], by simp [kron], ?_⟩
    intro i hi j hj
    simp [kron, Nat.mod_eq_of_lt hi]
  · refine ⟨_, by simp only [repeatScalar, h, List.mem_cons, true_or, if_true, atleast2dT]; rfl, by simp [kron], by simp [kron], ?_⟩
    intro i hi j hj
    simp [kron, Nat.mod_eq_of_lt hi]
  · unfold repeatScalar
    split
    · simp
    · rename_i n l h
      rw [if_pos (by rw [h]; simp)]
      unfold atleast2dT
      split <;> simp [bind, Except.bind, pure, Except.pure]

/-- An array of points of shape `(2, 3)` is converted, and back. -/
example : ∃ a b, cartToCyl twoPoints none = .ok a ∧ cylToCart a none = .ok b ∧ b.Same twoPoints :=
  cyl_round_trip (sh := [2]) rfl

end Verif.ConvArr
