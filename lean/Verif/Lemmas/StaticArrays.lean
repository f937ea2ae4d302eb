import Verif.Lemmas.PointArrays
import Verif.Props.Masks

/-!
# Steps of the array methods of the static sources
-/

namespace Verif.PointArr

open NArr Spatial Utils

variable {sh : List ℕ} {g v a : NArr ℝ} {f w x : List ℕ → V3 ℝ}

/-! ## Change of coordinates -/

theorem cylToCart_arr (h : Vc sh g f) : Ok (SpatialArr.cylToCart g) fun r => Vc sh r fun i => cylToCart (f i) := by
  refine Ok.bind (h.col0.zip _ (h.col1.map _)) fun _ h1 => ?_
  refine Ok.bind (h.col0.zip _ (h.col1.map _)) fun _ h2 => ?_
  rw [if_pos (by simp [h.1])]
  exact stack3 h1 h2 h.col2

theorem cartToCylVec_arr (h : Vc sh g f) (hv : Vc sh v w) :
    Ok (SpatialArr.cartToCylVec g v) fun r => Vc sh r fun i => cartToCylVec (f i) (w i) := by
  refine Ok.bind (h.col1.zip _ h.col0) fun _ ht => ?_
  refine Ok.bind ((ht.map _).zip _ hv.col0) fun _ h1 => ?_
  refine Ok.bind ((ht.map _).zip _ hv.col1) fun _ h2 => ?_
  refine Ok.bind (h1.zip _ h2) fun _ h3 => ?_
  refine Ok.bind ((ht.map _).zip _ hv.col0) fun _ h4 => ?_
  refine Ok.bind ((ht.map _).zip _ hv.col1) fun _ h5 => ?_
  refine Ok.bind (h4.zip _ h5) fun _ h6 => ?_
  rw [if_pos (by simp [h.1])]
  exact stack3 h3 h6 hv.col2

/-- Two columns. -/
theorem cartToCyl_two {p q : List ℕ → ℝ} (hs : g.shape = sh ++ [2]) (h0 : Sc sh (g.col 0) p) (h1 : Sc sh (g.col 1) q) :
    Ok (SpatialArr.cartToCyl g) fun r => r.shape = sh ++ [2] ∧ Sc sh (r.col 0) (fun i => (cartToCyl2 ⟨p i, q i⟩).x) ∧
      Sc sh (r.col 1) fun i => (cartToCyl2 ⟨p i, q i⟩).y := by
  refine Ok.bind ((h0.map _).zip _ (h1.map _)) fun _ h2 => ?_
  refine Ok.bind (h1.zip _ h0) fun _ h3 => ?_
  rw [if_neg (by simp [hs])]
  refine (stack2 (h2.map _) h3).mono fun r hr => ⟨hr.1, ⟨by simp [col, hr.1], fun i hi => ?_⟩, ⟨by simp [col, hr.1], fun i hi => ?_⟩⟩
  · exact hr.2.1 i hi
  · exact hr.2.2 i hi

theorem cylToCartVec_two {p : List ℕ → ℝ} (hs : g.shape = sh ++ [2]) (h1 : Sc sh (g.col 1) p) (hv : Vc sh v w) :
    Ok (SpatialArr.cylToCartVec g v) fun r => r.shape = sh ++ [2] ∧
      (∀ i, InShape sh i → r.get (i ++ [0]) = (cylToCartVec2 ⟨0, p i⟩ ⟨(w i).x, (w i).y⟩).x) ∧
      ∀ i, InShape sh i → r.get (i ++ [1]) = (cylToCartVec2 ⟨0, p i⟩ ⟨(w i).x, (w i).y⟩).y := by
  refine Ok.bind (hv.col0.zip _ (h1.map _)) fun _ h2 => ?_
  refine Ok.bind (hv.col1.zip _ (h1.map _)) fun _ h3 => ?_
  refine Ok.bind (h2.zip _ h3) fun _ h4 => ?_
  refine Ok.bind (hv.col0.zip _ (h1.map _)) fun _ h5 => ?_
  refine Ok.bind (hv.col1.zip _ (h1.map _)) fun _ h6 => ?_
  refine Ok.bind (h5.zip _ h6) fun _ h7 => ?_
  rw [if_neg (by simp [hs])]
  exact stack2 h4 h7

/-! ## The separation from the source -/

theorem sub_arr (h : Vc sh a x) (l : V3 ℝ) : Ok (zipWith (· - ·) a (arr3 l)) fun r => Vc sh r fun i => x i - l := h.zipArr _ l

/-! ## Rotations -/

/-- `rot.apply(xyz.reshape(-1, 3) - p0).reshape(xyz.shape)` -/
theorem shift_rotate (h : Vc sh a x) (m : M3 ℝ) (p : V3 ℝ) :
    Ok (zipWith (· - ·) a.toRows (arr3 p)) fun r => Vc sh ((applyRows m r).reshape a.shape) fun i => m.mulVec (x i - p) := by
  have hr : Vc [sh.prod] a.toRows fun i => vecAt a.toRows i := ⟨toRows_shape h.1, fun i _ => rfl⟩
  refine (sub_arr hr p).mono fun r hr' => rotate_rows m hr'.1 (fun i hi c hc => ?_) h.1
  have h1 := vecAt_eq.1 (hr'.2 [ravelC sh i] (inShape_one.2 ⟨_, rfl, ravelC_lt hi⟩)) c hc
  simp only [List.cons_append, List.nil_append] at h1
  rw [h1]
  have h2 : vecAt a.toRows [ravelC sh i] = x i := by
    rw [← h.2 i hi]
    exact vecAt_eq.2 fun c hc => (toRows_get h.1 hi hc).trans (vecAt_eq.1 rfl c hc)
  rw [h2]

/-- `rot.apply(temp.reshape(-1, 3), inverse=True).reshape(xyz.shape)` -/
theorem rotate_back {t : NArr ℝ} (ht : Vc sh t w) (h : Vc sh a x) (m : M3 ℝ) :
    Vc sh ((applyRows m t.toRows).reshape a.shape) fun i => m.mulVec (w i) :=
  rotate_rows m (toRows_shape ht.1) (fun i hi c hc => (toRows_get ht.1 hi hc).trans (vecAt_eq.1 (ht.2 i hi) c hc)) h.1

/-! ## Assignments to columns -/

theorem setCol_vec {p : List ℕ → ℝ} {b : NArr ℝ} (h : Vc sh a w) (hb : Sc sh b p) (k : ℕ) :
    Vc sh (a.setCol k b) fun i => ⟨if 0 = k then p i else (w i).x, if 1 = k then p i else (w i).y, if 2 = k then p i else (w i).z⟩ := by
  refine ⟨h.1, fun i hi => ?_⟩
  beta_reduce
  rw [← h.2 i hi, ← hb.2 i hi]
  simp [vecAt, setCol]

theorem setLastTwo_vec {p q : List ℕ → ℝ} {b : NArr ℝ} (h : Vc sh a w) (h0 : ∀ i, InShape sh i → b.get (i ++ [0]) = p i)
    (h1 : ∀ i, InShape sh i → b.get (i ++ [1]) = q i) : Vc sh (a.setLastTwo b) fun i => ⟨(w i).x, p i, q i⟩ := by
  refine ⟨h.1, fun i hi => ?_⟩
  beta_reduce
  rw [← h.2 i hi, ← h0 i hi, ← h1 i hi]
  simp [vecAt, setLastTwo]

theorem zeros_vec (h : Vc sh a x) : Vc sh (a.zerosLike : NArr ℝ) fun _ => 0 := ⟨h.1, fun _ _ => rfl⟩

theorem negFzy_vec (h : Vc sh a x) : Sc sh (StaticArr.negFzy a) fun i => -Prism.Py.prismFzy (x i).x (x i).y (x i).z :=
  ⟨by simp [StaticArr.negFzy, h.1], fun i hi => by beta_reduce; rw [← h.2 i hi]; rfl⟩

theorem lastTwo_col0 (h : Vc sh a x) : Sc sh (a.lastTwo.col 0) fun i => (x i).y :=
  ⟨by simp [col, lastTwo, h.1], fun i hi => by beta_reduce; rw [← h.2 i hi]; simp [col, lastTwo, vecAt]⟩

theorem lastTwo_col1 (h : Vc sh a x) : Sc sh (a.lastTwo.col 1) fun i => (x i).z :=
  ⟨by simp [col, lastTwo, h.1], fun i hi => by beta_reduce; rw [← h.2 i hi]; simp [col, lastTwo, vecAt]⟩

/-! ## The loops over the segments of a wire -/

open Static in
theorem potentialLoop_spec (h : Vc sh a x) : ∀ (nodes : List (V3 ℝ)) (o : V3 ℝ → V3 ℝ) (out temp : NArr ℝ) (t : List ℕ → ℝ),
    Vc sh out (fun i => o (x i)) → Vc sh temp (fun i => ⟨t i, 0, 0⟩) →
    EachVector sh x (fun p => sumSegments (fun p0 p1 => segmentPotential p0 p1 p) nodes (o p))
      (StaticArr.potentialLoop a nodes out temp)
  | [], o, out, temp, t, ho, ht => .inl ⟨o, fun _ => rfl, out, rfl, ho.1, ho.2⟩
  | [_], o, out, temp, t, ho, ht => .inl ⟨o, fun _ => rfl, out, rfl, ho.1, ho.2⟩
  | p0 :: p1 :: rest, o, out, temp, t, ho, ht => by
    unfold sumSegments StaticArr.potentialLoop segmentPotential
    rcases hrot : rotationMatrixFromNormals (arr3 ((p1 - p0).map (· / (p1 - p0).len))) (arr3 ⟨1, 0, 0⟩) defaultTol with e | rot
    · refine .inr ⟨e, fun _ => ?_, ?_⟩ <;> simp only [hrot, bind, Except.bind]
    · obtain ⟨s, hs, hr0⟩ := shift_rotate h rot p0
      simp only [hrot, bind, Except.bind, pure, Except.pure, hs]
      obtain ⟨r1, hr1, h1⟩ := sub_arr hr0 ⟨(p1 - p0).len, 0, 0⟩
      obtain ⟨d, hd, hd'⟩ := (negFzy_vec h1).zip (· - ·) (negFzy_vec hr0)
      simp only [hr1, hd]
      have ht' := (setCol_vec ht hd' 0)
      simp only [one_ne_zero, if_true, if_false, OfNat.ofNat_ne_zero] at ht'
      obtain ⟨out', ho', hout⟩ := ho.zip (· + ·) (rotate_back ht' h rot.transpose)
      simp only [ho']
      refine potentialLoop_spec h (p1 :: rest) (fun p => o p + rot.transpose.mulVec
        ⟨-Prism.Py.prismFzy (rot.mulVec (p - p0) - ⟨(p1 - p0).len, 0, 0⟩).x (rot.mulVec (p - p0) - ⟨(p1 - p0).len, 0, 0⟩).y
            (rot.mulVec (p - p0) - ⟨(p1 - p0).len, 0, 0⟩).z -
          -Prism.Py.prismFzy (rot.mulVec (p - p0)).x (rot.mulVec (p - p0)).y (rot.mulVec (p - p0)).z, 0, 0⟩) out' _ _ hout ht'

open Static in
theorem fluxLoop_spec (h : Vc sh a x) : ∀ (nodes : List (V3 ℝ)) (o : V3 ℝ → V3 ℝ) (out temp : NArr ℝ) (t u : List ℕ → ℝ),
    Vc sh out (fun i => o (x i)) → Vc sh temp (fun i => ⟨0, t i, u i⟩) →
    EachVector sh x (fun p => sumSegments (fun p0 p1 => segmentFlux p0 p1 p) nodes (o p)) (StaticArr.fluxLoop a nodes out temp)
  | [], o, out, temp, t, u, ho, ht => .inl ⟨o, fun _ => rfl, out, rfl, ho.1, ho.2⟩
  | [_], o, out, temp, t, u, ho, ht => .inl ⟨o, fun _ => rfl, out, rfl, ho.1, ho.2⟩
  | p0 :: p1 :: rest, o, out, temp, t, u, ho, ht => by
    unfold sumSegments StaticArr.fluxLoop segmentFlux
    rcases hrot : rotationMatrixFromNormals (arr3 ((p1 - p0).map (· / (p1 - p0).len))) (arr3 ⟨1, 0, 0⟩) defaultTol with e | rot
    · refine .inr ⟨e, fun _ => ?_, ?_⟩ <;> simp only [hrot, bind, Except.bind]
    · obtain ⟨s, hs, hr0⟩ := shift_rotate h rot p0
      simp only [hrot, bind, Except.bind, pure, Except.pure, hs]
      obtain ⟨r1, hr1, h1⟩ := sub_arr hr0 ⟨(p1 - p0).len, 0, 0⟩
      simp only [hr1]
      obtain ⟨u0, hu0, hu0'⟩ := hr0.zipKp (· / ·) hr0.normKeep
      obtain ⟨u1, hu1, hu1'⟩ := h1.zipKp (· / ·) h1.normKeep
      simp only [hu0, hu1]
      obtain ⟨cyl, hcyl, hc, hc0, hc1⟩ := cartToCyl_two (by simp [lastTwo, hr0.1]) (lastTwo_col0 hr0) (lastTwo_col1 hr0)
      simp only [hcyl]
      obtain ⟨d, hd, hd'⟩ := hu1'.col0.zip (· - ·) hu0'.col0
      simp only [hd]
      obtain ⟨v, hv, hv'⟩ := hd'.zip (· / ·) hc0
      simp only [hv]
      have ht1 := setCol_vec ht hv' 1
      simp only [zero_ne_one, if_true, if_false, OfNat.ofNat_ne_one] at ht1
      obtain ⟨w, hw, -, hw0, hw1⟩ := cylToCartVec_two hc hc1 ht1
      simp only [hw]
      have ht2 := setLastTwo_vec ht1 hw0 hw1
      obtain ⟨out', ho', hout⟩ := ho.zip (· + ·) (rotate_back ht2 h rot.transpose)
      simp only [ho']
      exact fluxLoop_spec h (p1 :: rest) (fun p => o p + _) out' _ _ _ hout ht2

end Verif.PointArr
