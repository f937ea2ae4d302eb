import Verif.Lemmas.LoopCalc
import Verif.Lemmas.LineSegment
import Verif.Model.CircularLoop
import Verif.Props.Coordinates

/-! # The loop's frame of reference (helper lemmas) -/

namespace Verif.Static

open Spatial Real

/-- Distance of `d` from the axis `n` through the origin. -/
noncomputable def axisDist (n d : V3 ℝ) : ℝ := √(d.len ^ 2 - n.dot d ^ 2)

theorem axisDist_sq {n : V3 ℝ} (hn : n.len = 1) (d : V3 ℝ) : axisDist n d ^ 2 = d.len ^ 2 - n.dot d ^ 2 := by
  refine sq_sqrt ?_
  have := V3.dot_sq_le n d
  rw [V3.dot_self, V3.dot_self, hn] at this
  linarith

theorem axisDist_sq_cross {n : V3 ℝ} (hn : n.len = 1) (d : V3 ℝ) : axisDist n d ^ 2 = (n.cross d).len ^ 2 := by
  rw [axisDist_sq hn, ← V3.dot_self (n.cross d), V3.cross_dot_self, V3.dot_self, V3.dot_self, hn]; ring

/-- What a vector with cylindrical components `v` about the axis `n` is. -/
noncomputable def fromCyl (n d v : V3 ℝ) : V3 ℝ :=
  (v.x / axisDist n d) • (d - n.dot d • n) + (v.y / axisDist n d) • n.cross d + v.z • n

theorem polar_cos_sin (x y : ℝ) : √(x ^ 2 + y ^ 2) * cos (arctan2 y x) = x ∧ √(x ^ 2 + y ^ 2) * sin (arctan2 y x) = y := by
  have h := cylToCart_cartToCyl ⟨x, y, 0⟩
  simp only [cylToCart, cartToCyl, V3.mk.injEq] at h
  exact ⟨h.1, h.2.1⟩

/-- The frame in which the loop is computed: its axis `n` is the orientation up to the tolerance of
`rotation_matrix_from_normals`, and exactly the orientation unless that is within `1e-20` of vertical without being vertical. -/
theorem loop_frame (s : Loop) (h : s.orientation ≠ 0) :
    ∃ n : V3 ℝ, n.len = 1 ∧ (n - unit s.orientation).len ≤ 4 * defaultTol ∧
      (((unit s.orientation).cross ⟨0, 0, 1⟩).len = 0 ∨ defaultTol ≤ ((unit s.orientation).cross ⟨0, 0, 1⟩).len →
        n = unit s.orientation) ∧
      ∀ (f : ℝ → ℝ → Option (V3 ℝ)) (q : V3 ℝ),
        (0 < axisDist n (q - s.location) ∨ ∀ v, f 0 (n.dot (q - s.location)) = some v → v.x = 0 ∧ v.y = 0) →
        s.inFrame f q = .ok ((f (axisDist n (q - s.location)) (n.dot (q - s.location))).map
          (fromCyl n (q - s.location))) := by
  have hz : unit (⟨0, 0, 1⟩ : V3 ℝ) = ⟨0, 0, 1⟩ := by ext <;> simp [unit, V3.len]
  obtain ⟨R, h1, h2, h3, h4⟩ := rotationMatrix_spec (arr3 s.orientation) (arr3 ⟨0, 0, 1⟩) rfl rfl h
    (by change (⟨0, 0, 1⟩ : V3 ℝ) ≠ 0; simp [V3.ext_iff]) defaultTol (by norm_num [defaultTol]) (by norm_num [defaultTol])
  change _ → R.mulVec (unit s.orientation) = unit ⟨0, 0, 1⟩ at h3
  change (R.mulVec (unit s.orientation) - unit ⟨0, 0, 1⟩).len ≤ _ at h4
  change (((unit s.orientation).cross (unit ⟨0, 0, 1⟩)).len = 0 ∨ _ ≤ ((unit s.orientation).cross (unit ⟨0, 0, 1⟩)).len) → _ at h3
  rw [hz] at h3 h4
  have hRn : R.mulVec (R.transpose.mulVec ⟨0, 0, 1⟩) = ⟨0, 0, 1⟩ := by
    -- the transpose is a right inverse too
    have hsurj : ∃ w, R.mulVec w = ⟨0, 0, 1⟩ := by
      obtain ⟨_, hd⟩ := h2
      refine ⟨R.x.cross R.y, ?_⟩
      have : R.x.dot (R.y.cross R.z) = 1 := hd
      ext <;> simp only [M3.mulVec, V3.dot, V3.cross] at this ⊢
      · ring
      · ring
      · linarith
    obtain ⟨w, hw⟩ := hsurj
    rw [← hw, h2.transpose_mulVec]
  refine ⟨R.transpose.mulVec ⟨0, 0, 1⟩, ?_, ?_, ?_, ?_⟩
  · rw [← h2.len, hRn]; simp [V3.len]
  · rw [← h2.len, M3.mulVec_sub, hRn, ← V3.len_neg, neg_sub]; exact h4
  · intro hb
    rw [← h3 hb, h2.transpose_mulVec]
  · intro f q hq
    generalize hn : R.transpose.mulVec ⟨0, 0, 1⟩ = n at *
    generalize hd : q - s.location = d at *
    have ez : (R.mulVec d).z = n.dot d := by
      rw [← h2.dot, hRn]; simp [V3.dot]
    have er : √((R.mulVec d).x ^ 2 + (R.mulVec d).y ^ 2) = axisDist n d := by
      rw [axisDist, ← h2.len d, V3.len_sq, ez]; congr 1; ring
    simp only [Loop.inFrame, h1, hd, bind, Except.bind, pure, Except.pure, cartToCyl, er, ez]
    congr 1
    cases hf : f (axisDist n d) (n.dot d) with
    | none => rfl
    | some v =>
      simp only [Option.map_some, Option.some.injEq]
      obtain ⟨hc, hs⟩ := polar_cos_sin (R.mulVec d).x (R.mulVec d).y
      rw [er] at hc hs
      have hn1 : R.transpose.mulVec ⟨0, 0, 1⟩ = n := hn
      have hdR : R.transpose.mulVec (R.mulVec d) = d := h2.transpose_mulVec d
      have hcr : R.transpose.mulVec ((R.mulVec n).cross (R.mulVec d)) = n.cross d := by
        rw [M3.transpose_cross, h2.2, one_smul]
      rw [hRn] at hcr
      rcases (sqrt_nonneg (d.len ^ 2 - n.dot d ^ 2)).lt_or_eq with hpos | hzero
      · change 0 < axisDist n d at hpos
        rw [fromCyl, ← hcr]
        have e1 : d - n.dot d • n = R.transpose.mulVec (R.mulVec d - ⟨0, 0, (R.mulVec d).z⟩) := by
          rw [M3.mulVec_sub, hdR, ez]
          congr 1
          have : (⟨0, 0, n.dot d⟩ : V3 ℝ) = n.dot d • ⟨0, 0, 1⟩ := by ext <;> simp
          rw [this, M3.mulVec_smul, hn1]
        rw [e1, ← M3.mulVec_smul, ← M3.mulVec_smul, ← hn1, ← M3.mulVec_smul, ← M3.mulVec_add, ← M3.mulVec_add]
        congr 1
        have ec : cos (arctan2 (R.mulVec d).y (R.mulVec d).x) = (R.mulVec d).x / axisDist n d := by
          rw [eq_div_iff hpos.ne']; linarith
        have es : sin (arctan2 (R.mulVec d).y (R.mulVec d).x) = (R.mulVec d).y / axisDist n d := by
          rw [eq_div_iff hpos.ne']; linarith
        rw [hn1]
        ext <;> simp [cylToCartVec, ec, es] <;> ring
      · change 0 = axisDist n d at hzero
        rcases hq with hq | hq
        · exact absurd hzero hq.ne
        · rw [← hzero] at hf
          obtain ⟨hx, hy⟩ := hq v hf
          have : cylToCartVec ⟨axisDist n d, arctan2 (R.mulVec d).y (R.mulVec d).x, n.dot d⟩ v = v.z • ⟨0, 0, 1⟩ := by
            ext <;> simp [cylToCartVec, hx, hy]
          rw [this, M3.mulVec_smul, hn1, fromCyl, hx, hy]
          simp

end Verif.Static
