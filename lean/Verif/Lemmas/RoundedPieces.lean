import Verif.Model.Rounded
import Verif.Lemmas.Rounding
import Mathlib.Tactic.Linarith

/-!
# Errors of the pieces of the rounded formulas: sums of three, distances, unit vectors
-/

namespace Verif.Rounded

variable {u : ℝ} (F : Arith u) (hu : 0 ≤ u) (hu1 : u < 1)
include hu hu1

theorem near_sum3 {n a b c a' b' c' : ℝ} (ha : 0 ≤ a) (hb : 0 ≤ b) (hc : 0 ≤ c)
    (h1 : Near u n a a') (h2 : Near u n b b') (h3 : Near u n c c') : Near u (n + 2) (a + b + c) (sum3 F a' b' c') := by
  have up : ∀ {x y : ℝ}, Near u n x y → Near u (n + 1) x y := fun h => h.mono hu hu1 (by linarith)
  unfold sum3
  split_ifs
  · exact ((F.near_add hu hu1 (add_nonneg ha hb) hc (F.near_add hu hu1 ha hb h1 h2) (up h3))).mono hu hu1 (by linarith)
  · rw [add_assoc]
    exact ((F.near_add hu hu1 ha (add_nonneg hb hc) (up h1) (F.near_add hu hu1 hb hc h2 h3))).mono hu hu1 (by linarith)
  · rw [add_right_comm]
    exact ((F.near_add hu hu1 (add_nonneg ha hc) hb (F.near_add hu hu1 ha hc h1 h3) (up h2))).mono hu hu1 (by linarith)

theorem near_norm {n : ℝ} {v v' : V3 ℝ} (hx : Near u n v.x v'.x) (hy : Near u n v.y v'.y) (hz : Near u n v.z v'.z) :
    Near u (n + 5 / 2) v.len (norm F v') := by
  have sq : ∀ {a b : ℝ}, Near u n a b → Near u (2 * n + 1) (a ^ 2) (F.mul b b) := fun {a b} h => by
    rw [pow_two]; exact (F.near_mul hu hu1 h h).mono hu hu1 (by linarith)
  have h := near_sum3 F hu hu1 (sq_nonneg v.x) (sq_nonneg v.y) (sq_nonneg v.z) (sq hx) (sq hy) (sq hz)
  exact (F.near_sqrt hu hu1 (by positivity) h).mono hu hu1 (by linarith)

theorem near_diff (a b : V3 ℝ) : Near u 1 (a - b).x (diff F a b).x ∧ Near u 1 (a - b).y (diff F a b).y ∧
    Near u 1 (a - b).z (diff F a b).z :=
  ⟨F.near_sub hu hu1 a.x b.x, F.near_sub hu hu1 a.y b.y, F.near_sub hu hu1 a.z b.z⟩

theorem near_dist (a b : V3 ℝ) : Near u (7 / 2) (a - b).len (norm F (diff F a b)) := by
  obtain ⟨h1, h2, h3⟩ := near_diff F hu hu1 a b
  exact (near_norm F hu hu1 h1 h2 h3).mono hu hu1 (by norm_num)

theorem near_unit {a b : V3 ℝ} (h : a ≠ b) :
    Near u (11 / 2) ((a - b).x / (a - b).len) (unit F (diff F a b) (norm F (diff F a b))).x ∧
    Near u (11 / 2) ((a - b).y / (a - b).len) (unit F (diff F a b) (norm F (diff F a b))).y ∧
    Near u (11 / 2) ((a - b).z / (a - b).len) (unit F (diff F a b) (norm F (diff F a b))).z := by
  obtain ⟨h1, h2, h3⟩ := near_diff F hu hu1 a b
  have hr := near_dist F hu hu1 a b
  have h0 := V3.len_sub_ne_zero h
  exact ⟨(F.near_div hu hu1 h1 hr h0).mono hu hu1 (by norm_num), (F.near_div hu hu1 h2 hr h0).mono hu hu1 (by norm_num),
    (F.near_div hu hu1 h3 hr h0).mono hu hu1 (by norm_num)⟩

end Verif.Rounded
