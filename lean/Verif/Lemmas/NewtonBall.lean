import Verif.Lemmas.BallIntegral
import Verif.Props.PrismNewton

/-! # Newton's integrals over a ball (helper lemmas) -/

namespace Verif.Ball

open Real MeasureTheory Set Prism Gravity

/-- The points of the ball with the centre `c` and the radius `a`. -/
def points (c : V3 ℝ) (a : ℝ) : Set (ℝ × ℝ × ℝ) := {q | (vec q - c).len ≤ a}

theorem continuous_dist (c : V3 ℝ) : Continuous fun q : ℝ × ℝ × ℝ => (vec q - c).len := by
  simp only [vec, V3.len, V3.sub_x, V3.sub_y, V3.sub_z]
  fun_prop

theorem measurableSet_points (c : V3 ℝ) (a : ℝ) : MeasurableSet (points c a) :=
  (isClosed_le (continuous_dist c) continuous_const).measurableSet

/-- A box around the ball. -/
def around (c : V3 ℝ) (a : ℝ) : Box := ⟨⟨c.x - 2 * a, c.y - 2 * a, c.z - 2 * a⟩, ⟨c.x + a, c.y + a, c.z + a⟩⟩

theorem around_proper (c : V3 ℝ) {a : ℝ} (ha : 0 < a) : (around c a).Proper := by
  refine ⟨?_, ?_, ?_⟩ <;> simp only [around] <;> linarith

theorem points_subset (c : V3 ℝ) {a : ℝ} (ha : 0 < a) : points c a ⊆ (around c a).points := by
  intro q hq
  have h := V3.len_sq (vec q - c)
  have hq : (vec q - c).len ≤ a := hq
  have h0 := V3.len_nonneg (vec q - c)
  simp only [vec, V3.sub_x, V3.sub_y, V3.sub_z] at h hq h0
  generalize (V3.len _) = r at *
  have h2 : r ^ 2 ≤ a ^ 2 := by nlinarith
  have key : ∀ t : ℝ, t ^ 2 ≤ a ^ 2 → -(2 * a) < t ∧ t ≤ a := fun t ht =>
    ⟨by linarith [(abs_le_of_sq_le_sq' ht ha.le).1], (abs_le_of_sq_le_sq' ht ha.le).2⟩
  obtain ⟨x1, x2⟩ := key (q.1 - c.x) (by nlinarith [sq_nonneg (q.2.1 - c.y), sq_nonneg (q.2.2 - c.z)])
  obtain ⟨y1, y2⟩ := key (q.2.1 - c.y) (by nlinarith [sq_nonneg (q.1 - c.x), sq_nonneg (q.2.2 - c.z)])
  obtain ⟨z1, z2⟩ := key (q.2.2 - c.z) (by nlinarith [sq_nonneg (q.2.1 - c.y), sq_nonneg (q.1 - c.x)])
  refine ⟨⟨?_, ?_⟩, ⟨?_, ?_⟩, ?_, ?_⟩ <;> simp only [around] <;> linarith

/-- The integrands of Newton's law are integrable over the ball. -/
theorem integrable (c : V3 ℝ) {a : ℝ} (ha : 0 < a) (p : V3 ℝ) :
    IntegrableOn (fun q => 1 / (vec q - p).len) (points c a) ∧
    IntegrableOn (fun q => (vec q - p).x / (vec q - p).len ^ 3) (points c a) ∧
    IntegrableOn (fun q => (vec q - p).y / (vec q - p).len ^ 3) (points c a) ∧
    IntegrableOn (fun q => (vec q - p).z / (vec q - p).len ^ 3) (points c a) := by
  obtain ⟨⟨w, -⟩, ⟨x, -⟩, ⟨y, -⟩, z, -⟩ := newton_box _ (around_proper c ha) p
  have h := points_subset c ha
  exact ⟨w.mono_set h, x.mono_set h, y.mono_set h, z.mono_set h⟩

theorem mem_origin {a : ℝ} (ha : 0 < a) (x y z : ℝ) : (x, y, z) ∈ points 0 a ↔ y ^ 2 + z ^ 2 ≤ a ^ 2 - x ^ 2 := by
  show (vec (x, y, z) - 0).len ≤ a ↔ _
  rw [V3.len_le_iff ha.le]
  simp only [V3.dot, vec, sub_zero]
  constructor <;> intro h <;> nlinarith

theorem len_axis (d x y z : ℝ) : (vec (x, y, z) - ⟨d, 0, 0⟩).len = √(y ^ 2 + z ^ 2 + (x - d) ^ 2) := by
  simp only [V3.len, vec, V3.sub_x, V3.sub_y, V3.sub_z, sub_zero]
  congr 1
  ring

open Classical in
/-- An integral over the ball about the origin, slice by slice. -/
theorem integral_ball {a : ℝ} (ha : 0 < a) (ψ : ℝ → ℝ → ℝ) (hi : IntegrableOn (fun q : ℝ × ℝ × ℝ => ψ q.1 (q.2.1 ^ 2 + q.2.2 ^ 2)) (points 0 a)) :
    ∫ q in points 0 a, ψ q.1 (q.2.1 ^ 2 + q.2.2 ^ 2) =
      2 * π * ∫ x in Ioc (-a) a, ∫ r in Ioc 0 (√(a ^ 2 - x ^ 2)), r * ψ x (r ^ 2) := by
  have hm := measurableSet_points 0 a
  rw [← integral_indicator hm, Measure.volume_eq_prod, integral_prod _ (by rwa [← Measure.volume_eq_prod, integrable_indicator_iff hm])]
  have inner : ∀ x : ℝ, (∫ w : ℝ × ℝ, (points 0 a).indicator (fun q : ℝ × ℝ × ℝ => ψ q.1 (q.2.1 ^ 2 + q.2.2 ^ 2)) (x, w)) =
      (Icc (-a) a).indicator (fun x => 2 * π * ∫ r in Ioc 0 (√(a ^ 2 - x ^ 2)), r * ψ x (r ^ 2)) x := by
    intro x
    have e : ∀ w : ℝ × ℝ, (points 0 a).indicator (fun q : ℝ × ℝ × ℝ => ψ q.1 (q.2.1 ^ 2 + q.2.2 ^ 2)) (x, w) =
        (fun s => if s ≤ a ^ 2 - x ^ 2 then ψ x s else 0) (w.1 ^ 2 + w.2 ^ 2) := by
      intro w
      simp only [indicator, mem_origin ha x w.1 w.2]
    simp only [e]
    rw [radial_integral fun s => if s ≤ a ^ 2 - x ^ 2 then ψ x s else 0]
    by_cases hx : x ∈ Icc (-a) a
    · rw [indicator_of_mem hx]
      congr 1
      have hn : 0 ≤ a ^ 2 - x ^ 2 := by nlinarith [hx.1, hx.2]
      have e2 : ∀ r ∈ Ioi (0 : ℝ), r * (if r ^ 2 ≤ a ^ 2 - x ^ 2 then ψ x (r ^ 2) else 0) =
          (Iic (√(a ^ 2 - x ^ 2))).indicator (fun r => r * ψ x (r ^ 2)) r := by
        intro r hr
        have : r ^ 2 ≤ a ^ 2 - x ^ 2 ↔ r ≤ √(a ^ 2 - x ^ 2) := (le_sqrt' hr).symm
        by_cases h : r ≤ √(a ^ 2 - x ^ 2)
        · rw [if_pos (this.2 h), indicator_of_mem (mem_Iic.2 h)]
        · rw [if_neg (fun hc => h (this.1 hc)), indicator_of_notMem (fun hc => h (mem_Iic.1 hc)), mul_zero]
      rw [setIntegral_congr_fun measurableSet_Ioi e2, setIntegral_indicator measurableSet_Iic, Ioi_inter_Iic]
    · rw [indicator_of_notMem hx]
      have hn : a ^ 2 - x ^ 2 < 0 := by
        by_contra hc
        exact hx ⟨(abs_le_of_sq_le_sq' (by linarith : x ^ 2 ≤ a ^ 2) ha.le).1, (abs_le_of_sq_le_sq' (by linarith : x ^ 2 ≤ a ^ 2) ha.le).2⟩
      have e2 : ∀ r ∈ Ioi (0 : ℝ), r * (if r ^ 2 ≤ a ^ 2 - x ^ 2 then ψ x (r ^ 2) else 0) = 0 := by
        intro r _
        rw [if_neg (by nlinarith [sq_nonneg r]), mul_zero]
      rw [setIntegral_congr_fun measurableSet_Ioi e2]
      simp
  simp only [inner]
  rw [integral_indicator measurableSet_Icc, setIntegral_congr_set Ioc_ae_eq_Icc.symm, integral_const_mul]

/-- The potential at a point of the axis. -/
theorem integral_axis {a d : ℝ} (ha : 0 < a) (hd : 0 ≤ d) :
    ∫ q in points 0 a, 1 / (vec q - ⟨d, 0, 0⟩).len =
      2 * π * if d ≤ a then (3 * a ^ 2 - d ^ 2) / 3 else 2 * a ^ 3 / (3 * d) := by
  have hi := (integrable 0 ha ⟨d, 0, 0⟩).1
  have e : ∀ q : ℝ × ℝ × ℝ, 1 / (vec q - ⟨d, 0, 0⟩).len = (fun x s => 1 / √(s + (x - d) ^ 2)) q.1 (q.2.1 ^ 2 + q.2.2 ^ 2) :=
    fun q => by simp only; rw [← len_axis d q.1 q.2.1 q.2.2]
  simp only [e] at hi ⊢
  rw [integral_ball ha (fun x s => 1 / √(s + (x - d) ^ 2)) hi, ← integral_slices ha hd]
  congr 1
  refine setIntegral_congr_fun measurableSet_Ioc fun x hx => ?_
  have hn : 0 ≤ a ^ 2 - x ^ 2 := by nlinarith [hx.1, hx.2]
  rw [integral_disk (x - d) (sqrt_nonneg _), sq_sqrt hn]
  congr 2
  ring

/-- The force at a point of the axis, along it. -/
theorem integral_axis_cube {a d : ℝ} (ha : 0 < a) (hd : 0 ≤ d) :
    ∫ q in points 0 a, (vec q - ⟨d, 0, 0⟩).x / (vec q - ⟨d, 0, 0⟩).len ^ 3 =
      2 * π * if d ≤ a then -(2 * d / 3) else -(2 * a ^ 3 / (3 * d ^ 2)) := by
  have hi := (integrable 0 ha ⟨d, 0, 0⟩).2.1
  have e : ∀ q : ℝ × ℝ × ℝ, (vec q - ⟨d, 0, 0⟩).x / (vec q - ⟨d, 0, 0⟩).len ^ 3 =
      (fun x s => (x - d) / √(s + (x - d) ^ 2) ^ 3) q.1 (q.2.1 ^ 2 + q.2.2 ^ 2) :=
    fun q => by simp only; rw [← len_axis d q.1 q.2.1 q.2.2]; rfl
  simp only [e] at hi ⊢
  rw [integral_ball ha (fun x s => (x - d) / √(s + (x - d) ^ 2) ^ 3) hi, ← integral_slices_cube ha hd]
  congr 1
  refine setIntegral_congr_ae measurableSet_Ioc ?_
  have hne : ∀ᵐ x : ℝ, x ≠ d := by simp [ae_iff]
  filter_upwards [hne] with x hxd hx
  have hn : 0 ≤ a ^ 2 - x ^ 2 := by nlinarith [hx.1, hx.2]
  rw [integral_disk_cube (sub_ne_zero.2 hxd) (sqrt_nonneg _), sq_sqrt hn]
  congr 3
  ring

/-- A rotation that takes the first axis to a given direction. -/
theorem exists_turn (w : V3 ℝ) : ∃ m : M3 ℝ, m.IsRotation ∧ m.mulVec ⟨w.len, 0, 0⟩ = w := by
  by_cases h : w = ⟨w.len, 0, 0⟩
  · exact ⟨M3.one, M3.one_isRotation, by rw [M3.one_mulVec]; exact h.symm⟩
  set u : V3 ℝ := w - ⟨w.len, 0, 0⟩ with hu
  have hne : u ≠ 0 := fun hc => h (by rw [← sub_eq_zero]; exact hc)
  have hl : u.len ≠ 0 := fun hc => hne (V3.len_eq_zero.1 hc)
  obtain ⟨g, hg⟩ := Motion.plane_mirror 0 (u.len⁻¹ • u) (by rw [V3.len_smul, abs_of_nonneg (inv_nonneg.2 (V3.len_nonneg _)), inv_mul_cancel₀ hl])
  have h0 : g.act 0 = 0 := by
    have := hg 0
    simp only [Motion.mirror] at this
    rw [show (0 : V3 ℝ).flip = 0 by ext <;> simp [V3.flip]] at this
    rw [this]
    ext <;> simp [V3.dot]
  refine ⟨g.rot, g.isRot, ?_⟩
  have h1 := hg ⟨w.len, 0, 0⟩
  have h2 : g.mirror ⟨w.len, 0, 0⟩ = g.rot.mulVec ⟨w.len, 0, 0⟩ := by
    have e : (⟨w.len, 0, 0⟩ : V3 ℝ).flip = ⟨w.len, 0, 0⟩ := by simp [V3.flip]
    have h3 := g.act_sub ⟨w.len, 0, 0⟩ 0
    rw [h0, sub_zero, sub_zero] at h3
    rw [Motion.mirror, e, h3]
    rfl
  rw [← h2, h1]
  have hs := V3.len_sq u
  have hw := V3.len_sq w
  have e : 2 * (u.len⁻¹ • u).dot (⟨w.len, 0, 0⟩ - 0) = -u.len := by
    simp only [V3.dot, V3.smul_x, V3.smul_y, V3.smul_z, smul_eq_mul, sub_zero, mul_zero, add_zero]
    field_simp
    simp only [hu, V3.sub_x, V3.sub_y, V3.sub_z] at hs ⊢
    rw [hs]
    linear_combination -hw
  rw [e]
  ext <;> simp only [V3.sub_x, V3.sub_y, V3.sub_z, V3.smul_x, V3.smul_y, V3.smul_z, smul_eq_mul] <;>
    (rw [show ∀ t : ℝ, -u.len * (u.len⁻¹ * t) = -t from fun t => by field_simp]; simp [hu])

theorem points_moved (g : Motion) {c : V3 ℝ} (h0 : g.act 0 = c) (a : ℝ) : g.actP ⁻¹' points c a = points 0 a := by
  ext q
  show (vec (g.actP q) - c).len ≤ a ↔ (vec q - 0).len ≤ a
  rw [Motion.vec_actP, ← h0, g.act_sub, g.turn_len]

theorem integral_points_moved (g : Motion) {c : V3 ℝ} (h0 : g.act 0 = c) (a : ℝ) (F : V3 ℝ → ℝ) :
    ∫ q in points c a, F (vec q) = ∫ q in points 0 a, F (g.act (vec q)) := by
  rw [← points_moved g h0 a]
  exact (g.measurePreserving_actP.setIntegral_preimage_emb (g.continuous_actP.measurableEmbedding g.actP_injective)
    (fun q => F (vec q)) (points c a)).symm

/-- The volume of a ball. -/
theorem integral_one (c : V3 ℝ) {a : ℝ} (ha : 0 < a) : ∫ _ in points c a, (1 : ℝ) = 4 / 3 * π * a ^ 3 := by
  set g : Motion := ⟨M3.one, c, M3.one_isRotation⟩ with hg
  have h0 : g.act 0 = c := by ext <;> simp [hg, Motion.act, M3.one, M3.mulVec, V3.dot]
  rw [integral_points_moved g h0 a fun _ => 1]
  have hi : IntegrableOn (fun q : ℝ × ℝ × ℝ => (fun _ _ => 1 : ℝ → ℝ → ℝ) q.1 (q.2.1 ^ 2 + q.2.2 ^ 2)) (points 0 a) := by
    refine (integrableOn_const (C := (1 : ℝ)) (s := (around 0 a).points) ?_).mono_set (points_subset 0 ha)
    rw [Box.points, Measure.volume_eq_prod, Measure.prod_prod, Measure.volume_eq_prod, Measure.prod_prod]
    simp only [Real.volume_Ioc]
    finiteness
  rw [integral_ball ha (fun _ _ => 1) hi]
  have e : ∀ x ∈ Ioc (-a) a, (∫ r in Ioc 0 (√(a ^ 2 - x ^ 2)), r * 1) = (a ^ 2 - x ^ 2) / 2 := by
    intro x hx
    have hn : 0 ≤ a ^ 2 - x ^ 2 := by nlinarith [hx.1, hx.2]
    rw [← intervalIntegral.integral_of_le (sqrt_nonneg _)]
    simp only [mul_one, integral_id, sq_sqrt hn]
    ring
  rw [setIntegral_congr_fun measurableSet_Ioc e, ← intervalIntegral.integral_of_le (by linarith)]
  rw [intervalIntegral.integral_div, intervalIntegral.integral_sub (Continuous.intervalIntegrable (by fun_prop) _ _) (Continuous.intervalIntegrable (by fun_prop) _ _), integral_pow, intervalIntegral.integral_const]
  simp only [smul_eq_mul]
  ring

/-- Half a turn about the first axis. -/
def halfTurn : Motion := ⟨⟨⟨1, 0, 0⟩, ⟨0, -1, 0⟩, ⟨0, 0, -1⟩⟩, 0, by
  constructor
  · ext <;> simp [M3.mul, M3.transpose, M3.one, M3.mulVec, V3.dot]
  · simp [M3.det, V3.dot, V3.cross]⟩

theorem halfTurn_act (v : V3 ℝ) : halfTurn.act v = ⟨v.x, -v.y, -v.z⟩ := by
  ext <;> simp [halfTurn, Motion.act, M3.mulVec, V3.dot]

/-- There is no force across the axis. -/
theorem integral_across (a d : ℝ) : ∫ q in points 0 a, (vec q - ⟨d, 0, 0⟩).y / (vec q - ⟨d, 0, 0⟩).len ^ 3 = 0 ∧
    ∫ q in points 0 a, (vec q - ⟨d, 0, 0⟩).z / (vec q - ⟨d, 0, 0⟩).len ^ 3 = 0 := by
  have h0 : halfTurn.act 0 = 0 := by rw [halfTurn_act]; ext <;> simp
  have hl : ∀ v : V3 ℝ, (halfTurn.act v - ⟨d, 0, 0⟩).len = (v - ⟨d, 0, 0⟩).len := fun v => by
    rw [halfTurn_act]; simp [V3.len]
  have hy := integral_points_moved halfTurn h0 a fun v => (v - ⟨d, 0, 0⟩).y / (v - ⟨d, 0, 0⟩).len ^ 3
  have hz := integral_points_moved halfTurn h0 a fun v => (v - ⟨d, 0, 0⟩).z / (v - ⟨d, 0, 0⟩).len ^ 3
  simp only [hl] at hy hz
  simp only [halfTurn_act, V3.sub_y, V3.sub_z, sub_zero, neg_div, integral_neg] at hy hz ⊢
  constructor <;> linarith

end Verif.Ball
