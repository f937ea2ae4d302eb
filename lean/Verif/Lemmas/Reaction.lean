import Verif.Lemmas.Plate
import Verif.Lemmas.NewtonBall
import Verif.Lemmas.FarField

/-! # Double integrals of Newton's law over two bodies -/

namespace Verif.Reaction

open Real MeasureTheory Set Prism Plate

/-- How much a ball can pull on its centre if all of it is on one side. -/
theorem ball_abs (c : V3 ℝ) {a : ℝ} (ha : 0 < a) (r : V3 ℝ) :
    ∫ q in Ball.points c a, ‖r.dot (vec q - c) / (vec q - c).len ^ 3‖ ≤ r.len * (6 * π * a) := by
  obtain ⟨m, hm, hw⟩ := Ball.exists_turn r
  set g : Motion := ⟨m, c, hm⟩ with hg
  have h0 : g.act 0 = c := by ext <;> simp [hg, Motion.act, M3.mulVec, V3.dot]
  have sub : ∀ v, g.act v - c = g.turn v := fun v => by
    conv_lhs => rw [← h0, g.act_sub, sub_zero]
  have hr : r = g.turn ⟨r.len, 0, 0⟩ := hw.symm
  have e : ∀ v : V3 ℝ, ‖r.dot (g.act v - c) / (g.act v - c).len ^ 3‖ = r.len * ‖v.x / v.len ^ 3‖ := fun v => by
    rw [sub, g.turn_len]
    conv_lhs => rw [hr, g.turn_dot]
    have : (⟨r.len, 0, 0⟩ : V3 ℝ).dot v = r.len * v.x := by simp [V3.dot]
    rw [this, mul_div_assoc, norm_mul, norm_of_nonneg (V3.len_nonneg r)]
  rw [Ball.integral_points_moved g h0 a fun v => ‖r.dot (v - c) / (v - c).len ^ 3‖]
  simp only [e, integral_const_mul]
  refine mul_le_mul_of_nonneg_left ?_ (V3.len_nonneg r)
  obtain ⟨-, ⟨ix, -⟩, -⟩ := newton_box _ (Ball.around_proper 0 ha) 0
  have ep : ∀ q : ℝ × ℝ × ℝ, (q.1 - (0 : V3 ℝ).x) / (vec q - 0).len ^ 3 = pull q.1 q.2 := fun q => by
    simp only [pull, vec, V3.len, V3.zero_x, sub_zero]
    congr 3
    ring
  have ep' : ∀ q : ℝ × ℝ × ℝ, (vec q).x / (vec q).len ^ 3 = pull q.1 q.2 := fun q => by
    rw [← ep q, sub_zero, V3.zero_x, sub_zero]
    rfl
  simp only [ep] at ix
  simp only [ep']
  refine (setIntegral_mono_set ix.norm (Filter.Eventually.of_forall fun _ => norm_nonneg _) (Ball.points_subset 0 ha).eventuallyLE).trans ?_
  rw [Box.points, Measure.volume_eq_prod, setIntegral_prod _ (by rw [← Measure.volume_eq_prod]; exact ix.norm)]
  refine (le_abs_self _).trans ?_
  rw [← norm_eq_abs]
  refine (norm_setIntegral_le_of_norm_le_const measure_Ioc_lt_top (C := 2 * π) fun u _ => ?_).trans ?_
  · rw [norm_of_nonneg (integral_nonneg fun _ => norm_nonneg _)]
    exact (setIntegral_le_integral (pull_integrable u).norm (Filter.Eventually.of_forall fun _ => norm_nonneg _)).trans (pull_norm_total u)
  · rw [Real.volume_real_Ioc_of_le (by simp only [Ball.around]; linarith)]
    simp only [Ball.around]
    exact le_of_eq (by ring)

variable {A B : Set (ℝ × ℝ × ℝ)} {ρ : ℝ}

theorem measurable_kernel (r : V3 ℝ) :
    Measurable fun z : (ℝ × ℝ × ℝ) × (ℝ × ℝ × ℝ) => r.dot (vec z.2 - vec z.1) / (vec z.2 - vec z.1).len ^ 3 := by
  simp only [V3.dot, V3.len, vec, V3.sub_x, V3.sub_y, V3.sub_z]
  fun_prop

theorem slice_integrable (c : V3 ℝ) {a : ℝ} (ha : 0 < a) (r : V3 ℝ) :
    IntegrableOn (fun q => r.dot (vec q - c) / (vec q - c).len ^ 3) (Ball.points c a) := by
  obtain ⟨-, ix, iy, iz⟩ := Ball.integrable c ha c
  refine (((ix.const_mul r.x).add (iy.const_mul r.y)).add (iz.const_mul r.z)).congr (Filter.Eventually.of_forall fun q => ?_)
  simp only [Pi.add_apply, V3.dot]
  ring

/-- The pull of one bounded body on another can be integrated. -/
theorem kernel_integrable (hA : MeasurableSet A) (hρ : 0 < ρ) (fA : volume A ≠ ⊤)
    (hd : ∀ x ∈ A, ∀ q ∈ B, (vec q - vec x).len ≤ ρ) (r : V3 ℝ) :
    Integrable (fun z : (ℝ × ℝ × ℝ) × (ℝ × ℝ × ℝ) => r.dot (vec z.2 - vec z.1) / (vec z.2 - vec z.1).len ^ 3)
      ((volume.restrict A).prod (volume.restrict B)) := by
  have hm := (measurable_kernel r).aestronglyMeasurable (μ := (volume.restrict A).prod (volume.restrict B))
  have hsub : ∀ x ∈ A, B ⊆ Ball.points (vec x) ρ := fun x hx q hq => hd x hx q hq
  rw [integrable_prod_iff hm]
  refine ⟨ae_restrict_of_forall_mem hA fun x hx => (slice_integrable (vec x) hρ r).mono_set (hsub x hx), ?_⟩
  refine (integrableOn_const (C := r.len * (6 * π * ρ)) fA).mono' hm.norm.integral_prod_right' (ae_restrict_of_forall_mem hA fun x hx => ?_)
  rw [norm_of_nonneg (integral_nonneg fun _ => norm_nonneg _)]
  exact (setIntegral_mono_set (slice_integrable (vec x) hρ r).norm (Filter.Eventually.of_forall fun _ => norm_nonneg _)
    (hsub x hx).eventuallyLE).trans (ball_abs (vec x) hρ r)

/-- So can their potential energy. -/
theorem energy_integrable (hA : MeasurableSet A) (hB : MeasurableSet B) (hρ : 0 < ρ) (fA : volume A ≠ ⊤)
    (hd : ∀ x ∈ A, ∀ q ∈ B, (vec q - vec x).len ≤ ρ) :
    Integrable (fun z : (ℝ × ℝ × ℝ) × (ℝ × ℝ × ℝ) => 1 / (vec z.2 - vec z.1).len) ((volume.restrict A).prod (volume.restrict B)) := by
  have i1 := (kernel_integrable hA hρ fA hd ⟨1, 0, 0⟩).norm
  have i2 := (kernel_integrable hA hρ fA hd ⟨0, 1, 0⟩).norm
  have i3 := (kernel_integrable hA hρ fA hd ⟨0, 0, 1⟩).norm
  refine (((i1.add i2).add i3).const_mul ρ).mono' ?_ ?_
  · refine Measurable.aestronglyMeasurable ?_
    simp only [V3.len, vec, V3.sub_x, V3.sub_y, V3.sub_z]
    fun_prop
  · rw [Measure.prod_restrict]
    refine ae_restrict_of_forall_mem (hA.prod hB) fun z hz => ?_
    have hl := hd z.1 hz.1 z.2 hz.2
    simp only [Pi.add_apply, V3.dot, one_mul, zero_mul, add_zero, zero_add]
    generalize vec z.2 - vec z.1 = d at hl
    have h0 := V3.len_nonneg d
    rcases h0.eq_or_lt with h | h
    · rw [← h]
      simp
    · have hx := FarField.abs_x_le d
      have hy := FarField.abs_y_le d
      have hz := FarField.abs_z_le d
      have hs := V3.len_sq d
      rw [norm_of_nonneg (by positivity)]
      simp only [norm_div, norm_eq_abs, abs_of_pos (by positivity : 0 < d.len ^ 3)]
      rw [← add_div, ← add_div, mul_div_assoc', div_le_div_iff₀ h (by positivity), one_mul]
      have k : d.len ^ 2 ≤ ρ * (|d.x| + |d.y| + |d.z|) := by
        have e : d.len ^ 2 = |d.x| * |d.x| + |d.y| * |d.y| + |d.z| * |d.z| := by
          rw [hs, abs_mul_abs_self, abs_mul_abs_self, abs_mul_abs_self]
          try ring
        rw [e]
        have k1 := mul_le_mul_of_nonneg_right (hx.trans hl) (abs_nonneg d.x)
        have k2 := mul_le_mul_of_nonneg_right (hy.trans hl) (abs_nonneg d.y)
        have k3 := mul_le_mul_of_nonneg_right (hz.trans hl) (abs_nonneg d.z)
        linarith
      calc d.len ^ 3 = d.len ^ 2 * d.len := by ring
        _ ≤ _ := mul_le_mul_of_nonneg_right k h.le

/-- The energy does not depend on the order. -/
theorem energy_swap (hA : MeasurableSet A) (hB : MeasurableSet B) (hρ : 0 < ρ) (fA : volume A ≠ ⊤)
    (hd : ∀ x ∈ A, ∀ q ∈ B, (vec q - vec x).len ≤ ρ) :
    ∫ x in A, ∫ q in B, 1 / (vec q - vec x).len = ∫ q in B, ∫ x in A, 1 / (vec x - vec q).len := by
  rw [integral_integral_swap (energy_integrable hA hB hρ fA hd)]
  simp only [fun x q : ℝ × ℝ × ℝ => show (vec q - vec x).len = (vec x - vec q).len by rw [← V3.len_neg, neg_sub]]

/-- The forces are opposite. -/
theorem force_swap (hA : MeasurableSet A) (hρ : 0 < ρ) (fA : volume A ≠ ⊤)
    (hd : ∀ x ∈ A, ∀ q ∈ B, (vec q - vec x).len ≤ ρ) (r : V3 ℝ) :
    ∫ x in A, ∫ q in B, r.dot (vec q - vec x) / (vec q - vec x).len ^ 3 =
      -∫ q in B, ∫ x in A, r.dot (vec x - vec q) / (vec x - vec q).len ^ 3 := by
  rw [integral_integral_swap (kernel_integrable hA hρ fA hd r), ← integral_neg]
  refine integral_congr_ae (Filter.Eventually.of_forall fun q => ?_)
  dsimp only
  rw [← integral_neg]
  refine integral_congr_ae (Filter.Eventually.of_forall fun x => ?_)
  dsimp only
  rw [show (vec x - vec q).len = (vec q - vec x).len by rw [← V3.len_neg, neg_sub], ← neg_div]
  congr 1
  simp only [V3.dot, V3.sub_x, V3.sub_y, V3.sub_z]
  ring

end Verif.Reaction
