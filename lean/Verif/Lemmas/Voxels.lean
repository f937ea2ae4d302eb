import Verif.Props.NewtonBall

/-! # Integrals of Newton's law over sets of small volume (helper lemmas) -/

namespace Verif.Voxels

open Real MeasureTheory Set Prism Ball

theorem setIntegral_le_near {f : ℝ × ℝ × ℝ → ℝ} (hf : ∀ q, 0 ≤ f q) {P E : Set (ℝ × ℝ × ℝ)} (hP : MeasurableSet P) (iP : IntegrableOn f P)
    (iE : IntegrableOn f E) (hE : volume E ≠ ⊤) {c : ℝ} (hc0 : 0 ≤ c) (hc : ∀ q ∉ P, f q ≤ c) :
    ∫ q in E, f q ≤ (∫ q in P, f q) + c * volume.real E := by
  rw [← integral_inter_add_sdiff hP iE]
  refine add_le_add (setIntegral_mono_set iP (Filter.Eventually.of_forall hf) inter_subset_right.eventuallyLE) ?_
  have hfin : volume (E \ P) < ⊤ := (measure_mono sdiff_subset).trans_lt hE.lt_top
  have h := norm_setIntegral_le_of_norm_le_const (μ := volume) (f := f) (C := c) hfin fun q hq => by
    rw [norm_of_nonneg (hf q)]; exact hc q hq.2
  refine (le_abs_self _).trans (h.trans ?_)
  gcongr
  exact sdiff_subset

theorem abs_setIntegral_sub {f : ℝ × ℝ × ℝ → ℝ} {A B : Set (ℝ × ℝ × ℝ)} (hA : MeasurableSet A) (hB : MeasurableSet B) (iA : IntegrableOn f A)
    (iB : IntegrableOn f B) : |(∫ q in A, f q) - ∫ q in B, f q| ≤ ∫ q in symmDiff A B, |f q| := by
  rw [← integral_inter_add_sdiff hB iA, ← integral_inter_add_sdiff hA iB, inter_comm B A, add_sub_add_left_eq_sub]
  have hd : Disjoint (A \ B) (B \ A) := disjoint_sdiff_sdiff
  have h1 : IntegrableOn f (A \ B) := iA.mono_set sdiff_subset
  have h2 : IntegrableOn f (B \ A) := iB.mono_set sdiff_subset
  rw [show symmDiff A B = A \ B ∪ B \ A from rfl, setIntegral_union hd (hB.diff hA) h1.abs h2.abs]
  refine (abs_sub _ _).trans (add_le_add ?_ ?_)
  · exact abs_integral_le_integral_abs
  · exact abs_integral_le_integral_abs

/-- Near the centre of a ball. -/
theorem integral_near (p : V3 ℝ) {a : ℝ} (ha : 0 < a) : ∫ q in points p a, 1 / (vec q - p).len = 2 * π * a ^ 2 := by
  rw [(newton_ball p ha p).1, sub_self, V3.len_eq_zero.2 rfl, if_pos ha.le]
  ring

theorem abs_force_axis {a : ℝ} (ha : 0 < a) : ∫ q in points 0 a, |(vec q).x| / (vec q).len ^ 3 ≤ 4 * π * a := by
  have h0 : ∀ q : ℝ × ℝ × ℝ, vec q - (⟨0, 0, 0⟩ : V3 ℝ) = vec q := fun q => by ext <;> simp
  have hi := (integrable 0 ha ⟨0, 0, 0⟩).2.1.abs
  simp only [h0] at hi
  have e : ∀ q : ℝ × ℝ × ℝ, |(vec q).x| / (vec q).len ^ 3 = (fun x s => |x| / √(s + x ^ 2) ^ 3) q.1 (q.2.1 ^ 2 + q.2.2 ^ 2) := fun q => by
    have := len_axis 0 q.1 q.2.1 q.2.2
    simp only [sub_zero] at this
    simp only
    rw [← this, show vec (q.1, q.2.1, q.2.2) - (⟨0, 0, 0⟩ : V3 ℝ) = vec q from h0 q]
    rfl
  have hi2 : IntegrableOn (fun q : ℝ × ℝ × ℝ => |(vec q).x| / (vec q).len ^ 3) (points 0 a) :=
    hi.congr (Filter.Eventually.of_forall fun q => by
      simp only [abs_div, abs_pow, abs_of_nonneg (V3.len_nonneg (vec q))])
  simp only [e] at hi2 ⊢
  rw [integral_ball ha (fun x s => |x| / √(s + x ^ 2) ^ 3) hi2]
  have hin : ∫ x in Ioc (-a) a, ∫ r in Ioc 0 (√(a ^ 2 - x ^ 2)), r * (|x| / √(r ^ 2 + x ^ 2) ^ 3) = ∫ x in Ioc (-a) a, (1 - |x| / a) := by
    refine setIntegral_congr_ae measurableSet_Ioc ?_
    have hne : ∀ᵐ x : ℝ, x ≠ 0 := by simp [ae_iff]
    filter_upwards [hne] with x hx hxa
    have hn : 0 ≤ a ^ 2 - x ^ 2 := by nlinarith [hxa.1, hxa.2]
    have h := integral_disk_cube (h := |x|) (abs_pos.2 hx).ne' (sqrt_nonneg (a ^ 2 - x ^ 2))
    simp only [sq_abs, abs_abs] at h
    rw [h, sq_sqrt hn, div_self (abs_pos.2 hx).ne', sub_add_cancel, sqrt_sq ha.le]
  rw [hin]
  have hle : ∫ x in Ioc (-a) a, (1 - |x| / a) ≤ ∫ x in Ioc (-a) a, (1 : ℝ) := by
    refine setIntegral_mono (Continuous.integrableOn_Ioc (by fun_prop)) (Continuous.integrableOn_Ioc (by fun_prop)) fun x => ?_
    have : 0 ≤ |x| / a := by positivity
    simp only
    linarith
  have h1 : ∫ x in Ioc (-a) a, (1 : ℝ) = 2 * a := by
    rw [← intervalIntegral.integral_of_le (by linarith), intervalIntegral.integral_const]
    simp only [smul_eq_mul]
    ring
  have := pi_pos
  nlinarith

/-- The rotation of the axes that puts the third first. -/
def turnYZ : M3 ℝ := ⟨⟨0, 0, 1⟩, ⟨1, 0, 0⟩, ⟨0, 1, 0⟩⟩

theorem turnYZ_isRotation : turnYZ.IsRotation := by
  constructor
  · ext <;> simp [turnYZ, M3.mul, M3.transpose, M3.one, M3.mulVec, V3.dot]
  · simp [turnYZ, M3.det, V3.dot, V3.cross]

def turnZY : M3 ℝ := ⟨⟨0, 1, 0⟩, ⟨0, 0, 1⟩, ⟨1, 0, 0⟩⟩

theorem turnZY_isRotation : turnZY.IsRotation := by
  constructor
  · ext <;> simp [turnZY, M3.mul, M3.transpose, M3.one, M3.mulVec, V3.dot]
  · simp [turnZY, M3.det, V3.dot, V3.cross]

theorem abs_force_near (p : V3 ℝ) {a : ℝ} (ha : 0 < a) :
    ∫ q in points p a, |(vec q - p).x| / (vec q - p).len ^ 3 ≤ 4 * π * a ∧
    ∫ q in points p a, |(vec q - p).y| / (vec q - p).len ^ 3 ≤ 4 * π * a ∧
    ∫ q in points p a, |(vec q - p).z| / (vec q - p).len ^ 3 ≤ 4 * π * a := by
  have mv : ∀ (m : M3 ℝ) (hm : m.IsRotation) (F : V3 ℝ → ℝ), ∫ q in points p a, F (vec q - p) = ∫ q in points 0 a, F (m.mulVec (vec q)) := by
    intro m hm F
    rw [integral_points_moved ⟨m, p, hm⟩ (by ext <;> simp [Motion.act, M3.mulVec, V3.dot]) a fun v => F (v - p)]
    simp only [Motion.act, add_sub_cancel_right]
  have ln : ∀ (m : M3 ℝ) (hm : m.IsRotation) (v : V3 ℝ), (m.mulVec v).len = v.len := fun m hm v => (⟨m, 0, hm⟩ : Motion).turn_len v
  refine ⟨?_, ?_, ?_⟩
  · rw [mv M3.one M3.one_isRotation fun v => |v.x| / v.len ^ 3]
    simp only [M3.one_mulVec]
    exact abs_force_axis ha
  · rw [mv _ turnYZ_isRotation fun v => |v.y| / v.len ^ 3]
    simp only [ln _ turnYZ_isRotation]
    refine le_trans (le_of_eq ?_) (abs_force_axis ha)
    simp only [turnYZ, M3.mulVec, V3.dot, one_mul, zero_mul, add_zero]
  · rw [mv _ turnZY_isRotation fun v => |v.z| / v.len ^ 3]
    simp only [ln _ turnZY_isRotation]
    refine le_trans (le_of_eq ?_) (abs_force_axis ha)
    simp only [turnZY, M3.mulVec, V3.dot, one_mul, zero_mul, add_zero]

theorem far_le {p : V3 ℝ} {a : ℝ} (ha : 0 < a) {q : ℝ × ℝ × ℝ} (h : q ∉ points p a) :
    1 / (vec q - p).len ≤ 1 / a ∧ |(vec q - p).x| / (vec q - p).len ^ 3 ≤ 1 / a ^ 2 ∧ |(vec q - p).y| / (vec q - p).len ^ 3 ≤ 1 / a ^ 2 ∧
      |(vec q - p).z| / (vec q - p).len ^ 3 ≤ 1 / a ^ 2 := by
  have hl : a < (vec q - p).len := not_le.1 h
  generalize vec q - p = v at *
  have hv : 0 < v.len := ha.trans hl
  have key : ∀ {t : ℝ}, |t| ≤ v.len → |t| / v.len ^ 3 ≤ 1 / a ^ 2 := fun {t} ht => by
    rw [div_le_div_iff₀ (by positivity) (by positivity), one_mul]
    have : a ^ 2 ≤ v.len ^ 2 := by gcongr
    calc |t| * a ^ 2 ≤ v.len * v.len ^ 2 := by gcongr
      _ = v.len ^ 3 := by ring
  exact ⟨by gcongr, key (FarField.abs_x_le v), key (FarField.abs_y_le v), key (FarField.abs_z_le v)⟩

/-- Newton's law over two sets of nearly the same points. -/
theorem newton_close {A B : Set (ℝ × ℝ × ℝ)} (hA : MeasurableSet A) (hB : MeasurableSet B) (p : V3 ℝ) {a : ℝ} (ha : 0 < a)
    (hf : volume (symmDiff A B) ≠ ⊤)
    (iA : IntegrableOn (fun q => 1 / (vec q - p).len) A ∧ IntegrableOn (fun q => (vec q - p).x / (vec q - p).len ^ 3) A ∧
      IntegrableOn (fun q => (vec q - p).y / (vec q - p).len ^ 3) A ∧ IntegrableOn (fun q => (vec q - p).z / (vec q - p).len ^ 3) A)
    (iB : IntegrableOn (fun q => 1 / (vec q - p).len) B ∧ IntegrableOn (fun q => (vec q - p).x / (vec q - p).len ^ 3) B ∧
      IntegrableOn (fun q => (vec q - p).y / (vec q - p).len ^ 3) B ∧ IntegrableOn (fun q => (vec q - p).z / (vec q - p).len ^ 3) B) :
    |(∫ q in A, 1 / (vec q - p).len) - ∫ q in B, 1 / (vec q - p).len| ≤ 2 * π * a ^ 2 + 1 / a * volume.real (symmDiff A B) ∧
    |(∫ q in A, (vec q - p).x / (vec q - p).len ^ 3) - ∫ q in B, (vec q - p).x / (vec q - p).len ^ 3| ≤
      4 * π * a + 1 / a ^ 2 * volume.real (symmDiff A B) ∧
    |(∫ q in A, (vec q - p).y / (vec q - p).len ^ 3) - ∫ q in B, (vec q - p).y / (vec q - p).len ^ 3| ≤
      4 * π * a + 1 / a ^ 2 * volume.real (symmDiff A B) ∧
    |(∫ q in A, (vec q - p).z / (vec q - p).len ^ 3) - ∫ q in B, (vec q - p).z / (vec q - p).len ^ 3| ≤
      4 * π * a + 1 / a ^ 2 * volume.real (symmDiff A B) := by
  have hP := measurableSet_points p a
  obtain ⟨iP, iPx, iPy, iPz⟩ := integrable p ha p
  obtain ⟨a0, ax, ay, az⟩ := iA
  obtain ⟨b0, bx, by', bz⟩ := iB
  obtain ⟨nx, ny, nz⟩ := abs_force_near p ha
  have un : ∀ {f : ℝ × ℝ × ℝ → ℝ}, IntegrableOn f A → IntegrableOn f B → IntegrableOn f (symmDiff A B) := fun h1 h2 =>
    (h1.mono_set sdiff_subset).union (h2.mono_set sdiff_subset)
  have ab : ∀ q t, |t / (vec q - p).len ^ 3| = |t| / (vec q - p).len ^ 3 := fun q t => by
    rw [abs_div, abs_of_nonneg (pow_nonneg (V3.len_nonneg _) 3)]
  refine ⟨?_, ?_, ?_, ?_⟩
  · refine (abs_setIntegral_sub hA hB a0 b0).trans ?_
    have e : ∀ q : ℝ × ℝ × ℝ, |1 / (vec q - p).len| = 1 / (vec q - p).len := fun q => abs_of_nonneg (div_nonneg zero_le_one (V3.len_nonneg _))
    simp only [e]
    rw [← integral_near p ha]
    exact setIntegral_le_near (fun q => div_nonneg zero_le_one (V3.len_nonneg _)) hP iP (un a0 b0) hf (by positivity) fun q hq => (far_le ha hq).1
  · refine (abs_setIntegral_sub hA hB ax bx).trans ?_
    refine (setIntegral_le_near (fun q => abs_nonneg _) hP iPx.abs (un ax bx).abs hf (c := 1 / a ^ 2) (by positivity) fun q hq => ?_).trans ?_
    · rw [ab]; exact (far_le ha hq).2.1
    · simp only [ab]; linarith
  · refine (abs_setIntegral_sub hA hB ay by').trans ?_
    refine (setIntegral_le_near (fun q => abs_nonneg _) hP iPy.abs (un ay by').abs hf (c := 1 / a ^ 2) (by positivity) fun q hq => ?_).trans ?_
    · rw [ab]; exact (far_le ha hq).2.2.1
    · simp only [ab]; linarith
  · refine (abs_setIntegral_sub hA hB az bz).trans ?_
    refine (setIntegral_le_near (fun q => abs_nonneg _) hP iPz.abs (un az bz).abs hf (c := 1 / a ^ 2) (by positivity) fun q hq => ?_).trans ?_
    · rw [ab]; exact (far_le ha hq).2.2.2
    · simp only [ab]; linarith

end Verif.Voxels
