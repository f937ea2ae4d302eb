import Verif.Props.Reaction
import Verif.Props.Voxels
import Verif.Props.PrismTotals

/-!
# C159: larger bodies attract more, and a ball at its centre most
-/

namespace Verif.Reaction

open Real MeasureTheory Set Prism Gravity

variable {ρ σ : ℝ} {A B : Set (ℝ × ℝ × ℝ)} {U V : V3 ℝ → ℝ} {f g : V3 ℝ → V3 ℝ}

theorem Attracts.around (a : Attracts ρ A U f) (p : V3 ℝ) : ∃ R, 0 < R ∧ A ⊆ Ball.points p R := by
  obtain ⟨R, hR⟩ := a.bounded
  refine ⟨max (R + p.len) 1, lt_max_of_lt_right one_pos, fun q hq => ?_⟩
  show (vec q - p).len ≤ _
  have := V3.len_add_le (vec q) (-p)
  rw [← sub_eq_add_neg, V3.len_neg] at this
  exact le_max_of_le_left (by linarith [hR q hq])

theorem Attracts.integrable (a : Attracts ρ A U f) (p r : V3 ℝ) :
    IntegrableOn (fun q => 1 / (vec q - p).len) A ∧ IntegrableOn (fun q => r.dot (vec q - p) / (vec q - p).len ^ 3) A := by
  obtain ⟨R, hR, h⟩ := a.around p
  exact ⟨(Ball.integrable p hR p).1.mono_set h, (slice_integrable p hR r).mono_set h⟩

/-- A body inside a denser one. -/
theorem Attracts.mono (a : Attracts ρ A U f) (b : Attracts σ B V g) (hAB : A ⊆ B) (h0 : 0 ≤ ρ) (h : ρ ≤ σ) (p : V3 ℝ) :
    U p ≤ V p ∧ ∀ r : V3 ℝ, (∀ q ∈ B, 0 ≤ r.dot (vec q - p)) → r.dot (f p) ≤ r.dot (g p) := by
  have hG : 0 < G := by norm_num [G]
  have key : ∀ k : ℝ × ℝ × ℝ → ℝ, IntegrableOn k B → (∀ q ∈ B, 0 ≤ k q) → G * ρ * ∫ q in A, k q ≤ G * σ * ∫ q in B, k q := by
    intro k hi hk
    have hp := ae_restrict_of_forall_mem (μ := volume) b.measurable hk
    have h1 := setIntegral_mono_set hi hp hAB.eventuallyLE
    have h2 : 0 ≤ ∫ q in B, k q := integral_nonneg_of_ae hp
    calc G * ρ * ∫ q in A, k q ≤ G * ρ * ∫ q in B, k q := mul_le_mul_of_nonneg_left h1 (by positivity)
      _ ≤ _ := mul_le_mul_of_nonneg_right (mul_le_mul_of_nonneg_left h hG.le) h2
  constructor
  · rw [a.potential, b.potential]
    exact key _ (b.integrable p 0).1 fun q _ => div_nonneg zero_le_one (V3.len_nonneg _)
  · intro r hr
    rw [a.field, b.field]
    exact key _ (b.integrable p r).2 fun q hq => div_nonneg (hr q hq) (pow_nonneg (V3.len_nonneg _) 3)

/-- The best place for a given volume is close by. -/
theorem bathtub (hA : MeasurableSet A) (fA : volume A ≠ ⊤) (p : V3 ℝ) {a : ℝ} (ha : 0 < a) (iA : IntegrableOn (fun q => 1 / (vec q - p).len) A) :
    ∫ q in A, 1 / (vec q - p).len ≤ 2 * π * a ^ 2 + (volume.real A - 4 / 3 * π * a ^ 3) / a := by
  have hP := Ball.measurableSet_points p a
  have iP := (Ball.integrable p ha p).1
  have fP := ball_finite p ha
  have e1 := integral_inter_add_sdiff (μ := volume) hP iA
  have e2 := integral_inter_add_sdiff (μ := volume) hA iP
  rw [Voxels.integral_near p ha, inter_comm] at e2
  have v1 : volume.real (A ∩ Ball.points p a) + volume.real (A \ Ball.points p a) = volume.real A := measureReal_inter_add_sdiff hP fA
  have v2 : volume.real (Ball.points p a ∩ A) + volume.real (Ball.points p a \ A) = 4 / 3 * π * a ^ 3 := by
    rw [measureReal_inter_add_sdiff hA fP, Voxels.real_ball p ha]
  rw [inter_comm] at v2
  have f1 : volume (A \ Ball.points p a) ≠ ⊤ := ((measure_mono sdiff_subset).trans_lt fA.lt_top).ne
  have f2 : volume (Ball.points p a \ A) ≠ ⊤ := ((measure_mono sdiff_subset).trans_lt fP.lt_top).ne
  have h1 : ∫ q in A \ Ball.points p a, 1 / (vec q - p).len ≤ volume.real (A \ Ball.points p a) / a := by
    have : ∫ q in A \ Ball.points p a, 1 / (vec q - p).len ≤ ∫ _ in A \ Ball.points p a, 1 / a := by
      refine setIntegral_mono_on (iA.mono_set sdiff_subset) (integrableOn_const f1) (hA.diff hP) fun q hq => ?_
      have : a < (vec q - p).len := not_le.1 hq.2
      exact one_div_le_one_div_of_le ha this.le
    rw [setIntegral_const, smul_eq_mul, mul_one_div] at this
    exact this
  have h2 : volume.real (Ball.points p a \ A) / a ≤ ∫ q in Ball.points p a \ A, 1 / (vec q - p).len := by
    have : ∫ _ in Ball.points p a \ A, 1 / a ≤ ∫ q in Ball.points p a \ A, 1 / (vec q - p).len := by
      have hz : ∀ᵐ q : ℝ × ℝ × ℝ, q ≠ (p.x, p.y, p.z) := by
        simp only [ae_iff, not_not, ofPred_eq_eq_singleton]
        rw [Measure.volume_eq_prod]
        exact measure_singleton _
      refine setIntegral_mono_on_ae (integrableOn_const f2) (iP.mono_set sdiff_subset) (hP.diff hA) ?_
      filter_upwards [hz] with q hq hm
      have hl : (vec q - p).len ≤ a := hm.1
      have h0 : 0 < (vec q - p).len := lt_of_le_of_ne (V3.len_nonneg _) fun e => hq (by
        have := sub_eq_zero.1 (V3.len_eq_zero.1 e.symm)
        rw [← this]
        rfl)
      exact one_div_le_one_div_of_le h0 hl
    rw [setIntegral_const, smul_eq_mul, mul_one_div] at this
    exact this
  have e : (volume.real A - 4 / 3 * π * a ^ 3) / a = volume.real (A \ Ball.points p a) / a - volume.real (Ball.points p a \ A) / a := by
    rw [← v1, ← v2]; ring
  rw [e]
  linarith

/-- No body has a higher potential anywhere than a ball of the same volume and density at its centre. -/
theorem Attracts.most (b : Attracts ρ A U f) (h0 : 0 ≤ ρ) {a : ℝ} (ha : 0 < a) (hv : volume.real A = 4 / 3 * π * a ^ 3) (p : V3 ℝ) :
    U p ≤ 3 / 2 * (G * (ρ * volume.real A) / a) := by
  have hG : 0 < G := by norm_num [G]
  have h := bathtub b.measurable b.finite p ha (b.integrable p 0).1
  rw [hv, sub_self, zero_div, add_zero] at h
  rw [b.potential, hv]
  refine (mul_le_mul_of_nonneg_left h (by positivity)).trans (le_of_eq ?_)
  field_simp
  ring

/-! ### Prisms and balls -/

/-- **C159.** A prism inside another that is at least as dense: the potential is nowhere larger, and seen from a point that has the larger prism on one
side (as a station above it has), neither is the pull to that side. -/
theorem prism_in_prism (b c : GravPrism) (hb : b.box.Proper) (hc : c.box.Proper) (hin : b.box.points ⊆ c.box.points) (h0 : 0 ≤ b.rho) (h : b.rho ≤ c.rho)
    (p : V3 ℝ) :
    b.gravitationalPotential p ≤ c.gravitationalPotential p ∧
    ∀ r : V3 ℝ, (∀ q ∈ c.box.points, 0 ≤ r.dot (vec q - p)) → r.dot (b.gravitationalField p) ≤ r.dot (c.gravitationalField p) :=
  (attracts_prism b hb).mono (attracts_prism c hc) hin h0 h p

/-- **C159.** A prism between two balls. -/
theorem prism_and_balls (b : GravPrism) (s t : Sphere) (hb : b.box.Proper) (hs : 0 < s.radius) (ht : 0 < t.radius)
    (h1 : Ball.points s.location s.radius ⊆ b.box.points) (h2 : b.box.points ⊆ Ball.points t.location t.radius) (h0 : 0 ≤ s.rho) (hsb : s.rho ≤ b.rho)
    (hbt : b.rho ≤ t.rho) (p : V3 ℝ) :
    (s.gravitationalPotential p ≤ b.gravitationalPotential p ∧ b.gravitationalPotential p ≤ t.gravitationalPotential p) ∧
    ∀ r : V3 ℝ, (∀ q ∈ Ball.points t.location t.radius, 0 ≤ r.dot (vec q - p)) →
      r.dot (s.gravitationalField p) ≤ r.dot (b.gravitationalField p) ∧ r.dot (b.gravitationalField p) ≤ r.dot (t.gravitationalField p) := by
  have k1 := (attracts_sphere s hs).mono (attracts_prism b hb) h1 h0 hsb p
  have k2 := (attracts_prism b hb).mono (attracts_sphere t ht) h2 (h0.trans hsb) hbt p
  exact ⟨⟨k1.1, k2.1⟩, fun r hr => ⟨k1.2 r fun q hq => hr q (h2 hq), k2.2 r hr⟩⟩

/-- **C159.** Of all bodies of one mass and density a ball has, at its centre, the highest potential: that of a prism is nowhere higher, inside or
outside. -/
theorem prism_below_ball (b : GravPrism) (s : Sphere) (hb : b.box.Proper) (hs : 0 < s.radius) (h0 : 0 < b.rho) (hd : s.rho = b.rho) (hm : s.mass = b.mass)
    (p : V3 ℝ) : b.gravitationalPotential p ≤ s.gravitationalPotential s.location := by
  have hv : volume.real b.box.points = 4 / 3 * π * s.radius ^ 3 := by
    have h1 : volume.real b.box.points = b.box.volume := (volume_is_measure b.box hb).1
    rw [h1]
    rw [Sphere.mass, GravPrism.mass, hd] at hm
    exact (mul_right_cancel₀ h0.ne' hm).symm
  refine ((attracts_prism b hb).most h0.le hs hv p).trans (le_of_eq ?_)
  rw [hv]
  simp only [Sphere.gravitationalPotential, sub_self, V3.len_eq_zero.2 rfl, hd, gt_iff_lt, not_lt.2 hs.le, if_false]
  field_simp
  ring

/-- Non-vacuity: a cube between two balls, and a ball of the same density and mass as a cube. -/
example : Ball.points 0 (1 / 2) ⊆ (⟨⟨-1, -1, -1⟩, ⟨1, 1, 1⟩⟩ : Box).points ∧ (⟨⟨-1, -1, -1⟩, ⟨1, 1, 1⟩⟩ : Box).points ⊆ Ball.points 0 2 := by
  constructor
  · intro q hq
    have h : (vec q - 0).len ≤ 1 / 2 := hq
    rw [sub_zero] at h
    have hx := abs_le.1 ((FarField.abs_x_le (vec q)).trans h)
    have hy := abs_le.1 ((FarField.abs_y_le (vec q)).trans h)
    have hz := abs_le.1 ((FarField.abs_z_le (vec q)).trans h)
    simp only [vec] at hx hy hz
    refine ⟨⟨?_, ?_⟩, ⟨?_, ?_⟩, ?_, ?_⟩ <;> simp only <;> linarith [hx.1, hx.2, hy.1, hy.2, hz.1, hz.2]
  · rintro q ⟨hx, hy, hz⟩
    show (vec q - 0).len ≤ 2
    simp only [mem_Ioc] at hx hy hz
    rw [sub_zero]
    refine le_of_sq_le_sq ?_ (by norm_num)
    rw [V3.len_sq]
    simp only [vec]
    nlinarith [hx.1, hx.2, hy.1, hy.2, hz.1, hz.2]

example : (⟨1, 3, 0⟩ : Sphere).mass = (⟨⟨0, ⟨4 / 3, 1, π⟩⟩, 3⟩ : GravPrism).mass := by
  simp [Sphere.mass, GravPrism.mass, Box.volume]

end Verif.Reaction
