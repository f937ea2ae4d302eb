import Verif.Lemmas.FarFault
import Verif.Props.Displacement
import Verif.Props.OkadaAdditive
import Mathlib.MeasureTheory.Integral.IntervalIntegral.Basic

/-! # C125: far from a fault -/

namespace Verif.Elastic

open Real MeasureTheory Set intervalIntegral

/-! ## helper lemmas -/

theorem integral_le {φ : ℝ → ℝ → ℝ} {a1 a2 w1 w2 K : ℝ} (h : ∀ a ∈ uIcc a1 a2, ∀ w ∈ uIcc w1 w2, |φ a w| ≤ K) :
    |∫ w in w1..w2, ∫ a in a1..a2, φ a w| ≤ K * |a2 - a1| * |w2 - w1| := by
  refine norm_integral_le_of_norm_le_const (E := ℝ) fun w hw => ?_
  exact norm_integral_le_of_norm_le_const (E := ℝ) fun a ha => h a (uIoc_subset_uIcc ha) w (uIoc_subset_uIcc hw)

theorem integral_near {φ : ℝ → ℝ → ℝ} {a1 a2 w1 w2 v ε Λ : ℝ} (hL : ∀ a ∈ uIcc a1 a2, ∀ w ∈ uIcc w1 w2, ∀ a' ∈ uIcc a1 a2, ∀ w' ∈ uIcc w1 w2,
      |φ a w - φ a' w'| ≤ Λ * (|a - a'| + |w - w'|)) (h : ∀ a ∈ uIcc a1 a2, ∀ w ∈ uIcc w1 w2, |φ a w - v| ≤ ε) :
    |(∫ w in w1..w2, ∫ a in a1..a2, φ a w) - (a2 - a1) * (w2 - w1) * v| ≤ ε * |a2 - a1| * |w2 - w1| := by
  have lip : ∀ {f : ℝ → ℝ} {x y C : ℝ}, (∀ s ∈ uIcc x y, ∀ t ∈ uIcc x y, |f s - f t| ≤ C * |s - t|) → IntervalIntegrable f volume x y := by
    intro f x y C hf
    refine ContinuousOn.intervalIntegrable ?_
    refine (LipschitzOnWith.of_dist_le_mul (K := C.toNNReal) fun s hs t ht => ?_).continuousOn
    rw [dist_eq_norm, dist_eq_norm, norm_eq_abs, norm_eq_abs, coe_toNNReal']
    exact (hf s hs t ht).trans (by gcongr; exact le_max_left _ _)
  have inner : ∀ w ∈ uIcc w1 w2, IntervalIntegrable (fun a => φ a w) volume a1 a2 := fun w hw =>
    lip (C := Λ) fun s hs t ht => by simpa using hL s hs w hw t ht w hw
  have outer : IntervalIntegrable (fun w => ∫ a in a1..a2, φ a w) volume w1 w2 := by
    refine lip (C := Λ * |a2 - a1|) fun s hs t ht => ?_
    rw [← intervalIntegral.integral_sub (inner s hs) (inner t ht)]
    refine (norm_integral_le_of_norm_le_const (E := ℝ) (C := Λ * |s - t|) fun a ha => ?_).trans (le_of_eq (by ring))
    simpa using hL a (uIoc_subset_uIcc ha) s hs a (uIoc_subset_uIcc ha) t ht
  have e : (∫ w in w1..w2, ∫ a in a1..a2, φ a w) - (a2 - a1) * (w2 - w1) * v = ∫ w in w1..w2, ((∫ a in a1..a2, φ a w) - (a2 - a1) * v) := by
    rw [intervalIntegral.integral_sub outer (by simp)]
    simp only [intervalIntegral.integral_const, smul_eq_mul]
    ring
  rw [e]
  refine norm_integral_le_of_norm_le_const (E := ℝ) fun w hw => ?_
  have hw' := uIoc_subset_uIcc hw
  have e2 : (∫ a in a1..a2, φ a w) - (a2 - a1) * v = ∫ a in a1..a2, (φ a w - v) := by
    rw [intervalIntegral.integral_sub (inner w hw') (by simp)]
    simp
  rw [e2]
  exact norm_integral_le_of_norm_le_const (E := ℝ) fun a ha => h a (uIoc_subset_uIcc ha) w hw'

theorem len_le_of_components {v : V3 ℝ} {k : ℝ} (hx : |v.x| ≤ k) (hy : |v.y| ≤ k) (hz : |v.z| ≤ k) : v.len ≤ √3 * k := by
  have hk : 0 ≤ k := (abs_nonneg _).trans hx
  refine abs_le_of_sq_le_sq' ?_ (by positivity) |>.2
  rw [V3.len_sq, mul_pow, sq_sqrt (by norm_num), ← sq_abs v.x, ← sq_abs v.y, ← sq_abs v.z]
  nlinarith [pow_le_pow_left₀ (abs_nonneg v.x) hx 2, pow_le_pow_left₀ (abs_nonneg v.y) hy 2, pow_le_pow_left₀ (abs_nonneg v.z) hz 2]

theorem numbers {m : ℝ} (hm : 0 ≤ m) : √3 * (6 * (4 + 7 * m) / (4 * π)) ≤ 4 + 6 * m := by
  have h3 : √3 ≤ 1.7321 := by rw [sqrt_le_left (by norm_num)]; norm_num
  have hp := pi_gt_d2
  have hp0 := pi_pos
  rw [mul_div_assoc', div_le_iff₀ (by positivity)]
  nlinarith [mul_nonneg hm (sub_nonneg.2 h3), mul_nonneg hm (sub_nonneg.2 hp.le)]

section
variable {lam mu : ℝ} {b n : V3 ℝ}

theorem dislocation_eq (hmu : mu ≠ 0) (hbn : b.dot n = 0) {p : V3 ℝ} (hz : p.z ≤ 0) (hp : 0 < p.len) :
    dislocation lam mu b n p = ⟨b.dot (traction (stress 0 1 (jacX (mu / (lam + mu)) p)) n) / (4 * π),
      b.dot (traction (stress 0 1 (jacY (mu / (lam + mu)) p)) n) / (4 * π), b.dot (traction (stress 0 1 (jacZ (mu / (lam + mu)) p)) n) / (4 * π)⟩ := by
  have h : 0 < p.len - p.z := by linarith
  rw [dislocation, jac_surfaceForce_x lam mu h, jac_surfaceForce_y lam mu h, jac_surfaceForce_z lam mu h, dot_traction _ _ _ _ _ _ hbn hmu rfl,
    dot_traction _ _ _ _ _ _ hbn hmu rfl, dot_traction _ _ _ _ _ _ hbn hmu rfl]

theorem components_le (hmu : mu ≠ 0) (hbn : b.dot n = 0) {p : V3 ℝ} (hz : p.z ≤ 0) (hp : 0 < p.len) :
    let K := 6 * (4 + 7 * |mu / (lam + mu)|) / (4 * π) * b.len * n.len / p.len ^ 2
    |(dislocation lam mu b n p).x| ≤ K ∧ |(dislocation lam mu b n p).y| ≤ K ∧ |(dislocation lam mu b n p).z| ≤ K := by
  intro K
  obtain ⟨h1, h2, h3⟩ := entries_jac (mu / (lam + mu)) hz hp
  have t : ∀ {J : M3 ℝ}, Entries J ((4 + 7 * |mu / (lam + mu)|) * (p.len ^ 2)⁻¹) → |b.dot (traction (stress 0 1 J) n) / (4 * π)| ≤ K := by
    intro J hJ
    have := work_le hJ b n
    have hp4 : 0 < 4 * π := by positivity
    rw [abs_div, abs_of_pos hp4, div_le_iff₀ hp4]
    refine this.trans (le_of_eq ?_)
    simp only [K]
    field_simp
  rw [dislocation_eq hmu hbn hz hp]
  exact ⟨t h1, t h2, t h3⟩

/-- The rate at which the displacement by an element changes. -/
theorem components_rate (lam mu : ℝ) (hmu : mu ≠ 0) : ∃ L, 0 ≤ L ∧ ∀ b n p p' : V3 ℝ, b.dot n = 0 → Pair p p' →
    let K := L * b.len * n.len * ((p - p').len * (p.len ^ 3)⁻¹)
    |(dislocation lam mu b n p).x - (dislocation lam mu b n p').x| ≤ K ∧ |(dislocation lam mu b n p).y - (dislocation lam mu b n p').y| ≤ K ∧
      |(dislocation lam mu b n p).z - (dislocation lam mu b n p').z| ≤ K := by
  obtain ⟨L, hL, h⟩ := rate_jac (mu / (lam + mu))
  refine ⟨6 * L / (4 * π), by positivity, fun b n p p' hbn hp => ?_⟩
  obtain ⟨h1, h2, h3⟩ := h p p' hp
  have t : ∀ {J J' : M3 ℝ}, Entries (J - J') (L * ((p - p').len * (p.len ^ 3)⁻¹)) →
      |b.dot (traction (stress 0 1 J) n) / (4 * π) - b.dot (traction (stress 0 1 J') n) / (4 * π)| ≤
        6 * L / (4 * π) * b.len * n.len * ((p - p').len * (p.len ^ 3)⁻¹) := by
    intro J J' hJ
    have := work_le hJ b n
    have hp4 : 0 < 4 * π := by positivity
    have e : b.dot (traction (stress 0 1 (J - J')) n) = b.dot (traction (stress 0 1 J) n) - b.dot (traction (stress 0 1 J') n) := by
      simp only [V3.dot, traction, stress, V3.sub_x, V3.sub_y, V3.sub_z]; ring
    rw [← sub_div, ← e, abs_div, abs_of_pos hp4, div_le_iff₀ hp4]
    refine this.trans (le_of_eq ?_)
    have := pi_ne_zero
    field_simp
  rw [dislocation_eq hmu hbn hp.z hp.pos, dislocation_eq hmu hbn hp.z' hp.pos']
  exact ⟨t h1, t h2, t h3⟩

end

/-! ## the displacement of a fault -/

/-- **C125.** The displacement is at most `(4 + 6 mu/(lam + mu))` times slip times area over the square of the distance from the fault. -/
theorem faultDisplacement_le {lam mu : ℝ} (hmu : mu ≠ 0) {b n : V3 ℝ} (hbn : b.dot n = 0) (hn : n.len = 1) {S : ℝ → ℝ → V3 ℝ} {a1 a2 w1 w2 d : ℝ} {o : V3 ℝ}
    (hd : 0 < d) (h : ∀ a ∈ uIcc a1 a2, ∀ w ∈ uIcc w1 w2, (S a w).z ≤ o.z ∧ d ≤ (S a w - o).len) :
    (faultDisplacement lam mu b n S a1 a2 w1 w2 o).len ≤ (4 + 6 * |mu / (lam + mu)|) * b.len * (|a2 - a1| * |w2 - w1|) / d ^ 2 := by
  set m := |mu / (lam + mu)| with hm
  have hm0 : 0 ≤ m := abs_nonneg _
  have hb := V3.len_nonneg b
  set K := 6 * (4 + 7 * m) / (4 * π) * b.len / d ^ 2 with hK
  have key : ∀ a ∈ uIcc a1 a2, ∀ w ∈ uIcc w1 w2, |(dislocation lam mu b n (S a w - o)).x| ≤ K ∧ |(dislocation lam mu b n (S a w - o)).y| ≤ K ∧
      |(dislocation lam mu b n (S a w - o)).z| ≤ K := by
    intro a ha w hw
    obtain ⟨h1, h2⟩ := h a ha w hw
    have hp : 0 < (S a w - o).len := hd.trans_le h2
    have := components_le (lam := lam) hmu hbn (p := S a w - o) (by simpa using h1) hp
    simp only [hn, mul_one] at this
    have hle : 6 * (4 + 7 * |mu / (lam + mu)|) / (4 * π) * b.len / (S a w - o).len ^ 2 ≤ K := by
      rw [← hm, hK]
      gcongr
    exact ⟨this.1.trans hle, this.2.1.trans hle, this.2.2.trans hle⟩
  have hx := integral_le (φ := fun a w => (dislocation lam mu b n (S a w - o)).x) fun a ha w hw => (key a ha w hw).1
  have hy := integral_le (φ := fun a w => (dislocation lam mu b n (S a w - o)).y) fun a ha w hw => (key a ha w hw).2.1
  have hz := integral_le (φ := fun a w => (dislocation lam mu b n (S a w - o)).z) fun a ha w hw => (key a ha w hw).2.2
  refine (len_le_of_components (v := faultDisplacement lam mu b n S a1 a2 w1 w2 o) hx hy hz).trans ?_
  calc √3 * (K * |a2 - a1| * |w2 - w1|) = √3 * (6 * (4 + 7 * m) / (4 * π)) * (b.len * (|a2 - a1| * |w2 - w1|) / d ^ 2) := by rw [hK]; ring
    _ ≤ (4 + 6 * m) * (b.len * (|a2 - a1| * |w2 - w1|) / d ^ 2) := by
      have := numbers hm0
      gcongr
    _ = _ := by ring

/-- **C125.** At distances of more than a few times its size, a fault acts like a point source at its centre with the same slip times area; the error falls
like the cube of the distance. -/
theorem faultDisplacement_far (lam mu : ℝ) (hmu : mu ≠ 0) : ∃ C, 0 ≤ C ∧ ∀ {b n : V3 ℝ} {S : ℝ → ℝ → V3 ℝ} {a1 a2 w1 w2 r : ℝ} {o c : V3 ℝ}, b.dot n = 0 → n.len = 1 →
    (∀ a w a' w', (S a w - S a' w').len ≤ |a - a'| + |w - w'|) → (∀ a ∈ uIcc a1 a2, ∀ w ∈ uIcc w1 w2, (S a w).z ≤ o.z ∧ (S a w - c).len ≤ r) →
    c.z ≤ o.z → 0 < (c - o).len → 3 * r ≤ (c - o).len →
    (faultDisplacement lam mu b n S a1 a2 w1 w2 o - ((a2 - a1) * (w2 - w1)) • dislocation lam mu b n (c - o)).len ≤
      C * b.len * (|a2 - a1| * |w2 - w1|) * r / (c - o).len ^ 3 := by
  obtain ⟨L, hL, hrate⟩ := components_rate lam mu hmu
  refine ⟨√3 * L, by positivity, ?_⟩
  intro b n S a1 a2 w1 w2 r o c hbn hn hS h hc hd hr
  set D := (c - o).len with hD
  have hb := V3.len_nonneg b
  have bounds : ∀ a ∈ uIcc a1 a2, ∀ w ∈ uIcc w1 w2, 2 / 3 * D ≤ (S a w - o).len ∧ (S a w - o).len ≤ 4 / 3 * D := by
    intro a ha w hw
    have := FarField.abs_len_sub_le (S a w - o) (c - o)
    rw [sub_sub_sub_cancel_right] at this
    have h2 := abs_le.1 (this.trans (h a ha w hw).2)
    constructor <;> linarith
  have pair : ∀ a ∈ uIcc a1 a2, ∀ w ∈ uIcc w1 w2, ∀ a' ∈ uIcc a1 a2, ∀ w' ∈ uIcc w1 w2, Pair (S a w - o) (S a' w' - o) := by
    intro a ha w hw a' ha' w' hw'
    obtain ⟨k1, k2⟩ := bounds a ha w hw
    obtain ⟨k3, k4⟩ := bounds a' ha' w' hw'
    exact ⟨by simpa using (h a ha w hw).1, by simpa using (h a' ha' w' hw').1, by linarith, by linarith, by linarith⟩
  have centre : ∀ a ∈ uIcc a1 a2, ∀ w ∈ uIcc w1 w2, Pair (c - o) (S a w - o) := by
    intro a ha w hw
    obtain ⟨k1, k2⟩ := bounds a ha w hw
    exact ⟨by simpa using hc, by simpa using (h a ha w hw).1, hd, by linarith, by linarith⟩
  set Λ := L * b.len * (((2 / 3 * D) ^ 3)⁻¹) with hΛ
  set ε := L * b.len * (r * (D ^ 3)⁻¹) with hε
  have lip : ∀ φ : V3 ℝ → ℝ, (φ = V3.x ∨ φ = V3.y ∨ φ = V3.z) → ∀ a ∈ uIcc a1 a2, ∀ w ∈ uIcc w1 w2, ∀ a' ∈ uIcc a1 a2, ∀ w' ∈ uIcc w1 w2,
      |φ (dislocation lam mu b n (S a w - o)) - φ (dislocation lam mu b n (S a' w' - o))| ≤ Λ * (|a - a'| + |w - w'|) := by
    intro φ hφ a ha w hw a' ha' w' hw'
    have k := hrate b n _ _ hbn (pair a ha w hw a' ha' w' hw')
    have hle : L * b.len * n.len * ((S a w - o - (S a' w' - o)).len * ((S a w - o).len ^ 3)⁻¹) ≤ Λ * (|a - a'| + |w - w'|) := by
      rw [hn, mul_one, sub_sub_sub_cancel_right, hΛ]
      have h1 := (bounds a ha w hw).1
      have h2 := hS a w a' w'
      have h3 := V3.len_nonneg (S a w - S a' w')
      have h4 := V3.len_nonneg (S a w - o)
      calc L * b.len * ((S a w - S a' w').len * ((S a w - o).len ^ 3)⁻¹) ≤ L * b.len * ((|a - a'| + |w - w'|) * (((2 / 3 * D) ^ 3)⁻¹)) := by gcongr
        _ = _ := by ring
    rcases hφ with rfl | rfl | rfl
    · exact k.1.trans hle
    · exact k.2.1.trans hle
    · exact k.2.2.trans hle
  have near : ∀ φ : V3 ℝ → ℝ, (φ = V3.x ∨ φ = V3.y ∨ φ = V3.z) → ∀ a ∈ uIcc a1 a2, ∀ w ∈ uIcc w1 w2,
      |φ (dislocation lam mu b n (S a w - o)) - φ (dislocation lam mu b n (c - o))| ≤ ε := by
    intro φ hφ a ha w hw
    have k := hrate b n _ _ hbn (centre a ha w hw)
    have hle : L * b.len * n.len * ((c - o - (S a w - o)).len * ((c - o).len ^ 3)⁻¹) ≤ ε := by
      rw [hn, mul_one, sub_sub_sub_cancel_right, hε]
      have h1 := (h a ha w hw).2
      rw [← V3.len_neg, neg_sub] at h1
      gcongr
    rw [abs_sub_comm]
    rcases hφ with rfl | rfl | rfl
    · exact k.1.trans hle
    · exact k.2.1.trans hle
    · exact k.2.2.trans hle
  have hx := integral_near (lip V3.x (.inl rfl)) (near V3.x (.inl rfl))
  have hy := integral_near (lip V3.y (.inr (.inl rfl))) (near V3.y (.inr (.inl rfl)))
  have hz := integral_near (lip V3.z (.inr (.inr rfl))) (near V3.z (.inr (.inr rfl)))
  refine (len_le_of_components (v := faultDisplacement lam mu b n S a1 a2 w1 w2 o - ((a2 - a1) * (w2 - w1)) • dislocation lam mu b n (c - o)) hx hy hz).trans (le_of_eq ?_)
  rw [hε]
  ring

end Verif.Elastic

namespace Verif.Okada

open Real Elastic Set

/-- The size of the slip. -/
noncomputable def Fault.slipSize (f : Fault) : ℝ := √(f.disl1 ^ 2 + f.disl2 ^ 2)

/-- The area of the fault. -/
noncomputable def Fault.area (f : Fault) : ℝ := |f.al2 - f.al1| * |f.aw2 - f.aw1|

/-- Half the diagonal of the fault. -/
noncomputable def Fault.radius (f : Fault) : ℝ := √((f.al2 - f.al1) ^ 2 + (f.aw2 - f.aw1) ^ 2) / 2

/-- The point of the fault at the distance `a` along the strike and `w` along the dip. -/
noncomputable def Fault.point (f : Fault) (a w : ℝ) : V3 ℝ := ⟨a, w * (dipConstants f.dip).2, w * (dipConstants f.dip).1⟩

/-- The centre of the fault. -/
noncomputable def Fault.centre (f : Fault) : V3 ℝ := f.point ((f.al1 + f.al2) / 2) ((f.aw1 + f.aw2) / 2)

/-- The displacement by a point source at the centre of the fault with the same slip times area. -/
noncomputable def Fault.pointSource (f : Fault) (lam mu : ℝ) (p : Station) : V3 ℝ :=
  ((f.al2 - f.al1) * (f.aw2 - f.aw1)) • dislocation lam mu ⟨f.disl1, f.disl2 * (dipConstants f.dip).2, f.disl2 * (dipConstants f.dip).1⟩
    ⟨0, -(dipConstants f.dip).1, (dipConstants f.dip).2⟩ (f.centre - ⟨p.X, p.Y, 0⟩)

section
variable {f : Fault}

theorem normal_len : (⟨0, -(dipConstants f.dip).1, (dipConstants f.dip).2⟩ : V3 ℝ).len = 1 := by
  have h := dipConstants_sq f.dip
  rw [V3.len]
  simp only [zero_pow two_ne_zero, zero_add, neg_sq]
  rw [h, sqrt_one]

theorem slipSize_eq : (⟨f.disl1, f.disl2 * (dipConstants f.dip).2, f.disl2 * (dipConstants f.dip).1⟩ : V3 ℝ).len = f.slipSize := by
  have h := dipConstants_sq f.dip
  rw [V3.len, Fault.slipSize]
  congr 1
  simp only
  linear_combination f.disl2 ^ 2 * h

theorem slip_in_plane : (⟨f.disl1, f.disl2 * (dipConstants f.dip).2, f.disl2 * (dipConstants f.dip).1⟩ : V3 ℝ).dot
    ⟨0, -(dipConstants f.dip).1, (dipConstants f.dip).2⟩ = 0 := by
  simp only [V3.dot]; ring

theorem point_below (hb : Buried f) {w : ℝ} (hw : w ∈ uIcc f.aw1 f.aw2) : w * (dipConstants f.dip).1 ≤ 0 := by
  obtain ⟨h1, h2⟩ := hb
  rw [mem_uIcc] at hw
  rcases le_total 0 (dipConstants f.dip).1 with h | h <;> rcases hw with t | t <;> nlinarith [t.1, t.2]

theorem point_sub (a w a' w' : ℝ) : (f.point a w - f.point a' w').len = √((a - a') ^ 2 + (w - w') ^ 2) := by
  have h := dipConstants_sq f.dip
  rw [V3.len]
  congr 1
  simp only [Fault.point, V3.sub_x, V3.sub_y, V3.sub_z]
  linear_combination (w - w') ^ 2 * h

theorem sqrt_le_add (a b : ℝ) : √(a ^ 2 + b ^ 2) ≤ |a| + |b| := by
  refine (sqrt_le_left (by positivity)).2 ?_
  rw [← sq_abs a, ← sq_abs b]
  nlinarith [abs_nonneg a, abs_nonneg b, mul_nonneg (abs_nonneg a) (abs_nonneg b)]

theorem half_sq {x y a : ℝ} (h : a ∈ uIcc x y) : (a - (x + y) / 2) ^ 2 ≤ ((y - x) / 2) ^ 2 := by
  rw [mem_uIcc] at h
  rcases h with t | t <;> nlinarith [t.1, t.2]

theorem point_near {a w : ℝ} (ha : a ∈ uIcc f.al1 f.al2) (hw : w ∈ uIcc f.aw1 f.aw2) : (f.point a w - f.centre).len ≤ f.radius := by
  rw [Fault.centre, point_sub, Fault.radius]
  refine (sqrt_le_left (by positivity)).2 ?_
  rw [div_pow, sq_sqrt (by positivity)]
  nlinarith [half_sq ha, half_sq hw]

theorem area_nonneg : 0 ≤ f.area := by unfold Fault.area; positivity

end

/-- **C125.** The computed displacement at a station is at most `4 + 6 mu/(lam + mu)` times the slip times the area of the fault over the square of its
distance from the fault. -/
theorem displacement_bounded {f : Fault} {st : List Station} {lam mu : ℝ} (hmu : mu ≠ 0) (hl2 : lam + 2 * mu ≠ 0)
    (halpha : f.alpha = (lam + mu) / (lam + 2 * mu)) (hst : st.length = 1 ∨ st.length = 3) (hslip : f.disl1 ≠ 0 ∨ f.disl2 ≠ 0)
    (hres : Resolved f st) (hb : Buried f) :
    ∃ u : Station → V3 ℝ, dc3d3 f st = .ok (asColumns ((columnStations st).map u)) ∧
      ∀ p (d : ℝ), 0 < d → (∀ a ∈ uIcc f.al1 f.al2, ∀ w ∈ uIcc f.aw1 f.aw2, d ≤ (f.point a w - ⟨p.X, p.Y, 0⟩).len) →
        (u p).len ≤ (4 + 6 * |mu / (lam + mu)|) * f.slipSize * f.area / d ^ 2 := by
  refine ⟨volterra f lam mu, displacement_is_volterra hmu hl2 halpha hst hslip hres hb, fun p d hd h => ?_⟩
  have := faultDisplacement_le (lam := lam) hmu (slip_in_plane (f := f)) normal_len (S := f.point) (o := ⟨p.X, p.Y, 0⟩) hd
    fun a ha w hw => ⟨point_below hb hw, h a ha w hw⟩
  rw [slipSize_eq] at this
  exact this

/-- **C125.** From three times the half diagonal on, the computed displacement differs from that of a point source at the centre by at most a constant of
the material times slip, area and half diagonal over the cube of the distance. -/
theorem displacement_far (lam mu : ℝ) (hmu : mu ≠ 0) (hl2 : lam + 2 * mu ≠ 0) : ∃ C, 0 ≤ C ∧ ∀ {f : Fault} {st : List Station},
    f.alpha = (lam + mu) / (lam + 2 * mu) → st.length = 1 ∨ st.length = 3 → f.disl1 ≠ 0 ∨ f.disl2 ≠ 0 → Resolved f st → Buried f →
    ∃ u : Station → V3 ℝ, dc3d3 f st = .ok (asColumns ((columnStations st).map u)) ∧
      ∀ p, let d := (f.centre - ⟨p.X, p.Y, 0⟩).len
        0 < d → 3 * f.radius ≤ d → (u p - f.pointSource lam mu p).len ≤ C * f.slipSize * f.area * f.radius / d ^ 3 := by
  obtain ⟨C, hC, h⟩ := faultDisplacement_far lam mu hmu
  refine ⟨C, hC, ?_⟩
  intro f st halpha hst hslip hres hb
  refine ⟨volterra f lam mu, displacement_is_volterra hmu hl2 halpha hst hslip hres hb, ?_⟩
  intro p d hd hr
  have := h (b := ⟨f.disl1, f.disl2 * (dipConstants f.dip).2, f.disl2 * (dipConstants f.dip).1⟩) (n := ⟨0, -(dipConstants f.dip).1, (dipConstants f.dip).2⟩)
    (S := f.point) (a1 := f.al1) (a2 := f.al2) (w1 := f.aw1) (w2 := f.aw2) (r := f.radius) (o := ⟨p.X, p.Y, 0⟩) (c := f.centre) slip_in_plane normal_len
    (fun a w a' w' => by rw [point_sub]; exact sqrt_le_add _ _) (fun a ha w hw => ⟨point_below hb hw, point_near ha hw⟩)
    (by
      have := point_below hb (w := (f.aw1 + f.aw2) / 2) (by
        rw [mem_uIcc]
        rcases le_total f.aw1 f.aw2 with h | h
        · left; constructor <;> linarith
        · right; constructor <;> linarith)
      simpa [Fault.centre, Fault.point] using this) hd hr
  rw [slipSize_eq] at this
  exact this

theorem sample_resolved_far : Resolved sampleFault [⟨20, 20⟩] := by
  refine ⟨20, by norm_num, ?_⟩
  have h : dipConstants sampleFault.dip = (-1, 0) := dipConstants_vertical
  simp only [OnTrace, h]
  simp only [List.mem_cons, List.not_mem_nil, or_false, forall_eq_or_imp, forall_eq, sampleFault, eps]
  norm_num [abs_of_pos, abs_of_neg]

example : ∃ C, 0 ≤ C ∧ ∃ u : Station → V3 ℝ, dc3d3 sampleFault [⟨20, 20⟩] = .ok (asColumns ((columnStations [⟨20, 20⟩]).map u)) ∧
    (u ⟨20, 20⟩ - sampleFault.pointSource 1 1 ⟨20, 20⟩).len ≤
      C * sampleFault.slipSize * sampleFault.area * sampleFault.radius / (sampleFault.centre - ⟨20, 20, 0⟩).len ^ 3 := by
  obtain ⟨C, hC, h⟩ := displacement_far 1 1 (by norm_num) (by norm_num)
  obtain ⟨u, hu, k⟩ := h (f := sampleFault) (st := [⟨20, 20⟩]) (by simp [sampleFault]; norm_num) (.inl rfl) (.inl (by simp [sampleFault]))
    sample_resolved_far sample_buried
  have hlen : 15 ≤ (sampleFault.centre - ⟨20, 20, 0⟩).len := by
    refine le_trans ?_ (FarField.abs_x_le _)
    simp only [Fault.centre, Fault.point, V3.sub_x, sampleFault]
    norm_num [abs_of_neg]
  have hr : sampleFault.radius ≤ 3 / 2 := by
    have : √((1 - 0) ^ 2 + (3 - 1) ^ 2 : ℝ) ≤ 3 := (sqrt_le_left (by norm_num)).2 (by norm_num)
    simp only [Fault.radius, sampleFault]
    exact (div_le_div_iff_of_pos_right two_pos).2 this
  exact ⟨C, hC, u, hu, k ⟨20, 20⟩ (by linarith) (by linarith)⟩

end Verif.Okada
