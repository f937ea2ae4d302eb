import Verif.Lemmas.OkadaJump
import Verif.Props.Okada
import Verif.Spec.StaticLimit

/-!
# C118: where a fault reaches the surface, the two sides of its trace are displaced against each other by the slip

`volterra` is the displacement that the code returns (`displacement_is_volterra`, C91).
-/

namespace Verif.Okada

open Real Filter Topology

/-- The slip of the side above the fault, in the axes of the surface. -/
noncomputable def Fault.slip (f : Fault) : V3 ℝ := ⟨f.disl1, f.disl2 * (dipConstants f.dip).2, f.disl2 * (dipConstants f.dip).1⟩

/-- The displacement on the side of positive `Y` less that on the side of negative `Y`. -/
noncomputable def across (f : Fault) (lam mu X Y : ℝ) : V3 ℝ := volterra f lam mu ⟨X, Y⟩ - volterra f lam mu ⟨X, -Y⟩

/-- The jump of one corner term: none for a corner on the surface. -/
noncomputable def cornerJump (x w : ℝ) : ℝ := if w = 0 then 0 else if 0 < x then 1 / 2 else -1 / 2

theorem corner_jump (v : V3 ℝ) {x w s c m b1 b2 : ℝ} (hx : x ≠ 0) (hs : s ≠ 0) (hw : w * s ≤ 0) (hsc : s ^ 2 + c ^ 2 = 1) :
    Tendsto (fun Y : ℝ => v.dot ((⟨x, Y * c - w, Y * s⟩ : Corner).field s c m b1 b2) -
      v.dot ((⟨x, -Y * c - w, -Y * s⟩ : Corner).field s c m b1 b2)) (𝓝[>] 0)
      (𝓝 (-cornerJump x w * v.dot ⟨b1, b2 * c, b2 * s⟩)) := by
  by_cases h0 : w = 0
  · subst h0
    have h := Corner.top_jump (m := m) (b1 := b1) (b2 := b2) v hx hs hsc
    rw [cornerJump, if_pos rfl]
    simpa using h
  · have hw' : w * s < 0 := lt_of_le_of_ne hw (mul_ne_zero h0 hs)
    have h := Corner.deep_jump (m := m) (b1 := b1) (b2 := b2) v hx hw' hsc
    have hpi := pi_ne_zero
    rw [cornerJump, if_neg h0]
    convert h using 2
    simp only [Corner.turned, V3.dot]
    split_ifs <;> field_simp <;> ring

/-- The jump of the displacement across the trace line, from the four corners. -/
theorem across_limit (f : Fault) {lam mu X : ℝ} (hmu : mu ≠ 0) (hs : (dipConstants f.dip).1 ≠ 0) (hb : Buried f) (h1 : X ≠ f.al1)
    (h2 : X ≠ f.al2) :
    V3.Tends (across f lam mu X) (𝓝[>] 0)
      ((cornerJump (X - f.al2) f.aw1 - cornerJump (X - f.al1) f.aw1 + cornerJump (X - f.al1) f.aw2 - cornerJump (X - f.al2) f.aw2) • f.slip) := by
  have hsc := dipConstants_sq f.dip
  have key : ∀ v : V3 ℝ, Tendsto (fun Y => v.dot (across f lam mu X Y)) (𝓝[>] 0)
      (𝓝 ((cornerJump (X - f.al2) f.aw1 - cornerJump (X - f.al1) f.aw1 + cornerJump (X - f.al1) f.aw2 - cornerJump (X - f.al2) f.aw2) *
        v.dot f.slip)) := by
    intro v
    have x1 := sub_ne_zero.2 h1
    have x2 := sub_ne_zero.2 h2
    have t11 := corner_jump (m := mu / (lam + mu)) (b1 := f.disl1) (b2 := f.disl2) v x1 hs hb.1 hsc
    have t21 := corner_jump (m := mu / (lam + mu)) (b1 := f.disl1) (b2 := f.disl2) v x2 hs hb.1 hsc
    have t12 := corner_jump (m := mu / (lam + mu)) (b1 := f.disl1) (b2 := f.disl2) v x1 hs hb.2 hsc
    have t22 := corner_jump (m := mu / (lam + mu)) (b1 := f.disl1) (b2 := f.disl2) v x2 hs hb.2 hsc
    have t := ((t11.sub t21).sub t12).add t22
    convert t.congr' ?_ using 2
    · rw [Fault.slip]; ring
    · filter_upwards [self_mem_nhdsWithin] with Y hY
      have hY : 0 < Y := hY
      have p := Corner.four_corners (lam := lam) (b1 := f.disl1) (b2 := f.disl2) (a1 := f.al1) (a2 := f.al2) (X := X) hsc hmu
        (.inl hY.ne') hs hb.1 hb.2
      have n := Corner.four_corners (lam := lam) (b1 := f.disl1) (b2 := f.disl2) (a1 := f.al1) (a2 := f.al2) (X := X) hsc hmu
        (.inl (neg_ne_zero.2 hY.ne')) hs hb.1 hb.2
      simp only [across, volterra]
      rw [← p, ← n]
      simp only [V3.dot, V3.sub_x, V3.sub_y, V3.sub_z, V3.add_x, V3.add_y, V3.add_z]
      ring
  refine ⟨?_, ?_, ?_⟩
  · simpa [V3.dot] using key ⟨1, 0, 0⟩
  · simpa [V3.dot] using key ⟨0, 1, 0⟩
  · simpa [V3.dot] using key ⟨0, 0, 1⟩

/-- **C118.** A fault given by negative distances reaches the surface with its upper edge `aw2`: it dips below the side of negative `Y`,
and that side is displaced against the other by the slip. -/
theorem jump_is_slip (f : Fault) {lam mu X : ℝ} (hmu : mu ≠ 0) (hs : 0 < (dipConstants f.dip).1) (hw1 : f.aw1 < 0) (hw2 : f.aw2 = 0)
    (hX : f.al1 < X ∧ X < f.al2) : V3.Tends (fun Y => volterra f lam mu ⟨X, -Y⟩ - volterra f lam mu ⟨X, Y⟩) (𝓝[>] 0) f.slip := by
  have h := across_limit f (lam := lam) hmu hs.ne' ⟨by nlinarith, by simp [hw2]⟩ hX.1.ne' hX.2.ne
  have e1 : cornerJump (X - f.al2) f.aw1 = -1 / 2 := by rw [cornerJump, if_neg hw1.ne, if_neg (by linarith [hX.2])]
  have e2 : cornerJump (X - f.al1) f.aw1 = 1 / 2 := by rw [cornerJump, if_neg hw1.ne, if_pos (by linarith [hX.1])]
  have e3 : ∀ x, cornerJump x f.aw2 = 0 := fun x => by rw [cornerJump, if_pos hw2]
  rw [e1, e2, e3, e3] at h
  obtain ⟨a, b, c⟩ := h
  have e : ∀ t : ℝ, -((-1 / 2 - 1 / 2 + 0 - 0 : ℝ) * t) = t := fun t => by ring
  refine ⟨?_, ?_, ?_⟩
  · have := a.neg
    rw [V3.smul_x, smul_eq_mul, e] at this
    exact this.congr fun Y => by simp only [across, V3.sub_x]; ring
  · have := b.neg
    rw [V3.smul_y, smul_eq_mul, e] at this
    exact this.congr fun Y => by simp only [across, V3.sub_y]; ring
  · have := c.neg
    rw [V3.smul_z, smul_eq_mul, e] at this
    exact this.congr fun Y => by simp only [across, V3.sub_z]; ring

/-- The same for a fault given by positive distances, which dips below the side of positive `Y` if it is not overturned. -/
theorem jump_is_slip' (f : Fault) {lam mu X : ℝ} (hmu : mu ≠ 0) (hs : (dipConstants f.dip).1 < 0) (hw1 : f.aw1 = 0) (hw2 : 0 < f.aw2)
    (hX : f.al1 < X ∧ X < f.al2) : V3.Tends (fun Y => volterra f lam mu ⟨X, Y⟩ - volterra f lam mu ⟨X, -Y⟩) (𝓝[>] 0) f.slip := by
  have h := across_limit f (lam := lam) hmu hs.ne ⟨by simp [hw1], by nlinarith⟩ hX.1.ne' hX.2.ne
  have e1 : cornerJump (X - f.al2) f.aw2 = -1 / 2 := by rw [cornerJump, if_neg hw2.ne', if_neg (by linarith [hX.2])]
  have e2 : cornerJump (X - f.al1) f.aw2 = 1 / 2 := by rw [cornerJump, if_neg hw2.ne', if_pos (by linarith [hX.1])]
  have e3 : ∀ x, cornerJump x f.aw1 = 0 := fun x => by rw [cornerJump, if_pos hw1]
  rw [e1, e2, e3, e3, show (0 - 0 + 1 / 2 - -1 / 2 : ℝ) = 1 by norm_num] at h
  obtain ⟨a, b, c⟩ := h
  refine ⟨?_, ?_, ?_⟩
  · rwa [V3.smul_x, one_smul] at a
  · rwa [V3.smul_y, one_smul] at b
  · rwa [V3.smul_z, one_smul] at c

/-- Beyond the ends of the fault the surface is not torn. -/
theorem no_jump_beyond (f : Fault) {lam mu X : ℝ} (hmu : mu ≠ 0) (hs : (dipConstants f.dip).1 ≠ 0) (hb : Buried f)
    (hX : X < f.al1 ∧ X < f.al2 ∨ f.al1 < X ∧ f.al2 < X) :
    V3.Tends (fun Y => volterra f lam mu ⟨X, Y⟩ - volterra f lam mu ⟨X, -Y⟩) (𝓝[>] 0) 0 := by
  have h := across_limit f (lam := lam) hmu hs hb (by rcases hX with h | h <;> [exact h.1.ne; exact h.1.ne'])
    (by rcases hX with h | h <;> [exact h.2.ne; exact h.2.ne'])
  have e : ∀ w, cornerJump (X - f.al1) w = cornerJump (X - f.al2) w := fun w => by
    rcases hX with ⟨h1, h2⟩ | ⟨h1, h2⟩
    · rw [cornerJump, cornerJump, if_neg (by linarith : ¬ 0 < X - f.al1), if_neg (by linarith : ¬ 0 < X - f.al2)]
    · rw [cornerJump, cornerJump, if_pos (by linarith : 0 < X - f.al1), if_pos (by linarith : 0 < X - f.al2)]
  rw [e, e, show (cornerJump (X - f.al2) f.aw1 - cornerJump (X - f.al2) f.aw1 + cornerJump (X - f.al2) f.aw2 -
    cornerJump (X - f.al2) f.aw2) = 0 by ring, zero_smul] at h
  exact h

/-- Nor is it torn above a fault that stays below it. -/
theorem no_jump_above (f : Fault) {lam mu X : ℝ} (hmu : mu ≠ 0) (hw1 : f.aw1 * (dipConstants f.dip).1 < 0)
    (hw2 : f.aw2 * (dipConstants f.dip).1 < 0) (h1 : X ≠ f.al1) (h2 : X ≠ f.al2) :
    V3.Tends (fun Y => volterra f lam mu ⟨X, Y⟩ - volterra f lam mu ⟨X, -Y⟩) (𝓝[>] 0) 0 := by
  have h := across_limit f (lam := lam) hmu (right_ne_zero_of_mul hw1.ne) ⟨hw1.le, hw2.le⟩ h1 h2
  have e : ∀ x, cornerJump x f.aw1 = cornerJump x f.aw2 := fun x => by
    rw [cornerJump, cornerJump, if_neg (left_ne_zero_of_mul hw1.ne), if_neg (left_ne_zero_of_mul hw2.ne)]
  rw [e, e, show (cornerJump (X - f.al2) f.aw2 - cornerJump (X - f.al1) f.aw2 + cornerJump (X - f.al1) f.aw2 -
    cornerJump (X - f.al2) f.aw2) = 0 by ring, zero_smul] at h
  exact h

/-! ## On the trace the program raises -/

theorem snap_small {m v : ℝ} (h : |v| < eps) : snap m v = 0 := by rw [snap, if_pos (.inr h)]

/-- A turn at an edge that reaches the surface, with a station on the trace. -/
theorem turn_raises_on_trace {f : Fault} {st : List Station} {p : Station} {η κ : Station → ℝ} {j : ℕ} (hp : p ∈ st)
    (hX : (p.X - f.al1) * (p.X - f.al2) ≤ 0) (hη : |η p| < eps) (hκ : |κ p| < eps) (s c : ℝ) (k : ℕ) (u : Arr) :
    ∃ e, turn f s c st j k (st.map η) (st.map κ) u = .error e := by
  rw [turn]
  simp only [turn_zip_length]
  generalize (if j = 1 then f.al1 else f.al2) = al at *
  have hmem0 : (⟨p.X - al, η p, κ p⟩ : Corner) ∈ st.map fun p => (⟨p.X - al, η p, κ p⟩ : Corner) := List.mem_map.2 ⟨p, hp, rfl⟩
  have hzip : ∀ g : Station → Corner, (p, g p) ∈ List.zip st (st.map g) := by
    intro g
    clear hmem0
    induction st with
    | nil => simp at hp
    | cons a l ih =>
      rcases List.mem_cons.1 hp with rfl | h
      · simp
      · exact List.mem_cons_of_mem _ (ih h)
  rw [if_neg (List.ne_nil_of_mem hmem0)]
  generalize dcMax (st.map fun p => (⟨p.X - al, η p, κ p⟩ : Corner)) = m
  rw [List.map_map]
  have hz := hzip ((fun k : Corner => (⟨snap m k.xi, snap m k.et, snap m k.q⟩ : Corner)) ∘ fun p => (⟨p.X - al, η p, κ p⟩ : Corner))
  simp only [Function.comp, snap_small hη, snap_small hκ] at hz
  simp only [Function.comp_def]
  by_cases c1 : ∃ k ∈ st.map fun x => (⟨snap m (x.X - al), snap m (η x), snap m (κ x)⟩ : Corner), k.r = 0
  · rw [if_pos c1]; exact ⟨_, rfl⟩
  rw [if_neg c1]
  by_cases c2 : ∃ k ∈ st.map fun x => (⟨snap m (x.X - al), snap m (η x), snap m (κ x)⟩ : Corner), k.ret < tiny
  · rw [if_pos c2]; exact ⟨_, rfl⟩
  rw [if_neg c2, if_pos ⟨_, hz, .inl ⟨rfl, .inl ⟨hX, rfl⟩⟩⟩]
  exact ⟨_, rfl⟩

/-- A station within a millionth of the trace of a fault that reaches the surface makes the run fail. -/
theorem on_trace_raises {f : Fault} {st : List Station} {p : Station} (hp : p ∈ st) (hX : (p.X - f.al1) * (p.X - f.al2) ≤ 0)
    (hY : |p.Y| < eps) (haw : f.aw1 = 0 ∨ f.aw2 = 0) : ∃ e, dc3d3 f st = .error e := by
  have hsc := dipConstants_sq f.dip
  rw [dc3d3]
  simp only
  generalize (dipConstants f.dip).1 = s at *
  generalize (dipConstants f.dip).2 = c at *
  have hs : |s| ≤ 1 := (sq_le_one_iff_abs_le_one s).1 (by nlinarith [sq_nonneg c])
  have hc : |c| ≤ 1 := (sq_le_one_iff_abs_le_one c).1 (by nlinarith [sq_nonneg s])
  have hκ : |p.Y * s| < eps := by
    rw [abs_mul]; nlinarith [abs_nonneg p.Y, abs_nonneg s]
  have hη : |p.Y * c - 0| < eps := by
    rw [sub_zero, abs_mul]; nlinarith [abs_nonneg p.Y, abs_nonneg c]
  have hsn : ∀ {m v : ℝ}, |v| < eps → |snap m v| < eps := fun h => by rw [snap_small h, abs_zero]; exact eps_pos
  rcases haw with haw | haw
  · obtain ⟨e, he⟩ := turn_raises_on_trace (η := fun p => p.Y * c - f.aw1) (κ := fun p => p.Y * s) (j := 1) hp hX (by simpa only [haw] using hη) hκ
      s c 1 (.vector 0)
    exact ⟨e, by simp only [he, Bind.bind, Except.bind]⟩
  · cases h1 : turn f s c st 1 1 (st.map fun p => p.Y * c - f.aw1) (st.map fun p => p.Y * s) (.vector 0) with
    | error e => exact ⟨e, rfl⟩
    | ok r =>
      obtain ⟨m, e1, e2⟩ := turn_leaves (η := fun p => p.Y * c - f.aw1) (κ := fun p => p.Y * s) h1
      obtain ⟨et, q, u⟩ := r
      simp only at e1 e2
      subst e1 e2
      simp only [Bind.bind, Except.bind]
      cases h2 : turn f s c st 2 1 (st.map fun p => snap m (p.Y * c - f.aw1)) (st.map fun p => snap m (p.Y * s)) u with
      | error e => exact ⟨e, rfl⟩
      | ok r =>
        obtain ⟨m', e1, e2⟩ := turn_leaves (η := fun p => snap m (p.Y * c - f.aw1)) (κ := fun p => snap m (p.Y * s)) h2
        obtain ⟨et, q, u'⟩ := r
        simp only at e1 e2
        subst e1 e2
        obtain ⟨e, he⟩ := turn_raises_on_trace (f := f) (j := 1) (η := fun p => p.Y * c - f.aw2) (κ := fun p => snap m' (snap m (p.Y * s))) hp hX
          (by simpa only [haw] using hη) (hsn (hsn hκ)) s c 2 u'
        exact ⟨e, by simp only [he]⟩

/-- The hypotheses can be met: a thrust dipping below the side of negative `Y`. -/
example : ∃ f : Fault, 0 < (dipConstants f.dip).1 ∧ f.aw1 < 0 ∧ f.aw2 = 0 ∧ f.al1 < 0 ∧ 0 < f.al2 ∧ f.slip.y ≠ 0 := by
  have hd : dipConstants (1 / pl8) = (sin 1, cos 1) := by
    have hp : pl8 ≠ 0 := by rw [pl8]; norm_num
    have hc : ¬ |cos 1| < eps := by
      have := cos_one_pos
      have h := one_sub_sq_div_two_le_cos (x := 1)
      rw [abs_of_pos this, eps]
      push Not
      refine le_trans ?_ h
      norm_num
    simp only [dipConstants, one_div_mul_cancel hp, if_neg hc]
  refine ⟨⟨2 / 3, 1 / pl8, -5, 5, -10, 0, 0, 1⟩, ?_, by norm_num, rfl, by norm_num, by norm_num, ?_⟩
  · rw [hd]
    exact sin_pos_of_pos_of_lt_pi one_pos (by linarith [pi_gt_three])
  · simp only [Fault.slip, hd, one_mul]
    exact cos_one_pos.ne'

end Verif.Okada
