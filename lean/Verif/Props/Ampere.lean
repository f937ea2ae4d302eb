import Verif.Lemmas.Ampere

/-!
# C137: Ampère's law around a wire

Once around a rectangle that a wire runs through, the magnetic field adds up to the current of the wire, times the number of times the wire
runs through the rectangle, plus the current that flows through the ground. -/

namespace Verif.Static

open V3 Spatial BiotSavart Coil Prism MeasureTheory Set

variable {o u v : V3 ℝ}

theorem coil_coords {p : V3 ℝ} {s t r : ℝ} {w : V3 ℝ} (h : u.dot v = 0) {η : ℝ} (hw : w = η • u.cross v) (hp : p = o + s • u + t • v + r • w) :
    (p - o).dot u = s * u.dot u ∧ (p - o).dot v = t * v.dot v ∧ (p - o).dot (u.cross v) = r * η * (u.dot u * v.dot v) := by
  subst hp hw
  have e : (u.cross v).dot (u.cross v) = u.dot u * v.dot v := by rw [V3.cross_dot_self, h]; ring
  refine ⟨?_, ?_, ?_⟩
  · simp only [V3.dot, V3.cross, sub_x, sub_y, sub_z, add_x, add_y, add_z, smul_x, smul_y, smul_z, smul_eq_mul] at h ⊢
    linear_combination t * h
  · simp only [V3.dot, V3.cross, sub_x, sub_y, sub_z, add_x, add_y, add_z, smul_x, smul_y, smul_z, smul_eq_mul] at h ⊢
    linear_combination s * h
  · rw [← e]
    simp only [V3.dot, V3.cross, sub_x, sub_y, sub_z, add_x, add_y, add_z, smul_x, smul_y, smul_z, smul_eq_mul]
    ring

set_option maxHeartbeats 2000000 in
/-- Around a coil that a piece of wire runs through. -/
theorem circulation_up {a b : V3 ℝ} (hu : u ≠ 0) (hv : v ≠ 0) (h : u.dot v = 0) (hr : Rises o u v a b)
    (ho : ∀ p ∈ rim o u v, OffLine a b p) : circulation (bs a b) o u v = flux (pair a b) o u v + 4 * Real.pi := by
  obtain ⟨hA, hB, t, s, r, hs0, hs1, hr0, hr1, hx⟩ := hr
  have hU : 0 < u.dot u := by rw [V3.dot_self]; exact pow_pos (V3.len_pos hu) 2
  have hV : 0 < v.dot v := by rw [V3.dot_self]; exact pow_pos (V3.len_pos hv) 2
  have hab : a ≠ b := fun e => by rw [e] at hA; linarith
  set N := u.cross v with hN
  set d := b - a with hd
  -- how the coordinates change along the line
  obtain ⟨xu, xv, xn⟩ := coil_coords (p := a + t • d) (r := 0) (η := 0) (w := 0) h (by module) (by rw [hx]; module : a + t • d = o + s • u + r • v + (0 : ℝ) • 0)
  have cu : ∀ x : ℝ, (a + x • d - o).dot u = s * u.dot u + (x - t) * d.dot u := fun x => by
    rw [← xu]; simp only [V3.dot, sub_x, sub_y, sub_z, add_x, add_y, add_z, smul_x, smul_y, smul_z, smul_eq_mul]; ring
  have cv : ∀ x : ℝ, (a + x • d - o).dot v = r * v.dot v + (x - t) * d.dot v := fun x => by
    rw [← xv]; simp only [V3.dot, sub_x, sub_y, sub_z, add_x, add_y, add_z, smul_x, smul_y, smul_z, smul_eq_mul]; ring
  have cn : ∀ x : ℝ, (a + x • d - o).dot N = (x - t) * d.dot N := fun x => by
    have : (a + x • d - o).dot N = (a + t • d - o).dot N + (x - t) * d.dot N := by
      simp only [V3.dot, sub_x, sub_y, sub_z, add_x, add_y, add_z, smul_x, smul_y, smul_z, smul_eq_mul]; ring
    rw [this, xn]; ring
  have ca : (a - o).dot N = -t * d.dot N := by
    have := cn 0
    rwa [zero_smul, show a + (0 : V3 ℝ) - o = a - o by module, zero_sub] at this
  have cb : (b - o).dot N = (1 - t) * d.dot N := by
    have := cn 1
    rwa [one_smul, show a + d - o = b - o by rw [hd]; module] at this
  have hD : 0 < d.dot N := by
    have : (b - o).dot N - (a - o).dot N = d.dot N := by rw [ca, cb]; ring
    linarith
  have ht0 : 0 < t := by
    rw [ca] at hA
    nlinarith
  have ht1 : t < 1 := by
    rw [cb] at hB
    nlinarith
  -- a point of the wire a little above the coil
  obtain ⟨ε, hε, e1, e2, e3⟩ : ∃ ε : ℝ, 0 < ε ∧ t + ε < 1 ∧ (0 < s * u.dot u + ε * d.dot u ∧ s * u.dot u + ε * d.dot u < u.dot u) ∧
      (0 < r * v.dot v + ε * d.dot v ∧ r * v.dot v + ε * d.dot v < v.dot v) := by
    have k1 : Filter.Tendsto (fun ε : ℝ => t + ε) (nhdsWithin 0 (Ioi 0)) (nhds (t + 0)) := (Continuous.tendsto (by fun_prop) 0).mono_left nhdsWithin_le_nhds
    have k2 : Filter.Tendsto (fun ε : ℝ => s * u.dot u + ε * d.dot u) (nhdsWithin 0 (Ioi 0)) (nhds (s * u.dot u + 0 * d.dot u)) :=
      (Continuous.tendsto (by fun_prop) 0).mono_left nhdsWithin_le_nhds
    have k3 : Filter.Tendsto (fun ε : ℝ => r * v.dot v + ε * d.dot v) (nhdsWithin 0 (Ioi 0)) (nhds (r * v.dot v + 0 * d.dot v)) :=
      (Continuous.tendsto (by fun_prop) 0).mono_left nhdsWithin_le_nhds
    obtain ⟨ε, h1, h2, h3, h4, h5, h6⟩ := ((k1.eventually_lt_const (u := 1) (by linarith)).and
      ((k2.eventually_const_lt (u := 0) (by rw [zero_mul, add_zero]; positivity)).and
      ((k2.eventually_lt_const (u := u.dot u) (by rw [zero_mul, add_zero]; exact mul_lt_of_lt_one_left hU hs1)).and
      ((k3.eventually_const_lt (u := 0) (by rw [zero_mul, add_zero]; positivity)).and
      ((k3.eventually_lt_const (u := v.dot v) (by rw [zero_mul, add_zero]; exact mul_lt_of_lt_one_left hV hr1)).and
        self_mem_nhdsWithin))))).exists
    exact ⟨ε, h6, h1, ⟨h2, h3⟩, h4, h5⟩
  set m := a + (t + ε) • d with hm
  have mu : (m - o).dot u = s * u.dot u + ε * d.dot u := by rw [hm, cu]; ring
  have mv : (m - o).dot v = r * v.dot v + ε * d.dot v := by rw [hm, cv]; ring
  have mn : (m - o).dot N = ε * d.dot N := by rw [hm, cn]; ring
  have hG : 0 < ε * d.dot N := mul_pos hε hD
  set η := 2 * (ε * d.dot N) / (u.dot u * v.dot v) with hη
  have hη0 : 0 < η := by positivity
  have ηe : η * (u.dot u * v.dot v) = 2 * (ε * d.dot N) := by rw [hη]; field_simp
  -- points of the lower part and of the upper part of the wire
  have low : ∀ x ∈ Icc (0 : ℝ) 1, ∃ y, y ≤ ε ∧ a + x • (m - a) = a + (t + y) • d := fun x hx => by
    refine ⟨x * (t + ε) - t, by linarith [mul_le_of_le_one_left (by positivity : 0 ≤ t + ε) hx.2], ?_⟩
    rw [hm]
    module
  have high : ∀ x ∈ Icc (0 : ℝ) 1, ∃ y, ε ≤ y ∧ m + x • (b - m) = a + (t + y) • d := fun x hx => by
    refine ⟨ε + x * (1 - (t + ε)), by linarith [mul_nonneg hx.1 (by linarith : 0 ≤ 1 - (t + ε))], ?_⟩
    rw [show b - m = (1 - (t + ε)) • d by rw [hm, show b = a + d by rw [hd]; module]; module, hm]
    module
  have inside : ∀ {c e y : ℝ}, 0 < c → 0 < c + ε * e → 0 ≤ y → y ≤ ε → 0 < c + y * e := fun {c e y} h1 h2 h3 h4 => by
    rcases le_or_gt 0 e with he | he
    · linarith [mul_nonneg h3 he]
    · linarith [mul_le_mul_of_nonpos_right h4 he.le]
  -- a point of the open box is not on the lower part
  have miss : ∀ p : V3 ℝ, ∀ x y z : ℝ, 0 ≤ z → p = o + x • u + y • v + z • (η • N) → (z = 1 ∨ x = 0 ∨ x = 1 ∨ y = 0 ∨ y = 1) → OffSeg a m p := by
    intro p x y z hz hp hf q hq e
    obtain ⟨w, hw, e'⟩ := low q hq
    obtain ⟨pu, pv, pn⟩ := coil_coords h rfl hp
    rw [e, e', cu] at pu
    rw [e, e', cv] at pv
    rw [e, e', cn] at pn
    have pn' : w * d.dot N = z * (2 * (ε * d.dot N)) := by rw [← ηe]; linear_combination pn
    have w0 : 0 ≤ w := by
      by_contra hc
      have := mul_neg_of_neg_of_pos (not_le.1 hc) hD
      have : 0 ≤ z * (2 * (ε * d.dot N)) := by positivity
      linarith
    rw [add_sub_cancel_left] at pu pv
    have i1 := inside (c := s * u.dot u) (e := d.dot u) (by positivity) e2.1 w0 hw
    have i2 := inside (c := u.dot u - s * u.dot u) (e := -d.dot u) (by linarith [mul_lt_of_lt_one_left hU hs1]) (by linarith [e2.2]) w0 hw
    have i3 := inside (c := r * v.dot v) (e := d.dot v) (by positivity) e3.1 w0 hw
    have i4 := inside (c := v.dot v - r * v.dot v) (e := -d.dot v) (by linarith [mul_lt_of_lt_one_left hV hr1]) (by linarith [e3.2]) w0 hw
    rcases hf with rfl | rfl | rfl | rfl | rfl
    · linarith [mul_le_mul_of_nonneg_right hw hD.le]
    · linarith
    · linarith
    · linarith
    · linarith
  have box : circulation (bs a m) o u v = flux (pair a m) o u v + crateFlux (pair a m) o u v (η • N) := by
    refine circulation_open fun p hp => ?_
    have hoff : OffSeg a m p := by
      rcases hp with (⟨x, hx, y, hy, hp⟩ | (⟨x, hx, y, hy, hp⟩ | ⟨x, hx, y, hy, hp⟩)) | (⟨x, hx, y, hy, hp⟩ | ⟨x, hx, y, hy, hp⟩)
      · exact miss p x y 1 zero_le_one (by rw [hp]; module) (Or.inl rfl)
      · exact miss p 0 x y hy.1 (by rw [hp]; module) (by simp)
      · exact miss p 1 x y hy.1 (by rw [hp]; module) (by simp)
      · exact miss p y 0 x hx.1 (by rw [hp]; module) (by simp)
      · exact miss p y 1 x hx.1 (by rw [hp]; module) (by simp)
    exact ⟨smooth_bs hoff, smooth_pair hoff.ne.1 hoff.ne.2, curl_bs hoff⟩
  have away : ∀ {l : V3 ℝ}, (l = a ∨ l = m) → ∀ x y z : ℝ, 0 ≤ z → l = o + x • u + y • v + z • (η • N) →
      (z = 0 ∨ z = 1 ∨ x = 0 ∨ x = 1 ∨ y = 0 ∨ y = 1) → False := by
    intro l hl x y z hz hp hf
    obtain ⟨pu, pv, pn⟩ := coil_coords h rfl hp
    have pn' : (l - o).dot N = z * (2 * (ε * d.dot N)) := by rw [← ηe]; linear_combination pn
    rcases hl with rfl | rfl
    · have : 0 ≤ z * (2 * (ε * d.dot N)) := by positivity
      linarith
    · rw [mu] at pu
      rw [mv] at pv
      rw [mn] at pn'
      rcases hf with rfl | rfl | rfl | rfl | rfl | rfl <;> linarith
  have apart : ∀ {l : V3 ℝ}, (l = a ∨ l = m) → l ∉ coil o u v ∧ l ∉ coil (o + η • N) u v ∧ l ∉ coil o v (η • N) ∧ l ∉ coil (o + u) v (η • N) ∧
      l ∉ coil o (η • N) u ∧ l ∉ coil (o + v) (η • N) u := by
    intro l hl
    refine ⟨?_, ?_, ?_, ?_, ?_, ?_⟩ <;> rintro ⟨x, hx, y, hy, hp⟩
    · exact away hl x y 0 le_rfl (by rw [hp]; module) (by simp)
    · exact away hl x y 1 zero_le_one (by rw [hp]; module) (by simp)
    · exact away hl 0 x y hy.1 (by rw [hp]; module) (by simp)
    · exact away hl 1 x y hy.1 (by rw [hp]; module) (by simp)
    · exact away hl y 0 x hx.1 (by rw [hp]; module) (by simp)
    · exact away hl y 1 x hx.1 (by rw [hp]; module) (by simp)
  have A := apart (Or.inl rfl)
  have M := apart (Or.inr rfl)
  have four : crateFlux (pair a m) o u v (η • N) = 4 * Real.pi := by
    have e : crateFlux (pair a m) o u v (η • N) = crateFlux (pole m) o u v (η • N) - crateFlux (pole a) o u v (η • N) := by
      simp only [crateFlux]
      rw [flux_pair A.1 M.1, flux_pair A.2.1 M.2.1, flux_pair A.2.2.1 M.2.2.1, flux_pair A.2.2.2.1 M.2.2.2.1, flux_pair A.2.2.2.2.1 M.2.2.2.2.1,
        flux_pair A.2.2.2.2.2 M.2.2.2.2.2]
      ring
    have hu' := V3.len_pos hu
    have hv' := V3.len_pos hv
    have c1 : cover 0 u.len ((m - o).dot u / u.len) = 1 := by
      rw [cover, if_pos ⟨by rw [mu]; exact div_pos e2.1 hu', by rw [mu, div_lt_iff₀ hu', ← pow_two, ← V3.dot_self]; exact e2.2⟩]
    have c2 : cover 0 v.len ((m - o).dot v / v.len) = 1 := by
      rw [cover, if_pos ⟨by rw [mv]; exact div_pos e3.1 hv', by rw [mv, div_lt_iff₀ hv', ← pow_two, ← V3.dot_self]; exact e3.2⟩]
    have ηl : η * (u.len * v.len) * (u.len * v.len) = 2 * (ε * d.dot N) := by rw [← ηe, V3.dot_self, V3.dot_self]; ring
    have c3 : cover 0 (η * (u.len * v.len)) ((m - o).dot N / (u.len * v.len)) = 1 := by
      rw [cover, if_pos ⟨by rw [mn]; positivity, by rw [mn, div_lt_iff₀ (by positivity), ηl]; linarith⟩]
    have c4 : cover 0 (η * (u.len * v.len)) ((a - o).dot N / (u.len * v.len)) = 0 := by
      have hn : (a - o).dot N / (u.len * v.len) < 0 := div_neg_of_neg_of_pos hA (by positivity)
      have hp : 0 < η * (u.len * v.len) := by positivity
      rw [cover, if_neg fun hc => by linarith [hc.1], if_neg fun hc => by rcases hc with hc | hc <;> linarith]
    rw [e, hN, pole_crate hu hv h hη0, pole_crate hu hv h hη0, ← hN, c1, c2, c3, c4]
    ring
  -- the upper part misses the coil
  have up : ∀ p ∈ coil o u v, OffSeg m b p := by
    rintro p ⟨x, hx, y, hy, hp⟩ q hq e
    obtain ⟨w, hw, e'⟩ := high q hq
    obtain ⟨-, -, pn⟩ := coil_coords (r := 0) (η := 0) (w := 0) h (by module) (by rw [hp]; module : p = o + x • u + y • v + (0 : ℝ) • 0)
    rw [e, e', cn] at pn
    have : 0 < (t + w - t) * d.dot N := mul_pos (by linarith) hD
    rw [pn] at this
    simp at this
  have top : circulation (bs m b) o u v = flux (pair m b) o u v :=
    stokes (fun p hp => smooth_bs (up p hp)) (fun p hp => smooth_pair (up p hp).ne.1 (up p hp).ne.2) fun p hp => curl_bs (up p hp)
  have hb : b ∉ coil o u v := fun hc => (up b hc).ne.2 rfl
  have rc : ∀ p ∈ rim o u v, p ∈ coil o u v := fun p ⟨x, hx, y, hy, _, e⟩ => ⟨x, hx, y, hy, e⟩
  have lowOff : ∀ p ∈ rim o u v, OffSeg a m p := fun p hp q hq e => by
    obtain ⟨w, hw, e'⟩ := low q hq
    refine ho p hp ?_
    rw [e, e', hd]
    ext <;> simp [V3.cross] <;> ring
  rw [circulation_congr (G := fun q => bs a m q + bs m b q) fun p hp => bs_split hab (ho p hp) (by linarith) e1,
    circulation_add (fun p hp => smooth_bs (lowOff p hp)) (fun p hp => smooth_bs (up p (rc p hp))), top, box, four, flux_pair A.1 M.1, flux_pair M.1 hb,
    flux_pair A.1 hb]
  ring

theorem circulation_crosses {a b : V3 ℝ} {n : ℤ} (hu : u ≠ 0) (hv : v ≠ 0) (h : u.dot v = 0) (hc : Crosses o u v a b n)
    (ho : ∀ p ∈ rim o u v, OffLine a b p) :
    (∀ p ∈ coil o u v, p ≠ a ∧ p ≠ b) ∧ circulation (bs a b) o u v = flux (pair a b) o u v + 4 * Real.pi * n := by
  have ends : ∀ {a b : V3 ℝ}, Rises o u v a b → ∀ p ∈ coil o u v, p ≠ a ∧ p ≠ b := fun {a b} hr p ⟨x, hx, y, hy, hp⟩ => by
    obtain ⟨-, -, pn⟩ := coil_coords (r := 0) (η := 0) (w := 0) h (by module) (by rw [hp]; module : p = o + x • u + y • v + (0 : ℝ) • 0)
    constructor
    · rintro rfl
      have := hr.below
      rw [pn] at this
      simp at this
    · rintro rfl
      have := hr.above
      rw [pn] at this
      simp at this
  cases hc with
  | past hp =>
    have off : ∀ p ∈ coil o u v, OffSeg a b p := fun p hc t ht e => hp t ht (e ▸ hc)
    refine ⟨fun p hp => (off p hp).ne, ?_⟩
    rw [stokes (fun p hp => smooth_bs (off p hp)) (fun p hp => smooth_pair (off p hp).ne.1 (off p hp).ne.2) fun p hp => curl_bs (off p hp)]
    simp
  | up hr => exact ⟨ends hr, by rw [circulation_up hu hv h hr ho]; simp⟩
  | down hr =>
    refine ⟨fun p hp => (ends hr p hp).symm, ?_⟩
    have ho' : ∀ p ∈ rim o u v, OffLine b a p := fun p hp e => ho p hp (by
      have e' : (b - a).cross (p - a) = (-1 : ℝ) • (a - b).cross (p - b) := by ext <;> simp [V3.cross] <;> ring
      rw [e', e, smul_zero])
    have h1 : bs a b = fun q => (-1 : ℝ) • bs b a q := funext fun q => bs_swap b a q
    have h2 : pair a b = fun q => (-1 : ℝ) • pair b a q := funext fun q => pair_swap b a q
    rw [h1, h2, circulation_smul, flux_real_smul, circulation_up hu hv h hr ho']
    push_cast
    ring

theorem circulation_crossings {nodes : List (V3 ℝ)} {n : ℤ} (hu : u ≠ 0) (hv : v ≠ 0) (h : u.dot v = 0) (hc : Crossings o u v nodes n)
    (ho : ∀ p ∈ rim o u v, Off nodes p) :
    (∀ p ∈ coil o u v, Smooth (fun q => segSum (fun a b => pair a b q) nodes) p) ∧
      circulation (fun q => segSum (fun a b => bs a b q) nodes) o u v = flux (fun q => segSum (fun a b => pair a b q) nodes) o u v + 4 * Real.pi * n := by
  have zero : ∀ p : V3 ℝ, Smooth (fun _ => (0 : V3 ℝ)) p := fun p => ⟨differentiableAt_const _, differentiableAt_const _, differentiableAt_const _⟩
  induction hc with
  | nil => exact ⟨fun p _ => zero p, by simp [segSum, circulation, along, flux, V3.app]⟩
  | one a => exact ⟨fun p _ => zero p, by simp [segSum, circulation, along, flux, V3.app]⟩
  | @step a b rest k n hk hs ih =>
    have ho1 : ∀ p ∈ rim o u v, OffLine a b p := fun p hp => by
      have := ho p hp
      rw [Off, List.isChain_cons_cons] at this
      exact this.1
    have ho2 : ∀ p ∈ rim o u v, Off (b :: rest) p := fun p hp => by
      have := ho p hp
      rw [Off, List.isChain_cons_cons] at this
      exact this.2
    obtain ⟨hne, hcirc⟩ := circulation_crosses hu hv h hk ho1
    obtain ⟨ihs, ihc⟩ := ih ho2
    have hp : ∀ p ∈ coil o u v, Smooth (pair a b) p := fun p hp => smooth_pair (hne p hp).1 (hne p hp).2
    refine ⟨fun p hc => smooth_add (hp p hc) (ihs p hc), ?_⟩
    simp only [segSum]
    rw [circulation_add (fun p hc => smooth_bs (OffLine.offSeg (ho1 p hc)))
      (fun p hc => smooth_segSum (g := fun a b q => bs a b q) (b :: rest) ((ho2 p hc).imp fun a b h => smooth_bs (OffLine.offSeg h))), flux_add hp ihs, hcirc, ihc]
    push_cast
    ring

theorem line_enclosed (s : LineCurrent) (hmu : 0 < s.mu) (hsig : 0 < s.sigma) (hn : 2 ≤ s.nodes.length) (hr : Regular s.nodes) :
    let H : V3 ℝ → V3 ℝ := fun q => (s.current / (4 * Real.pi)) • segSum (fun a b => bs a b q) s.nodes
    let J : V3 ℝ → V3 ℝ := fun q => (s.current / (4 * Real.pi)) • segSum (fun a b => pair a b q) s.nodes
    (∀ p, Off s.nodes p → s.magneticField p = .ok (H p) ∧ s.currentDensity p = .ok (J p)) ∧
      ∀ (o u v : V3 ℝ) (n : ℤ), u ≠ 0 → v ≠ 0 → u.dot v = 0 → (∀ p ∈ rim o u v, Off s.nodes p) → Crossings o u v s.nodes n →
        circulation H o u v = s.current * n + flux J o u v := by
  have hr' : s.nodes.IsChain (· ≠ ·) := hr.imp fun a b h => h.1
  have hf := line_fields s hmu hsig hn hr
  intro H J
  refine ⟨fun p ho => ⟨?_, ?_⟩, fun o u v n hu hv h hrim hc => ?_⟩
  · rw [(hf p ho).1]
    simp only [H]
    rw [segSum_congr (g' := fun a b => -bs a b p) s.nodes ((chain_and hr' ho).imp fun a b h => fluxFree_eq_bs h.1 h.2), segSum_neg, neg_div, neg_smul,
      smul_neg, neg_neg]
  · rw [(hf p ho).2.1]
    simp only [J]
    rw [segSum_congr (g' := fun a b => -pair a b p) s.nodes (hr'.imp fun a b h => by rw [pair]; module), segSum_neg, neg_div, neg_smul,
      smul_neg, neg_neg]
  · obtain ⟨-, h1⟩ := circulation_crossings hu hv h hc hrim
    rw [circulation_smul, flux_real_smul, h1]
    field_simp
    ring

/-- **C137.** Ampère's law: once around a rectangle the magnetic field adds up to the current of the wire for every time the wire runs through
the rectangle, and the current that flows through the rectangle in the ground. -/
theorem line_ampere_enclosed (s : LineCurrent) (hmu : 0 < s.mu) (hsig : 0 < s.sigma) (hn : 2 ≤ s.nodes.length) (hr : Regular s.nodes) :
    ∃ H J : V3 ℝ → V3 ℝ, (∀ p, Off s.nodes p → s.magneticField p = .ok (H p) ∧ s.currentDensity p = .ok (J p)) ∧
      ∀ (o u v : V3 ℝ) (n : ℤ), u ≠ 0 → v ≠ 0 → u.dot v = 0 → (∀ p ∈ rim o u v, Off s.nodes p) → Crossings o u v s.nodes n →
        circulation H o u v = s.current * n + flux J o u v :=
  ⟨_, _, line_enclosed s hmu hsig hn hr⟩

/-- **C137.** Around a closed wire only the current of the wire counts. -/
theorem closed_ampere_enclosed (s : LineCurrent) (hmu : 0 < s.mu) (hsig : 0 < s.sigma) (hr : Regular s.nodes) (n0 n1 : V3 ℝ) (rest : List (V3 ℝ))
    (hn : s.nodes = n0 :: n1 :: rest) (hl : (n0 :: n1 :: rest).getLast (by simp) = n0) :
    ∃ H : V3 ℝ → V3 ℝ, (∀ p, Off s.nodes p → s.magneticField p = .ok (H p)) ∧
      ∀ (o u v : V3 ℝ) (n : ℤ), u ≠ 0 → v ≠ 0 → u.dot v = 0 → (∀ p ∈ rim o u v, Off s.nodes p) → Crossings o u v s.nodes n →
        circulation H o u v = s.current * n := by
  obtain ⟨h1, h2⟩ := line_enclosed s hmu hsig (by simp [hn]) hr
  refine ⟨_, fun p ho => (h1 p ho).1, fun o u v n hu hv h hrim hc => ?_⟩
  have e : ∀ q, segSum (fun a b => pair a b q) s.nodes = 0 := fun q => by
    have := segSum_telescope (fun l => -((1 / (q - l).len ^ 3) • (q - l))) n0 (n1 :: rest)
    rw [hl, sub_self] at this
    rw [hn, ← this]
    congr 1
    funext a b
    rw [pair]
    module
  rw [h2 o u v n hu hv h hrim hc]
  simp [e, flux, V3.app]

/-- A square of side 2 around a vertical wire from `(0, 0, -1)` to `(0, 0, 1)`. -/
example : Crossings ⟨-1, -1, 0⟩ ⟨2, 0, 0⟩ ⟨0, 2, 0⟩ [⟨0, 0, -1⟩, ⟨0, 0, 1⟩] 1 ∧
    (∀ p ∈ rim ⟨-1, -1, 0⟩ ⟨2, 0, 0⟩ ⟨0, 2, 0⟩, Off [⟨0, 0, -1⟩, ⟨0, 0, 1⟩] p) ∧ V3.dot (⟨2, 0, 0⟩ : V3 ℝ) ⟨0, 2, 0⟩ = 0 := by
  refine ⟨?_, ?_, by simp [V3.dot]⟩
  · have := Crossings.step (o := ⟨-1, -1, 0⟩) (u := ⟨2, 0, 0⟩) (v := ⟨0, 2, 0⟩) (a := ⟨0, 0, -1⟩) (b := ⟨0, 0, 1⟩) (.up
      ⟨by norm_num [V3.dot, V3.cross], by norm_num [V3.dot, V3.cross], 1 / 2, 1 / 2, 1 / 2, by norm_num, by norm_num, by norm_num, by norm_num,
        by ext <;> norm_num⟩) (.one _)
    simpa using this
  · rintro p ⟨x, hx, y, hy, hxy, rfl⟩
    simp only [Off, List.isChain_cons_cons, OffLine, List.isChain_singleton, and_true]
    intro e
    have ex := congrArg V3.x e
    have ey := congrArg V3.y e
    simp [V3.cross] at ex ey
    rcases hxy with rfl | rfl | rfl | rfl <;> linarith

end Verif.Static
