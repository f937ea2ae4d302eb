import Verif.Lemmas.Reversals
import Verif.Props.TransientDecay
import Verif.Lemmas.Arctan2
import Verif.Lemmas.Rotation

/-!
# C121: transients reverse their sign as often as they should

The vertical field of a vertical dipole on the ground reverses exactly once, at a time proportional to the conductivity, the permeability and
the square of the distance (the circle on which it vanishes runs outwards with the square root of time); its rate of change reverses exactly
once, later; the radial field never reverses.  The electric field of a dipole in a whole space reverses once beside the dipole and never on
its axis.
-/

namespace Verif.Tdem

open Real Filter Topology

variable {t x y sigma mu moment : ℝ}

/-- How `θ r` compares with a number is a question of time. -/
theorem theta_mul_compare (ht : 0 < t) (hs : 0 < sigma) (hm : 0 < mu) {r u₀ : ℝ} (hr : 0 < r) (hu : 0 < u₀) :
    (t < 1 / (4 * u₀ ^ 2) * (mu * sigma * r ^ 2) → u₀ < theta t sigma mu * r) ∧
    (t = 1 / (4 * u₀ ^ 2) * (mu * sigma * r ^ 2) → theta t sigma mu * r = u₀) ∧
    (1 / (4 * u₀ ^ 2) * (mu * sigma * r ^ 2) < t → theta t sigma mu * r < u₀) := by
  have hp := mul_pos (theta_pos ht hs hm) hr
  have h2 : 4 * t * (theta t sigma mu * r) ^ 2 = mu * sigma * r ^ 2 := by
    rw [mul_pow, theta_sq ht hs hm]
    field_simp
  rw [← h2]
  generalize theta t sigma mu * r = u at *
  have e : 1 / (4 * u₀ ^ 2) * (4 * t * u ^ 2) = t * (u ^ 2 / u₀ ^ 2) := by field_simp
  rw [e]
  refine ⟨fun h => ?_, fun h => ?_, fun h => ?_⟩
  · have h1 : 1 < u ^ 2 / u₀ ^ 2 := by by_contra hc; nlinarith [not_lt.1 hc]
    rw [one_lt_div (by positivity)] at h1
    exact lt_of_pow_lt_pow_left₀ 2 hp.le h1
  · have h1 : u ^ 2 / u₀ ^ 2 = 1 := by
      have : t * (u ^ 2 / u₀ ^ 2 - 1) = 0 := by linarith
      rcases mul_eq_zero.1 this with h | h
      · exact absurd h ht.ne'
      · linarith
    rw [div_eq_one_iff_eq (by positivity)] at h1
    exact (pow_left_inj₀ hp.le hu.le (by norm_num)).1 h1
  · have h1 : u ^ 2 / u₀ ^ 2 < 1 := by by_contra hc; nlinarith [not_lt.1 hc]
    rw [div_lt_one (by positivity)] at h1
    exact lt_of_pow_lt_pow_left₀ 2 hu.le h1

theorem dipoleField_z_shape (ht : 0 < t) (hs : 0 < sigma) (hm : 0 < mu) (hr : x ≠ 0 ∨ y ≠ 0) :
    ∃ k : ℝ, 0 < k ∧ (dipoleField t x y sigma mu moment).z = -(moment * k *
      (((theta t sigma mu * √(x ^ 2 + y ^ 2)) ^ 2 - 9 / 2) * erf (theta t sigma mu * √(x ^ 2 + y ^ 2)) +
        (9 * (theta t sigma mu * √(x ^ 2 + y ^ 2)) + 4 * (theta t sigma mu * √(x ^ 2 + y ^ 2)) ^ 3) / √π *
        exp (-(theta t sigma mu * √(x ^ 2 + y ^ 2)) ^ 2))) := by
  have hrp : 0 < √(x ^ 2 + y ^ 2) := sqrt_pos.2 (by rcases hr with h | h <;> positivity)
  have hp := theta_pos ht hs hm
  have hu : 0 < theta t sigma mu * √(x ^ 2 + y ^ 2) := by positivity
  have hpi : √π ≠ 0 := (sqrt_pos.2 pi_pos).ne'
  refine ⟨1 / (4 * π) * (1 / √(x ^ 2 + y ^ 2) ^ 3) / (theta t sigma mu * √(x ^ 2 + y ^ 2)) ^ 2, by positivity, ?_⟩
  simp only [dipoleField, V3.smul_z, smul_eq_mul]
  generalize theta t sigma mu * √(x ^ 2 + y ^ 2) = u at *
  generalize erf u = E
  generalize exp (-u ^ 2) = X
  field_simp
  ring

theorem dipoleRate_z_shape (ht : 0 < t) (hs : 0 < sigma) (hm : 0 < mu) (hr : x ≠ 0 ∨ y ≠ 0) :
    ∃ k : ℝ, 0 < k ∧ (dipoleFieldTimeDeriv t x y sigma mu moment).z = moment * k *
      (9 / 2 * erf (theta t sigma mu * √(x ^ 2 + y ^ 2)) - (9 * (theta t sigma mu * √(x ^ 2 + y ^ 2)) +
        6 * (theta t sigma mu * √(x ^ 2 + y ^ 2)) ^ 3 + 4 * (theta t sigma mu * √(x ^ 2 + y ^ 2)) ^ 5) / √π *
        exp (-(theta t sigma mu * √(x ^ 2 + y ^ 2)) ^ 2)) := by
  have hrp : 0 < √(x ^ 2 + y ^ 2) := sqrt_pos.2 (by rcases hr with h | h <;> positivity)
  have hp := theta_pos ht hs hm
  have hu : 0 < theta t sigma mu * √(x ^ 2 + y ^ 2) := by positivity
  have hpi : √π ≠ 0 := (sqrt_pos.2 pi_pos).ne'
  refine ⟨1 / (4 * π) * (1 / (√(x ^ 2 + y ^ 2) ^ 3 * t)) / (theta t sigma mu * √(x ^ 2 + y ^ 2)) ^ 2, by positivity, ?_⟩
  simp only [dipoleFieldTimeDeriv, V3.smul_z, smul_eq_mul]
  generalize theta t sigma mu * √(x ^ 2 + y ^ 2) = u at *
  generalize erf u = E
  generalize exp (-u ^ 2) = X
  field_simp
  ring

/-- **C121.** There is one number `c`, the same for all media, distances and moments, such that the vertical field of a vertical dipole points
against the moment before the time `c μ σ r²`, vanishes then and points along the moment ever after. -/
theorem dipoleField_reverses : ∃ c : ℝ, 0 < c ∧ c < 1 / 4 ∧
    ∀ {x y sigma mu moment t : ℝ}, (x ≠ 0 ∨ y ≠ 0) → 0 < sigma → 0 < mu → 0 < moment → 0 < t →
      (t < c * (mu * sigma * (x ^ 2 + y ^ 2)) → (dipoleField t x y sigma mu moment).z < 0) ∧
      (t = c * (mu * sigma * (x ^ 2 + y ^ 2)) → (dipoleField t x y sigma mu moment).z = 0) ∧
      (c * (mu * sigma * (x ^ 2 + y ^ 2)) < t → 0 < (dipoleField t x y sigma mu moment).z) := by
  obtain ⟨u₀, h1, hz, neg, pos⟩ := one_zero_vertical
  have h0 : 0 < u₀ := by linarith
  refine ⟨1 / (4 * u₀ ^ 2), by positivity, ?_, fun {x y sigma mu moment t} hr hs hm hM ht => ?_⟩
  · apply one_div_lt_one_div_of_lt (by norm_num); nlinarith
  have hn : 0 ≤ x ^ 2 + y ^ 2 := by positivity
  have hrp : 0 < √(x ^ 2 + y ^ 2) := sqrt_pos.2 (by rcases hr with h | h <;> positivity)
  obtain ⟨k, hk, e⟩ := dipoleField_z_shape (moment := moment) ht hs hm hr
  have hu := mul_pos (theta_pos ht hs hm) hrp
  obtain ⟨c1, c2, c3⟩ := theta_mul_compare ht hs hm hrp h0
  rw [sq_sqrt hn] at c1 c2 c3
  have hMk := mul_pos hM hk
  rw [e]
  refine ⟨fun h => ?_, fun h => ?_, fun h => ?_⟩
  · exact neg_lt_zero.2 (mul_pos hMk (pos _ (c1 h)))
  · rw [c2 h, hz, mul_zero, neg_zero]
  · exact neg_pos.2 (mul_neg_of_pos_of_neg hMk (neg _ hu (c3 h)))

/-- **C121.** The rate of change of that field reverses exactly once, after the field has: the field rises until `c' μ σ r²`, and then falls. -/
theorem dipoleFieldTimeDeriv_reverses : ∃ c : ℝ, 0 < c ∧ c < 1 / 4 ∧
    ∀ {x y sigma mu moment t : ℝ}, (x ≠ 0 ∨ y ≠ 0) → 0 < sigma → 0 < mu → 0 < moment → 0 < t →
      (t < c * (mu * sigma * (x ^ 2 + y ^ 2)) → 0 < (dipoleFieldTimeDeriv t x y sigma mu moment).z) ∧
      (t = c * (mu * sigma * (x ^ 2 + y ^ 2)) → (dipoleFieldTimeDeriv t x y sigma mu moment).z = 0 ∧ 0 < (dipoleField t x y sigma mu moment).z) ∧
      (c * (mu * sigma * (x ^ 2 + y ^ 2)) < t → (dipoleFieldTimeDeriv t x y sigma mu moment).z < 0) := by
  obtain ⟨u₀, h1, hz, neg, pos⟩ := one_zero_rate
  have h0 : 0 < u₀ := by linarith
  refine ⟨1 / (4 * u₀ ^ 2), by positivity, ?_, fun {x y sigma mu moment t} hr hs hm hM ht => ?_⟩
  · apply one_div_lt_one_div_of_lt (by norm_num); nlinarith
  have hn : 0 ≤ x ^ 2 + y ^ 2 := by positivity
  have hrp : 0 < √(x ^ 2 + y ^ 2) := sqrt_pos.2 (by rcases hr with h | h <;> positivity)
  obtain ⟨k, hk, e⟩ := dipoleRate_z_shape (moment := moment) ht hs hm hr
  have hu := mul_pos (theta_pos ht hs hm) hrp
  obtain ⟨c1, c2, c3⟩ := theta_mul_compare ht hs hm hrp h0
  rw [sq_sqrt hn] at c1 c2 c3
  have hMk := mul_pos hM hk
  rw [e]
  refine ⟨fun h => ?_, fun h => ⟨?_, ?_⟩, fun h => ?_⟩
  · exact mul_pos hMk (pos _ (c1 h))
  · rw [c2 h, hz, mul_zero]
  · have anti : StrictAntiOn (fun t => (dipoleField t x y sigma mu moment).z) (Set.Ici t) := by
      refine strictAntiOn_of_deriv_neg (convex_Ici t) (fun v hv => ?_) fun v hv => ?_
      · exact (dipoleField_hasDerivAt (lt_of_lt_of_le ht hv) hs hm hr).2.2.continuousAt.continuousWithinAt
      · rw [interior_Ici] at hv
        have hv : t < v := hv
        have hv0 := ht.trans hv
        rw [(dipoleField_hasDerivAt hv0 hs hm hr).2.2.deriv]
        obtain ⟨k', hk', e'⟩ := dipoleRate_z_shape (moment := moment) hv0 hs hm hr
        obtain ⟨-, -, c3'⟩ := theta_mul_compare hv0 hs hm hrp h0
        rw [sq_sqrt hn] at c3'
        rw [e']
        exact mul_neg_of_pos_of_neg (mul_pos hM hk') (neg _ (mul_pos (theta_pos hv0 hs hm) hrp) (c3' (h ▸ hv)))
    have hlt : (dipoleField (t + 1) x y sigma mu moment).z < (dipoleField t x y sigma mu moment).z :=
      anti (Set.mem_Ici.2 le_rfl) (Set.mem_Ici.2 (by linarith)) (by linarith)
    refine lt_of_le_of_lt (le_of_tendsto (dipoleField_end (moment := moment) hs hm hr).2.2 ?_) hlt
    filter_upwards [eventually_gt_atTop (t + 1)] with v hv
    exact (anti (Set.mem_Ici.2 (by linarith)) (Set.mem_Ici.2 (by linarith)) hv).le
  · exact mul_neg_of_pos_of_neg hMk (neg _ hu (c3 h))

/-- **C121.** The horizontal field of the dipole is radial and never reverses. -/
theorem dipoleField_radial (hr : x ≠ 0 ∨ y ≠ 0) (ht : 0 < t) (hs : 0 < sigma) (hm : 0 < mu) :
    ∃ k : ℝ, 0 < k ∧ (dipoleField t x y sigma mu moment).x = moment * k * x ∧ (dipoleField t x y sigma mu moment).y = moment * k * y := by
  have hrp : 0 < √(x ^ 2 + y ^ 2) := sqrt_pos.2 (by rcases hr with h | h <;> positivity)
  have hu := mul_pos (theta_pos ht hs hm) hrp
  set u := theta t sigma mu * √(x ^ 2 + y ^ 2) with hu'
  have hw : 0 < u ^ 2 / 2 := by positivity
  have hI := besselI_two_lt hw
  have hIe : besselIe 2 (u ^ 2 / 2) < besselIe 1 (u ^ 2 / 2) := mul_lt_mul_of_pos_left hI (exp_pos _)
  refine ⟨1 / (4 * π) / √(x ^ 2 + y ^ 2) * (2 * u ^ 2 / √(x ^ 2 + y ^ 2) ^ 3 * (besselIe 1 (u ^ 2 / 2) - besselIe 2 (u ^ 2 / 2))), ?_, ?_, ?_⟩
  · have := sub_pos.2 hIe
    positivity
  · simp only [dipoleField, V3.smul_x, smul_eq_mul, ← hu', show cos (Spatial.arctan2 y x) = x / √(x ^ 2 + y ^ 2) from
      eq_div_of_mul_eq hrp.ne' (by linarith [Spatial.sqrt_mul_cos_arctan2 y x])]
    ring
  · simp only [dipoleField, V3.smul_y, smul_eq_mul, ← hu', show sin (Spatial.arctan2 y x) = y / √(x ^ 2 + y ^ 2) from
      eq_div_of_mul_eq hrp.ne' (by linarith [Spatial.sqrt_mul_sin_arctan2 y x])]
    ring

/-- **C121.** On the axis of an electric dipole the electric field points along the current at all times. -/
theorem ElectricDipole.axis_never_reverses (s : ElectricDipole) (ht : 0 < s.time) (hs : 0 < s.sigma) (hm : 0 < s.mu)
    (ho : s.orientation.len = 1) {d : ℝ} (hd : d ≠ 0) :
    ∃ k : ℝ, 0 < k ∧ s.electricField (s.location + d • s.orientation) = (s.current * s.length * k) • s.orientation := by
  have hr : (s.location + d • s.orientation - s.location : V3 ℝ) = d • s.orientation := by abel
  have hl : (d • s.orientation : V3 ℝ).len = |d| := by rw [V3.len_smul, ho, mul_one]
  have hoo : s.orientation.dot s.orientation = 1 := by rw [V3.dot_self, ho, one_pow]
  have hd' := abs_pos.2 hd
  have hu : 0 < s.theta * |d| := mul_pos (theta_pos ht hs hm) hd'
  have hR := lt_erfRest hu
  have hpi : 0 < √π := sqrt_pos.2 pi_pos
  have hR0 : 0 < erfRest (s.theta * |d|) := lt_trans (by positivity) hR
  refine ⟨1 / (4 * π * s.sigma * |d| ^ 3) * (2 * erfRest (s.theta * |d|)), by positivity, ?_⟩
  simp only [ElectricDipole.electricField, hr, hl]
  have hdot : ((d • s.orientation).map (· / |d|)).dot s.orientation = d / |d| := by
    simp only [V3.dot, V3.map_x, V3.map_y, V3.map_z, V3.smul_x, V3.smul_y, V3.smul_z, smul_eq_mul] at hoo ⊢
    linear_combination d / |d| * hoo
  have hsq : d / |d| * (d / |d|) = 1 := by
    rw [div_mul_div_comm, ← abs_mul_abs_self d]
    field_simp
  rw [hdot]
  simp only [erfRest]
  generalize s.theta * |d| = u at *
  ext <;> simp only [V3.map_x, V3.map_y, V3.map_z, V3.sub_x, V3.sub_y, V3.sub_z, V3.smul_x, V3.smul_y, V3.smul_z, smul_eq_mul]
  · linear_combination s.current * s.length / (4 * π * s.sigma * |d| ^ 3) * (3 * erf u - (4 * u ^ 2 + 6) * (u / √π * exp (-u ^ 2))) * s.orientation.x * hsq
  · linear_combination s.current * s.length / (4 * π * s.sigma * |d| ^ 3) * (3 * erf u - (4 * u ^ 2 + 6) * (u / √π * exp (-u ^ 2))) * s.orientation.y * hsq
  · linear_combination s.current * s.length / (4 * π * s.sigma * |d| ^ 3) * (3 * erf u - (4 * u ^ 2 + 6) * (u / √π * exp (-u ^ 2))) * s.orientation.z * hsq

/-- **C121.** Beside the dipole it points against the current before the time `c μ σ r²`, vanishes then and points along it
ever after, with one number `c` for all dipoles, media and distances. -/
theorem ElectricDipole.beside_reverses : ∃ c : ℝ, 0 < c ∧ c < 1 / 4 ∧
    ∀ (s : ElectricDipole) {p : V3 ℝ}, 0 < s.time → 0 < s.sigma → 0 < s.mu → p ≠ s.location → (p - s.location).dot s.orientation = 0 →
      ∃ k : ℝ, s.electricField p = (s.current * s.length * k) • s.orientation ∧
        (s.time < c * (s.mu * s.sigma * (p - s.location).len ^ 2) → k < 0) ∧
        (s.time = c * (s.mu * s.sigma * (p - s.location).len ^ 2) → k = 0) ∧
        (c * (s.mu * s.sigma * (p - s.location).len ^ 2) < s.time → 0 < k) := by
  obtain ⟨u₀, h1, hz, neg, pos⟩ := one_zero_beside
  have h0 : 0 < u₀ := by linarith
  refine ⟨1 / (4 * u₀ ^ 2), by positivity, ?_, fun s {p} ht hs hm hp hperp => ?_⟩
  · apply one_div_lt_one_div_of_lt (by norm_num); nlinarith
  have hrp : 0 < (p - s.location).len := V3.len_pos (sub_ne_zero.2 hp)
  obtain ⟨c1, c2, c3⟩ := theta_mul_compare ht hs hm hrp h0
  have hu : 0 < s.theta * (p - s.location).len := mul_pos (theta_pos ht hs hm) hrp
  have hf : 0 < 1 / (4 * π * s.sigma * (p - s.location).len ^ 3) := by positivity
  set u := s.theta * (p - s.location).len with hu'
  refine ⟨1 / (4 * π * s.sigma * (p - s.location).len ^ 3) * -(erf u - (2 * u + 4 * u ^ 3) / √π * exp (-u ^ 2)), ?_,
    fun h => ?_, fun h => ?_, fun h => ?_⟩
  · have hdot : ((p - s.location).map (· / (p - s.location).len)).dot s.orientation = 0 := by
      simp only [V3.dot, V3.map_x, V3.map_y, V3.map_z] at hperp ⊢
      linear_combination 1 / (p - s.location).len * hperp
    simp only [ElectricDipole.electricField, ← hu', hdot]
    ext <;> simp only [V3.map_x, V3.map_y, V3.map_z, V3.sub_x, V3.sub_y, V3.sub_z, V3.smul_x, V3.smul_y, V3.smul_z, smul_eq_mul] <;> ring
  · exact mul_neg_of_pos_of_neg hf (neg_lt_zero.2 (pos _ (c1 h)))
  · have : u = u₀ := c2 h
    rw [this, hz, neg_zero, mul_zero]
  · exact mul_pos hf (neg_pos.2 (neg _ hu (c3 h)))

/-- The hypotheses are met. -/
example : ∃ k : ℝ, 0 < k ∧ (⟨⟨1, 1, 1⟩, 0, ⟨1, 0, 0⟩, 1, 1⟩ : ElectricDipole).electricField (0 + (2 : ℝ) • ⟨1, 0, 0⟩) =
    (1 * 1 * k) • (⟨1, 0, 0⟩ : V3 ℝ) :=
  ElectricDipole.axis_never_reverses _ one_pos one_pos one_pos (by simp [V3.len]) two_ne_zero

end Verif.Tdem
