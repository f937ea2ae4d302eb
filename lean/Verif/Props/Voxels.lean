import Verif.Lemmas.Voxels

/-!
# C155: bodies made of prisms

Prisms that fill nearly the same space as a ball, or as other prisms, have nearly the same potential and field, at every point.
-/

namespace Verif.Voxels

open Real MeasureTheory Set Prism Ball Gravity

variable {ι κ : Type*}

/-- The space that prisms fill. -/
def filled (S : Finset ι) (b : ι → Box) : Set (ℝ × ℝ × ℝ) := ⋃ i ∈ S, (b i).points

/-- Prisms that have positive sides and do not overlap. -/
def Apart (S : Finset ι) (b : ι → Box) : Prop := (∀ i ∈ S, (b i).Proper) ∧ (S : Set ι).Pairwise (Function.onFun Disjoint fun i => (b i).points)

/-- The sum of the potentials of prisms of the same density. -/
noncomputable def potential (S : Finset ι) (b : ι → Box) (rho : ℝ) (p : V3 ℝ) : ℝ := ∑ i ∈ S, (⟨b i, rho⟩ : GravPrism).gravitationalPotential p

/-- The sum of their fields. -/
noncomputable def field (S : Finset ι) (b : ι → Box) (rho : ℝ) (p : V3 ℝ) : V3 ℝ :=
  ⟨∑ i ∈ S, ((⟨b i, rho⟩ : GravPrism).gravitationalField p).x, ∑ i ∈ S, ((⟨b i, rho⟩ : GravPrism).gravitationalField p).y,
    ∑ i ∈ S, ((⟨b i, rho⟩ : GravPrism).gravitationalField p).z⟩

theorem measurableSet_filled (S : Finset ι) (b : ι → Box) : MeasurableSet (filled S b) :=
  S.measurableSet_biUnion fun i _ => (b i).measurableSet_points

theorem integrable_filled {S : Finset ι} {b : ι → Box} (h : Apart S b) (p : V3 ℝ) :
    IntegrableOn (fun q => 1 / (vec q - p).len) (filled S b) ∧ IntegrableOn (fun q => (vec q - p).x / (vec q - p).len ^ 3) (filled S b) ∧
      IntegrableOn (fun q => (vec q - p).y / (vec q - p).len ^ 3) (filled S b) ∧ IntegrableOn (fun q => (vec q - p).z / (vec q - p).len ^ 3) (filled S b) := by
  refine ⟨?_, ?_, ?_, ?_⟩ <;> refine (integrableOn_finset_iUnion).2 fun i hi => ?_
  · exact (newton_box (b i) (h.1 i hi) p).1.1
  · exact (newton_box (b i) (h.1 i hi) p).2.1.1
  · exact (newton_box (b i) (h.1 i hi) p).2.2.1.1
  · exact (newton_box (b i) (h.1 i hi) p).2.2.2.1

theorem potential_eq {S : Finset ι} {b : ι → Box} (h : Apart S b) (rho : ℝ) (p : V3 ℝ) :
    potential S b rho p = G * rho * ∫ q in filled S b, 1 / (vec q - p).len := by
  rw [filled, integral_biUnion_finset S (fun i _ => (b i).measurableSet_points) h.2 fun i hi => (newton_box (b i) (h.1 i hi) p).1.1, Finset.mul_sum, potential]
  refine Finset.sum_congr rfl fun i hi => ?_
  rw [(gravPrism_potential_is_integral ⟨b i, rho⟩ (h.1 i hi) p).2, ← integral_const_mul]
  congr 1
  ext q
  ring

theorem field_eq {S : Finset ι} {b : ι → Box} (h : Apart S b) (rho : ℝ) (p : V3 ℝ) :
    (field S b rho p).x = G * rho * ∫ q in filled S b, (vec q - p).x / (vec q - p).len ^ 3 ∧
    (field S b rho p).y = G * rho * ∫ q in filled S b, (vec q - p).y / (vec q - p).len ^ 3 ∧
    (field S b rho p).z = G * rho * ∫ q in filled S b, (vec q - p).z / (vec q - p).len ^ 3 := by
  refine ⟨?_, ?_, ?_⟩
  · rw [filled, integral_biUnion_finset (f := fun q => (vec q - p).x / (vec q - p).len ^ 3) S (fun i _ => (b i).measurableSet_points) h.2 fun i hi =>
      (newton_box (b i) (h.1 i hi) p).2.1.1, Finset.mul_sum, field]
    refine Finset.sum_congr rfl fun i hi => ?_
    rw [(gravPrism_field_is_integral ⟨b i, rho⟩ (h.1 i hi) p).1, ← integral_const_mul]
    simp only [mul_div_assoc]
  · rw [filled, integral_biUnion_finset (f := fun q => (vec q - p).y / (vec q - p).len ^ 3) S (fun i _ => (b i).measurableSet_points) h.2 fun i hi =>
      (newton_box (b i) (h.1 i hi) p).2.2.1.1, Finset.mul_sum, field]
    refine Finset.sum_congr rfl fun i hi => ?_
    rw [(gravPrism_field_is_integral ⟨b i, rho⟩ (h.1 i hi) p).2.1, ← integral_const_mul]
    simp only [mul_div_assoc]
  · rw [filled, integral_biUnion_finset (f := fun q => (vec q - p).z / (vec q - p).len ^ 3) S (fun i _ => (b i).measurableSet_points) h.2 fun i hi =>
      (newton_box (b i) (h.1 i hi) p).2.2.2.1, Finset.mul_sum, field]
    refine Finset.sum_congr rfl fun i hi => ?_
    rw [(gravPrism_field_is_integral ⟨b i, rho⟩ (h.1 i hi) p).2.2, ← integral_const_mul]
    simp only [mul_div_assoc]

theorem volume_filled (S : Finset ι) (b : ι → Box) : volume (filled S b) ≠ ⊤ := by
  refine ((measure_biUnion_finset_le S _).trans_lt (ENNReal.sum_lt_top.2 fun i _ => ?_)).ne
  exact (measure_mono (b i).points_subset_closed).trans_lt (b i).isCompact_closed.measure_lt_top

theorem volume_ball (c : V3 ℝ) {a : ℝ} (ha : 0 < a) : volume (points c a) ≠ ⊤ :=
  ((measure_mono ((points_subset c ha).trans (around c a).points_subset_closed)).trans_lt (around c a).isCompact_closed.measure_lt_top).ne

theorem scaled {k x y e : ℝ} (h : |x - y| ≤ e) : |k * x - k * y| ≤ |k| * e := by
  rw [← mul_sub, abs_mul]
  exact mul_le_mul_of_nonneg_left h (abs_nonneg _)

/-- What two bodies of the same density differ by at most, if the volume of what belongs to only one of them is `v`: the potential by `G ρ (2π a² + v / a)` and
each component of the field by `G ρ (4π a + v / a²)`, whatever the length `a`. -/
def Close (rho v : ℝ) (u u' : ℝ) (g g' : V3 ℝ) : Prop :=
  ∀ a : ℝ, 0 < a → |u - u'| ≤ G * |rho| * (2 * π * a ^ 2 + v / a) ∧ |g.x - g'.x| ≤ G * |rho| * (4 * π * a + v / a ^ 2) ∧
    |g.y - g'.y| ≤ G * |rho| * (4 * π * a + v / a ^ 2) ∧ |g.z - g'.z| ≤ G * |rho| * (4 * π * a + v / a ^ 2)

/-- **C155.** Two bodies made of prisms. -/
theorem prisms_close {S : Finset ι} {b : ι → Box} (h : Apart S b) {T : Finset κ} {c : κ → Box} (h' : Apart T c) (rho : ℝ) (p : V3 ℝ) :
    Close rho (volume.real (symmDiff (filled S b) (filled T c))) (potential S b rho p) (potential T c rho p) (field S b rho p) (field T c rho p) := by
  intro a ha
  have hG : 0 < G := by norm_num [G]
  have hf : volume (symmDiff (filled S b) (filled T c)) ≠ ⊤ :=
    ((measure_mono symmDiff_subset_union).trans_lt (measure_union_lt_top (volume_filled S b).lt_top (volume_filled T c).lt_top)).ne
  obtain ⟨e0, ex, ey, ez⟩ := newton_close (measurableSet_filled S b) (measurableSet_filled T c) p ha hf (integrable_filled h p) (integrable_filled h' p)
  rw [potential_eq h, potential_eq h', (field_eq h rho p).1, (field_eq h' rho p).1, (field_eq h rho p).2.1, (field_eq h' rho p).2.1,
    (field_eq h rho p).2.2, (field_eq h' rho p).2.2]
  have hk : |G * rho| = G * |rho| := by rw [abs_mul, abs_of_pos hG]
  simp only [div_eq_mul_one_div (volume.real _), mul_comm (volume.real _), ← hk]
  exact ⟨scaled e0, scaled ex, scaled ey, scaled ez⟩

/-- **C155.** A body made of prisms and a ball. -/
theorem ball_close (s : Sphere) (hR : 0 < s.radius) {S : Finset ι} {b : ι → Box} (h : Apart S b) (p : V3 ℝ) :
    Close s.rho (volume.real (symmDiff (filled S b) (points s.location s.radius))) (potential S b s.rho p) (s.gravitationalPotential p) (field S b s.rho p)
      (s.gravitationalField p) := by
  intro a ha
  have hG : 0 < G := by norm_num [G]
  have hf : volume (symmDiff (filled S b) (points s.location s.radius)) ≠ ⊤ :=
    ((measure_mono symmDiff_subset_union).trans_lt (measure_union_lt_top (volume_filled S b).lt_top (volume_ball s.location hR).lt_top)).ne
  obtain ⟨e0, ex, ey, ez⟩ := newton_close (measurableSet_filled S b) (Ball.measurableSet_points s.location s.radius) p ha hf (integrable_filled h p)
    (Ball.integrable s.location hR p)
  have len : ∀ q : ℝ × ℝ × ℝ, (p - vec q).len = (vec q - p).len := fun q => by rw [← V3.len_neg, neg_sub]
  have hu : s.gravitationalPotential p = G * s.rho * ∫ q in points s.location s.radius, 1 / (vec q - p).len := by
    rw [(s.potential_is_integral hR p).2, ← integral_const_mul]
    simp only [PointMass.gravitationalPotential, len, mul_one_div]
  have cube : ∀ t r : ℝ, -G * s.rho * (t / r) / r ^ 2 = G * s.rho * (-t / r ^ 3) := fun t r => by
    by_cases h : r = 0
    · simp [h]
    · field_simp
  have hg := s.field_is_integral hR p
  simp only [PointMass.gravitationalField, V3.map_x, V3.map_y, V3.map_z, len, cube, integral_const_mul, V3.sub_x, V3.sub_y, V3.sub_z, neg_sub] at hg
  rw [potential_eq h, hu, (field_eq h s.rho p).1, (field_eq h s.rho p).2.1, (field_eq h s.rho p).2.2, hg]
  have hk : |G * s.rho| = G * |s.rho| := by rw [abs_mul, abs_of_pos hG]
  simp only [div_eq_mul_one_div (volume.real _), mul_comm (volume.real _), ← hk]
  exact ⟨scaled e0, scaled ex, scaled ey, scaled ez⟩

/-! ### Cubes of a grid -/

/-- The cube `k` of a grid with spacing `h`. -/
def cube (h : ℝ) (k : ℤ × ℤ × ℤ) : Box := ⟨⟨h * k.1, h * k.2.1, h * k.2.2⟩, ⟨h * (k.1 + 1), h * (k.2.1 + 1), h * (k.2.2 + 1)⟩⟩

theorem cube_eq {h : ℝ} (hh : 0 < h) {x : ℝ} {k l : ℤ} (h1 : h * k < x) (h2 : x ≤ h * (k + 1)) (h3 : h * l < x) (h4 : x ≤ h * (l + 1)) : k = l := by
  have a : (k : ℝ) < l + 1 := lt_of_mul_lt_mul_left (h1.trans_le h4) hh.le
  have b : (l : ℝ) < k + 1 := lt_of_mul_lt_mul_left (h3.trans_le h2) hh.le
  have a' : k < l + 1 := by exact_mod_cast a
  have b' : l < k + 1 := by exact_mod_cast b
  omega

theorem cubes_apart {h : ℝ} (hh : 0 < h) (S : Finset (ℤ × ℤ × ℤ)) : Apart S (cube h) := by
  refine ⟨fun k _ => ⟨?_, ?_, ?_⟩, fun k _ l _ hkl => disjoint_left.2 fun q hk hl => hkl ?_⟩
  · simp only [cube]; nlinarith
  · simp only [cube]; nlinarith
  · simp only [cube]; nlinarith
  · obtain ⟨⟨a1, a2⟩, ⟨a3, a4⟩, a5, a6⟩ := hk
    obtain ⟨⟨b1, b2⟩, ⟨b3, b4⟩, b5, b6⟩ := hl
    simp only [cube] at *
    exact Prod.ext (cube_eq hh a1 a2 b1 b2) (Prod.ext (cube_eq hh a3 a4 b3 b4) (cube_eq hh a5 a6 b5 b6))

/-- The cubes within a ball are finitely many. -/
theorem cubes_finite (c : V3 ℝ) (R : ℝ) {h : ℝ} (hh : 0 < h) : {k | (cube h k).points ⊆ points c R}.Finite := by
  have key : ∀ (c : ℝ) (k : ℤ), |h * (k + 1) - c| ≤ R → k ∈ Icc (⌊(c - R) / h - 1⌋) (⌈(c + R) / h - 1⌉) := by
    intro c k hk
    obtain ⟨h1, h2⟩ := abs_le.1 hk
    constructor
    · refine Int.floor_le_iff.2 ?_
      rw [sub_lt_iff_lt_add, div_lt_iff₀ hh]
      nlinarith
    · refine Int.le_ceil_iff.2 ?_
      rw [lt_sub_iff_add_lt, lt_div_iff₀ hh]
      nlinarith
  refine ((finite_Icc (⌊(c.x - R) / h - 1⌋) (⌈(c.x + R) / h - 1⌉)).prod ((finite_Icc (⌊(c.y - R) / h - 1⌋) (⌈(c.y + R) / h - 1⌉)).prod
    (finite_Icc (⌊(c.z - R) / h - 1⌋) (⌈(c.z + R) / h - 1⌉)))).subset fun k hk => ?_
  have hm : (h * ((k.1 : ℝ) + 1), h * ((k.2.1 : ℝ) + 1), h * ((k.2.2 : ℝ) + 1)) ∈ (cube h k).points := by
    refine ⟨⟨?_, le_refl _⟩, ⟨?_, le_refl _⟩, ?_, le_refl _⟩ <;> simp only [cube] <;> nlinarith
  have hl : (vec (h * ((k.1 : ℝ) + 1), h * ((k.2.1 : ℝ) + 1), h * ((k.2.2 : ℝ) + 1)) - c).len ≤ R := hk hm
  exact ⟨key _ _ ((FarField.abs_x_le _).trans hl), key _ _ ((FarField.abs_y_le _).trans hl), key _ _ ((FarField.abs_z_le _).trans hl)⟩

/-- The cubes of the grid that lie within a ball. -/
noncomputable def cubesIn (s : Sphere) {h : ℝ} (hh : 0 < h) : Finset (ℤ × ℤ × ℤ) := (cubes_finite s.location s.radius hh).toFinset

theorem covers (s : Sphere) {h : ℝ} (hh : 0 < h) : points s.location (s.radius - 2 * h) ⊆ filled (cubesIn s hh) (cube h) := by
  intro q hq
  have pick : ∀ x : ℝ, ∃ k : ℤ, h * k < x ∧ x ≤ h * (k + 1) := fun x => by
    refine ⟨⌈x / h⌉ - 1, ?_, ?_⟩
    · have := Int.ceil_lt_add_one (x / h)
      rw [← sub_lt_iff_lt_add, lt_div_iff₀ hh] at this
      push_cast
      linarith
    · have := Int.le_ceil (x / h)
      rw [div_le_iff₀ hh] at this
      push_cast
      linarith
  obtain ⟨i, i1, i2⟩ := pick q.1
  obtain ⟨j, j1, j2⟩ := pick q.2.1
  obtain ⟨k, k1, k2⟩ := pick q.2.2
  refine mem_biUnion (x := (i, j, k)) ?_ ⟨⟨i1, i2⟩, ⟨j1, j2⟩, k1, k2⟩
  simp only [cubesIn, Set.Finite.coe_toFinset]
  rintro r ⟨⟨a1, a2⟩, ⟨a3, a4⟩, a5, a6⟩
  simp only [cube] at a1 a2 a3 a4 a5 a6
  show (vec r - s.location).len ≤ s.radius
  have hq : (vec q - s.location).len ≤ s.radius - 2 * h := hq
  have hd : (vec r - vec q).len ≤ 2 * h := by
    rw [V3.len_le_iff (by positivity)]
    simp only [V3.dot, vec, V3.sub_x, V3.sub_y, V3.sub_z]
    have e : ∀ {u v t : ℝ}, h * t < u → u ≤ h * (t + 1) → h * t < v → v ≤ h * (t + 1) → (u - v) * (u - v) ≤ h * h := fun p1 p2 p3 p4 =>
      abs_le_iff_mul_self_le.1 (by rw [abs_of_pos hh]; exact abs_le.2 ⟨by linarith, by linarith⟩)
    have := e a1 a2 i1 i2
    have := e a3 a4 j1 j2
    have := e a5 a6 k1 k2
    nlinarith
  have := V3.len_add_le (vec r - vec q) (vec q - s.location)
  rw [sub_add_sub_cancel] at this
  linarith

theorem real_ball (c : V3 ℝ) {a : ℝ} (ha : 0 < a) : volume.real (points c a) = 4 / 3 * π * a ^ 3 := by
  rw [← integral_one c ha]
  simp

/-- **C155.** The cubes of a grid of spacing `h` within a ball stand for the ball: what is left out has at most the volume of a shell of thickness `2h`. -/
theorem cubes_close (s : Sphere) {h : ℝ} (hh : 0 < h) (hR : 2 * h < s.radius) (p : V3 ℝ) :
    Close s.rho (4 / 3 * π * (s.radius ^ 3 - (s.radius - 2 * h) ^ 3)) (potential (cubesIn s hh) (cube h) s.rho p) (s.gravitationalPotential p)
      (field (cubesIn s hh) (cube h) s.rho p) (s.gravitationalField p) := by
  have h0 : 0 < s.radius := by linarith
  have hG : 0 < G := by norm_num [G]
  intro a ha
  obtain ⟨e0, ex, ey, ez⟩ := ball_close s h0 (cubes_apart hh (cubesIn s hh)) p a ha
  have hv : volume.real (symmDiff (filled (cubesIn s hh) (cube h)) (points s.location s.radius)) ≤ 4 / 3 * π * (s.radius ^ 3 - (s.radius - 2 * h) ^ 3) := by
    have sub : points s.location (s.radius - 2 * h) ⊆ points s.location s.radius := fun q hq =>
      (show (vec q - s.location).len ≤ s.radius - 2 * h from hq).trans (by linarith)
    have inn : filled (cubesIn s hh) (cube h) ⊆ points s.location s.radius := by
      refine iUnion₂_subset fun k hk => ?_
      exact ((cubes_finite s.location s.radius hh).mem_toFinset).1 hk
    have hs : symmDiff (filled (cubesIn s hh) (cube h)) (points s.location s.radius) ⊆ points s.location s.radius \ points s.location (s.radius - 2 * h) := by
      rintro q (⟨h1, h2⟩ | ⟨h1, h2⟩)
      · exact absurd (inn h1) h2
      · exact ⟨h1, fun h3 => h2 (covers s hh h3)⟩
    have hfin : volume (points s.location s.radius \ points s.location (s.radius - 2 * h)) ≠ ⊤ :=
      ((measure_mono sdiff_subset).trans_lt (volume_ball s.location h0).lt_top).ne
    refine (measureReal_mono hs hfin).trans (le_of_eq ?_)
    rw [measureReal_sdiff sub (Ball.measurableSet_points _ _) (volume_ball s.location h0), real_ball _ h0, real_ball _ (by linarith)]
    ring
  have m : ∀ {x y : ℝ}, x ≤ y → G * |s.rho| * x ≤ G * |s.rho| * y := fun h => mul_le_mul_of_nonneg_left h (by positivity)
  refine ⟨e0.trans (m ?_), ex.trans (m ?_), ey.trans (m ?_), ez.trans (m ?_)⟩ <;> gcongr

/-- **C155.** Finer and finer cubes come as close to the ball as desired, everywhere at once. -/
theorem cubes_converge (s : Sphere) (h0 : 0 < s.radius) {ε : ℝ} (hε : 0 < ε) :
    ∃ H : ℝ, 0 < H ∧ ∀ h : ℝ, ∀ hh : 0 < h, h < H → ∀ p : V3 ℝ,
      |potential (cubesIn s hh) (cube h) s.rho p - s.gravitationalPotential p| < ε ∧
      |(field (cubesIn s hh) (cube h) s.rho p).x - (s.gravitationalField p).x| < ε ∧
      |(field (cubesIn s hh) (cube h) s.rho p).y - (s.gravitationalField p).y| < ε ∧
      |(field (cubesIn s hh) (cube h) s.rho p).z - (s.gravitationalField p).z| < ε := by
  have hG : 0 < G := by norm_num [G]
  set k := G * |s.rho| with hk
  have hk0 : 0 ≤ k := by positivity
  have hpi := pi_pos
  -- a length `a` for which the part nearby is small
  set a : ℝ := min 1 (ε / (8 * π * (k + 1))) with ha
  have ha0 : 0 < a := by positivity
  have ha1 : a ≤ 1 := min_le_left _ _
  have hae : k * (4 * π * a) ≤ ε / 2 := by
    have h1 : a ≤ ε / (8 * π * (k + 1)) := min_le_right _ _
    rw [le_div_iff₀ (by positivity)] at h1
    nlinarith [mul_nonneg hk0 (mul_nonneg hpi.le ha0.le), mul_pos hpi ha0]
  have hc : Continuous fun h : ℝ => k * (4 / 3 * π * (s.radius ^ 3 - (s.radius - 2 * h) ^ 3) / a ^ 2) := by fun_prop
  have ht : ∀ᶠ h in nhds (0 : ℝ), k * (4 / 3 * π * (s.radius ^ 3 - (s.radius - 2 * h) ^ 3) / a ^ 2) < ε / 2 :=
    hc.continuousAt.eventually_lt_const (by simp [hε])
  obtain ⟨H, hH, hb⟩ := Metric.eventually_nhds_iff.1 ht
  refine ⟨min H (s.radius / 2), by positivity, fun h hh hlt p => ?_⟩
  have hv := hb (y := h) (by rw [dist_zero_right, norm_of_nonneg hh.le]; exact hlt.trans_le (min_le_left _ _))
  have hr : 2 * h < s.radius := by linarith [hlt.trans_le (min_le_right H (s.radius / 2))]
  obtain ⟨e0, ex, ey, ez⟩ := cubes_close s hh hr p a ha0
  set v := 4 / 3 * π * (s.radius ^ 3 - (s.radius - 2 * h) ^ 3) with hvd
  have v0 : 0 ≤ v := by
    have : (s.radius - 2 * h) ^ 3 ≤ s.radius ^ 3 := pow_le_pow_left₀ (by linarith) (by linarith) 3
    have : 0 ≤ s.radius ^ 3 - (s.radius - 2 * h) ^ 3 := by linarith
    positivity
  have g : k * (4 * π * a + v / a ^ 2) < ε := by rw [mul_add]; linarith
  have le : k * (2 * π * a ^ 2 + v / a) ≤ k * (4 * π * a + v / a ^ 2) := by
    refine mul_le_mul_of_nonneg_left (add_le_add ?_ ?_) hk0
    · have : a ^ 2 ≤ a := by nlinarith
      nlinarith
    · refine div_le_div_of_nonneg_left v0 (by positivity) (by nlinarith)
  exact ⟨e0.trans_lt (le.trans_lt g), ex.trans_lt g, ey.trans_lt g, ez.trans_lt g⟩

/-- Cubes of side one within a ball of radius three. -/
example : Apart (cubesIn ⟨3, 1, 0⟩ one_pos) (cube 1) ∧ 2 * (1 : ℝ) < 3 := ⟨cubes_apart one_pos _, by norm_num⟩

end Verif.Voxels
