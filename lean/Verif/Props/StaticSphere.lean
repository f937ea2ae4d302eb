import Verif.Model.StaticSphere
import Verif.Lemmas.SphereRegion
import Verif.Lemmas.Radial
import Mathlib.Topology.Order.LeftRightNhds
import Mathlib.Topology.Algebra.GroupWithZero

/-! # C35–C37, C68: sphere in a uniform field -/

namespace Verif.Sphere

open V3 Filter Topology

/-! ## The `field` argument -/

/-- What the four kinds of call return, in words of a total and a primary part: the secondary part is what is left. -/
def Delivers {α : Type*} [AddCommGroup α] (method : String → Parts α) (total primary : α) : Prop :=
  ∃ secondary, total = primary + secondary ∧
    method "total" = .one total ∧ method "primary" = .one primary ∧ method "secondary" = .one secondary ∧
    ∀ w, w ≠ "total" → w ≠ "primary" → w ≠ "secondary" → method w = .triple total primary secondary

private theorem select_delivers {α : Type*} [AddCommGroup α] (total primary : α) :
    Delivers (fun w => select w total primary) total primary := by
  refine ⟨total - primary, by abel, rfl, rfl, rfl, fun w h1 h2 h3 => ?_⟩
  simp [select, h1, h2, h3]

/-- **C35.** The three methods of the electrostatic sphere deliver total, primary and secondary parts with
total = primary + secondary. -/
theorem electro_parts (s : Electro) (p : V3 ℝ) :
    Delivers (s.potential p) (s.potentialTotal p) (s.potentialPrimary p) ∧
    Delivers (s.electricField p) (s.fieldTotal p) (s.fieldPrimary p) ∧
    Delivers (s.currentDensity p) (s.currentTotal p) (s.currentPrimary p) :=
  ⟨select_delivers _ _, select_delivers _ _, select_delivers _ _⟩

/-- **C36.** The same for the magnetostatic sphere. -/
theorem magneto_parts (s : Magneto) (p : V3 ℝ) :
    Delivers (s.potential p) (s.potentialTotal p) (s.potentialPrimary p) ∧
    Delivers (s.magneticField p) (s.fieldTotal p) (s.fieldPrimary p) ∧
    Delivers (s.magneticFluxDensity p) (s.fluxTotal p) (s.fluxPrimary p) :=
  ⟨select_delivers _ _, select_delivers _ _, select_delivers _ _⟩

/-! ## Electrostatic sphere -/

/-- The electric field that belongs to the potential outside: the uniform field plus a dipole of the right size
(specification, not code). -/
noncomputable def dipoleField (e0 : V3 ℝ) (c R : ℝ) (loc p : V3 ℝ) : V3 ℝ :=
  let r := (p - loc).len
  (1 - c * R ^ 3 / r ^ 3) • e0 + (3 * c * R ^ 3 * (e0.dot (p - loc)) / r ^ 5) • (p - loc)

/-- The contrast factor `(σ₁ - σ₀) / (σ₁ + 2 σ₀)`. -/
noncomputable def Electro.contrast (s : Electro) : ℝ :=
  (s.sigmaSphere - s.sigmaBackground) / (s.sigmaSphere + 2 * s.sigmaBackground)

private theorem grad_exterior (e0 : V3 ℝ) (c R : ℝ) (loc p : V3 ℝ) (h : (p - loc).len ≠ 0) :
    HasGrad (fun q => (q - loc).dot (-e0) * (1 - c * R ^ 3 / (q - loc).len ^ 3))
      (-(dipoleField e0 c R loc p)) p := by
  have hb : HasDerivAt (fun r : ℝ => 1 - c * R ^ 3 / r ^ 3) (3 * (c * R ^ 3) / (p - loc).len ^ 4)
      (p - loc).len := by
    refine ((hasDerivAt_const_div_pow (c * R ^ 3) 3 h).const_sub 1).congr_deriv ?_
    push_cast; ring
  have g := ((hasGrad_dot (-e0) loc p).mul (hasGrad_radial loc p h hb))
  have e : (fun q : V3 ℝ => (q - loc).dot (-e0) * (1 - c * R ^ 3 / (q - loc).len ^ 3)) =
      fun q => (-e0).dot (q - loc) * (1 - c * R ^ 3 / (q - loc).len ^ 3) := by
    funext q; congr 1; simp only [V3.dot]; ring
  rw [e]
  refine g.congr ?_
  ext <;> simp [dipoleField, V3.dot] <;> field_simp <;> ring

private theorem grad_interior (e0 : V3 ℝ) (k : ℝ) (loc p : V3 ℝ) :
    HasGrad (fun q => (q - loc).dot (-e0) * k) (-(k • e0)) p := by
  have g := (hasGrad_dot (-e0) loc p).mul_const k
  have e : (fun q : V3 ℝ => (q - loc).dot (-e0) * k) = fun q => (-e0).dot (q - loc) * k := by
    funext q; congr 1; simp only [V3.dot]; ring
  rw [e]
  refine g.congr ?_
  ext <;> simp <;> ring

/-- Minus the gradient of the potential, outside: uniform field plus dipole. -/
theorem electro_grad_outside (s : Electro) (hR : 0 ≤ s.radius) (p : V3 ℝ)
    (h : s.radius < (p - s.location).len) :
    HasGrad s.potentialTotal (-(dipoleField s.primaryField s.contrast s.radius s.location p)) p := by
  refine (grad_exterior _ _ _ _ _ (lt_of_le_of_lt hR h).ne').congr_of_lines fun v => ?_
  filter_upwards [eventually_lt_len s.location p s.radius hR h v] with t ht
  simp only [Electro.potentialTotal, if_pos ht, Electro.contrast]

/-- **C35 (part that holds).** Inside the sphere the field is minus the gradient of the potential. -/
theorem electro_field_inside_partial (s : Electro) (p : V3 ℝ) (h : (p - s.location).len < s.radius) :
    HasGrad s.potentialTotal (-(s.fieldTotal p)) p := by
  have hn : ¬ (p - s.location).len > s.radius := not_lt.2 h.le
  refine ((grad_interior s.primaryField
    (3 * s.sigmaBackground / (s.sigmaSphere + 2 * s.sigmaBackground)) s.location p).congr ?_).congr_of_lines
    fun v => ?_
  · simp only [Electro.fieldTotal, if_neg hn]
    ext <;> simp
  · filter_upwards [eventually_len_lt s.location p s.radius h v] with t ht
    simp only [Electro.potentialTotal]
    rw [if_neg (not_lt.2 ht.le)]
    ring

/-- **C35.** Outside the sphere the field returned is minus the gradient of the potential exactly when there is no
contrast, no sphere, the point lies in the equatorial plane, or its distance from the centre happens to be
`radius²`. -/
theorem electro_field_outside_iff (s : Electro) (hR : 0 ≤ s.radius)
    (hs : 0 < s.sigmaSphere) (hb : 0 < s.sigmaBackground) (p : V3 ℝ)
    (h : s.radius < (p - s.location).len) :
    HasGrad s.potentialTotal (-(s.fieldTotal p)) p ↔
      s.sigmaSphere = s.sigmaBackground ∨ s.radius = 0 ∨ (p - s.location).dot s.primaryField = 0 ∨
        (p - s.location).len = s.radius ^ 2 := by
  have hg := electro_grad_outside s hR p h
  have hr : (p - s.location).len ≠ 0 := (lt_of_le_of_lt hR h).ne'
  have hd : s.sigmaSphere + 2 * s.sigmaBackground ≠ 0 := by positivity
  have key : dipoleField s.primaryField s.contrast s.radius s.location p =
      s.fieldTotal p + (3 * s.contrast * (p - s.location).dot s.primaryField * s.radius *
        (s.radius ^ 2 - (p - s.location).len) / (p - s.location).len ^ 5) • (p - s.location) := by
    simp only [Electro.fieldTotal, if_pos h, dipoleField, Electro.contrast]
    ext <;> simp [V3.dot] <;> field_simp <;> ring
  have hp : p - s.location ≠ 0 := fun e => hr (len_eq_zero.2 e)
  constructor
  · intro hh
    have e := hg.unique hh
    rw [neg_inj, key, add_eq_left] at e
    have : 3 * s.contrast * (p - s.location).dot s.primaryField * s.radius *
        (s.radius ^ 2 - (p - s.location).len) / (p - s.location).len ^ 5 = 0 := by
      by_contra hne
      apply hp
      ext
      · simpa [hne] using congrArg V3.x e
      · simpa [hne] using congrArg V3.y e
      · simpa [hne] using congrArg V3.z e
    rw [div_eq_zero_iff] at this
    have this := this.resolve_right (pow_ne_zero 5 hr)
    rcases mul_eq_zero.1 this with h1 | h1
    · rcases mul_eq_zero.1 h1 with h2 | h2
      · rcases mul_eq_zero.1 h2 with h3 | h3
        · left
          have : s.contrast = 0 := by linarith
          rw [Electro.contrast, div_eq_zero_iff] at this
          linarith [this.resolve_right hd]
        · exact Or.inr (Or.inr (Or.inl h3))
      · exact Or.inr (Or.inl h2)
    · exact Or.inr (Or.inr (Or.inr (by linarith)))
  · intro hh
    have e : dipoleField s.primaryField s.contrast s.radius s.location p = s.fieldTotal p := by
      rw [key, add_eq_left]
      rcases hh with h1 | h1 | h1 | h1
      · have : s.contrast = 0 := by rw [Electro.contrast, h1]; simp
        rw [this]; simp
      · rw [h1]; simp
      · rw [h1]; simp
      · rw [h1]; simp
    rw [← e]; exact hg

/-- A conducting sphere of radius two in a unit field along `x`. -/
noncomputable def witness : Electro := ⟨2, 10, 1, ⟨1, 0, 0⟩, ⟨0, 0, 0⟩⟩

/-- **C35 is false of the code**: an ordinary sphere and a point outside where the returned field is not minus the
gradient of the returned potential. -/
theorem electro_field_wrong :
    ∃ (s : Electro) (p : V3 ℝ), 0 < s.radius ∧ 0 < s.sigmaSphere ∧ 0 < s.sigmaBackground ∧
      s.radius < (p - s.location).len ∧ ¬ HasGrad s.potentialTotal (-(s.fieldTotal p)) p := by
  have hl : ((⟨3, 0, 0⟩ : V3 ℝ) - ⟨0, 0, 0⟩).len = 3 := by
    simp only [V3.len, sub_x, sub_y, sub_z]
    rw [show ((3 - 0) ^ 2 + (0 - 0) ^ 2 + (0 - 0) ^ 2 : ℝ) = 3 ^ 2 by norm_num]
    exact Real.sqrt_sq (by norm_num)
  refine ⟨witness, ⟨3, 0, 0⟩, ?_, ?_, ?_, ?_, ?_⟩
  · norm_num [witness]
  · norm_num [witness]
  · norm_num [witness]
  · simp only [witness, hl]; norm_num
  · rw [electro_field_outside_iff witness (by norm_num [witness]) (by norm_num [witness])
      (by norm_num [witness]) _ (by simp only [witness, hl]; norm_num)]
    simp only [witness, hl]
    norm_num [V3.dot]

/-! ## The potential solves the boundary value problem -/

/-- A unit direction reaches distance `t` from the centre at parameter `t`. -/
private theorem len_ray (loc n : V3 ℝ) (hn : n.len = 1) {t : ℝ} (ht : 0 ≤ t) :
    (loc + t • n - loc).len = t := by
  have h2 := len_sq n
  rw [hn] at h2
  rw [add_sub_cancel_left, V3.len, Real.sqrt_eq_iff_mul_self_eq (by positivity) ht]
  simp only [smul_x, smul_y, smul_z, smul_eq_mul]
  linear_combination -t ^ 2 * h2

private theorem dot_ray (loc n e : V3 ℝ) (t : ℝ) : (loc + t • n - loc).dot e = t * n.dot e := by
  rw [add_sub_cancel_left]; simp only [V3.dot, smul_x, smul_y, smul_z, smul_eq_mul]; ring

/-- **C35.** The total potential is continuous across the surface: along every radius, approached from outside,
it tends to the value on the surface. -/
theorem electro_potential_continuous (s : Electro) (hR : 0 < s.radius) (hs : 0 < s.sigmaSphere)
    (hb : 0 < s.sigmaBackground) (n : V3 ℝ) (hn : n.len = 1) :
    Tendsto (fun t : ℝ => s.potentialTotal (s.location + t • n)) (𝓝[>] s.radius)
      (𝓝 (s.potentialTotal (s.location + s.radius • n))) := by
  have hd : s.sigmaSphere + 2 * s.sigmaBackground ≠ 0 := by positivity
  have h1 : Tendsto (fun t : ℝ => (t * n.dot (-s.primaryField)) * (1 - s.contrast * s.radius ^ 3 / t ^ 3))
      (𝓝[>] s.radius) (𝓝 ((s.radius * n.dot (-s.primaryField)) *
        (1 - s.contrast * s.radius ^ 3 / s.radius ^ 3))) := by
    refine tendsto_nhdsWithin_of_tendsto_nhds (ContinuousAt.tendsto ?_)
    exact (continuousAt_id.mul continuousAt_const).mul (continuousAt_const.sub
      (continuousAt_const.div (continuousAt_id.pow 3) (pow_ne_zero 3 hR.ne')))
  have e : s.potentialTotal (s.location + s.radius • n) =
      (s.radius * n.dot (-s.primaryField)) * (1 - s.contrast * s.radius ^ 3 / s.radius ^ 3) := by
    simp only [Electro.potentialTotal, len_ray _ _ hn hR.le, dot_ray, lt_irrefl, if_false,
      Electro.contrast]
    have := hR.ne'
    field_simp
    ring
  rw [e]
  refine h1.congr' ?_
  filter_upwards [self_mem_nhdsWithin] with t (ht : s.radius < t)
  simp only [Electro.potentialTotal, len_ray _ _ hn (hR.trans ht).le, dot_ray, if_pos ht, gt_iff_lt,
    Electro.contrast]

/-- **C68.** The potential is harmonic on both sides: its gradient field has zero divergence. -/
theorem electro_potential_harmonic (s : Electro) (p : V3 ℝ) (hR : 0 ≤ s.radius)
    (hp : (p - s.location).len ≠ s.radius) :
    ∃ g : V3 ℝ → V3 ℝ, (∀ q, (q - s.location).len ≠ s.radius → HasGrad s.potentialTotal (g q) q) ∧
      HasDiv g 0 p := by
  classical
  refine ⟨fun q => if s.radius < (q - s.location).len then
      -(dipoleField s.primaryField s.contrast s.radius s.location q) else -(s.fieldTotal q), ?_, ?_⟩
  · intro q hq
    by_cases h : s.radius < (q - s.location).len
    · simp only [if_pos h]; exact electro_grad_outside s hR q h
    · simp only [if_neg h]
      exact electro_field_inside_partial s q (lt_of_le_of_ne (not_lt.1 h) hq)
  · rcases lt_or_gt_of_ne hp with h | h
    · refine (hasDiv_const (-(s.primaryField.map (fun c => 3 * s.sigmaBackground /
        (s.sigmaSphere + 2 * s.sigmaBackground) * c)) : V3 ℝ) p).congr_lines fun v => ?_
      filter_upwards [eventually_len_lt s.location p s.radius h v] with t ht
      have hn : ¬ s.radius < (p + t • v - s.location).len := not_lt.2 ht.le
      simp only [if_neg hn, Electro.fieldTotal, gt_iff_lt]
    · have hr : (p - s.location).len ≠ 0 := (lt_of_le_of_lt hR h).ne'
      have hβ : HasDerivAt (fun r : ℝ => -1 + s.contrast * s.radius ^ 3 / r ^ 3)
          (-(3 * (s.contrast * s.radius ^ 3)) / (p - s.location).len ^ 4) (p - s.location).len := by
        refine ((hasDerivAt_const_div_pow (s.contrast * s.radius ^ 3) 3 hr).const_add (-1)).congr_deriv ?_
        push_cast; ring
      have hd := dipF_div (o := s.primaryField) hr
        (hasDerivAt_const_div_pow (-(3 * s.contrast * s.radius ^ 3)) 5 hr) hβ
      have hz : HasDiv (dipF s.primaryField s.location (fun r => -(3 * s.contrast * s.radius ^ 3) / r ^ 5)
          (fun r => -1 + s.contrast * s.radius ^ 3 / r ^ 3)) 0 p := by
        obtain ⟨J, hJ, e⟩ := hd
        refine ⟨J, hJ, e.trans ?_⟩
        simp only [smul_eq_mul]
        push_cast
        field_simp
        ring
      refine hz.congr_lines fun v => ?_
      filter_upwards [eventually_lt_len s.location p s.radius hR h v] with t ht
      have ht' : (p + t • v - s.location).len ≠ 0 := (lt_of_le_of_lt hR ht).ne'
      rw [if_pos ht]
      ext <;> simp only [dipoleField, dipF, neg_x, neg_y, neg_z, add_x, add_y, add_z, smul_x, smul_y, smul_z,
        sv_x, sv_y, sv_z, smul_eq_mul] <;> ring

/-- The normal component of the field that belongs to the potential, just outside. -/
private theorem dipoleField_ray (e0 : V3 ℝ) (c R : ℝ) (loc n : V3 ℝ) (hn : n.len = 1) {t : ℝ} (ht : 0 < t) :
    n.dot (dipoleField e0 c R loc (loc + t • n)) = n.dot e0 * (1 + 2 * c * R ^ 3 / t ^ 3) := by
  have h2 := len_sq n
  rw [hn] at h2
  have e : e0.dot (loc + t • n - loc) = t * n.dot e0 := by
    rw [← dot_ray loc n e0 t]; simp only [V3.dot]; ring
  have ht' := ht.ne'
  simp only [dipoleField, len_ray _ _ hn ht.le, e]
  rw [add_sub_cancel_left]
  have : n.dot ((1 - c * R ^ 3 / t ^ 3) • e0 + (3 * c * R ^ 3 * (t * n.dot e0) / t ^ 5) • t • n) =
      (1 - c * R ^ 3 / t ^ 3) * n.dot e0 + (3 * c * R ^ 3 * (t * n.dot e0) / t ^ 5) * t *
        (n.x ^ 2 + n.y ^ 2 + n.z ^ 2) := by
    simp only [V3.dot, add_x, add_y, add_z, smul_x, smul_y, smul_z, smul_eq_mul]; ring
  rw [this, ← h2]
  field_simp
  ring

private theorem interface_value (s : Electro) (hR : 0 < s.radius) (hs : 0 < s.sigmaSphere)
    (hb : 0 < s.sigmaBackground) (n : V3 ℝ) (hn : n.len = 1) (g : V3 ℝ → V3 ℝ)
    (hg : ∀ q, (q - s.location).len ≠ s.radius → HasGrad s.potentialTotal (g q) q) :
    let L := 3 * s.sigmaSphere * s.sigmaBackground / (s.sigmaSphere + 2 * s.sigmaBackground) *
      n.dot s.primaryField
    Tendsto (fun t : ℝ => s.sigmaBackground * n.dot (-(g (s.location + t • n)))) (𝓝[>] s.radius) (𝓝 L) ∧
    Tendsto (fun t : ℝ => s.sigmaSphere * n.dot (-(g (s.location + t • n)))) (𝓝[<] s.radius) (𝓝 L) := by
  have hd : s.sigmaSphere + 2 * s.sigmaBackground ≠ 0 := by positivity
  intro L
  refine ⟨?_, ?_⟩
  · have h1 : Tendsto (fun t : ℝ => s.sigmaBackground * (n.dot s.primaryField *
        (1 + 2 * s.contrast * s.radius ^ 3 / t ^ 3))) (𝓝[>] s.radius)
        (𝓝 (s.sigmaBackground * (n.dot s.primaryField *
          (1 + 2 * s.contrast * s.radius ^ 3 / s.radius ^ 3)))) := by
      refine tendsto_nhdsWithin_of_tendsto_nhds (ContinuousAt.tendsto ?_)
      exact continuousAt_const.mul (continuousAt_const.mul (continuousAt_const.add
        (continuousAt_const.div (continuousAt_id.pow 3) (pow_ne_zero 3 hR.ne'))))
    have e : s.sigmaBackground * (n.dot s.primaryField *
        (1 + 2 * s.contrast * s.radius ^ 3 / s.radius ^ 3)) =
        L := by
      have := hR.ne'
      simp only [Electro.contrast, L]
      field_simp
      ring
    rw [← e]
    refine h1.congr' ?_
    filter_upwards [self_mem_nhdsWithin] with t (ht : s.radius < t)
    have h0 := hR.trans ht
    have hl := len_ray s.location n hn h0.le
    have hh := (hg _ (by rw [hl]; exact ht.ne')).unique
      (electro_grad_outside s hR.le (s.location + t • n) (by rw [hl]; exact ht))
    rw [hh, neg_neg, dipoleField_ray _ _ _ _ _ hn h0]
  · refine tendsto_const_nhds.congr' ?_
    have hpos : ∀ᶠ t : ℝ in 𝓝[<] s.radius, 0 < t :=
      mem_nhdsWithin_of_mem_nhds (lt_mem_nhds hR)
    filter_upwards [self_mem_nhdsWithin, hpos] with t (ht : t < s.radius) h0
    have hl := len_ray s.location n hn h0.le
    have hlt : (s.location + t • n - s.location).len < s.radius := by rw [hl]; exact ht
    have hh := (hg _ hlt.ne).unique (electro_field_inside_partial s (s.location + t • n) hlt)
    rw [hh, neg_neg]
    have hnn : ¬ (s.location + t • n - s.location).len > s.radius := not_lt.2 hlt.le
    simp only [Electro.fieldTotal, if_neg hnn]
    simp only [V3.dot, map_x, map_y, map_z, L]
    field_simp

/-- **C68.** The current density `-σ ∂V/∂n` belonging to the potential has the same normal component on both sides
of the surface. -/
theorem electro_potential_interface (s : Electro) (hR : 0 < s.radius) (hs : 0 < s.sigmaSphere)
    (hb : 0 < s.sigmaBackground) (n : V3 ℝ) (hn : n.len = 1) (g : V3 ℝ → V3 ℝ)
    (hg : ∀ q, (q - s.location).len ≠ s.radius → HasGrad s.potentialTotal (g q) q) :
    ∃ L : ℝ,
      Tendsto (fun t : ℝ => s.sigmaBackground * n.dot (-(g (s.location + t • n)))) (𝓝[>] s.radius) (𝓝 L) ∧
      Tendsto (fun t : ℝ => s.sigmaSphere * n.dot (-(g (s.location + t • n)))) (𝓝[<] s.radius) (𝓝 L) := by
  exact ⟨_, interface_value s hR hs hb n hn g hg⟩

/-- **C68.** Far away the secondary potential vanishes: the field tends to the primary one. -/
theorem electro_potential_far (s : Electro) (hR : 0 ≤ s.radius) (n : V3 ℝ) (hn : n.len = 1) :
    Tendsto (fun t : ℝ => s.potentialTotal (s.location + t • n) - s.potentialPrimary (s.location + t • n))
      atTop (𝓝 0) := by
  have h1 : Tendsto (fun t : ℝ => (-(n.dot (-s.primaryField)) * (s.contrast * s.radius ^ 3)) / t ^ 2)
      atTop (𝓝 0) := tendsto_const_nhds.div_atTop (tendsto_pow_atTop (by norm_num))
  refine h1.congr' ?_
  filter_upwards [eventually_gt_atTop s.radius] with t ht
  have h0 : 0 < t := lt_of_le_of_lt hR ht
  simp only [Electro.potentialTotal, Electro.potentialPrimary, len_ray _ _ hn h0.le, dot_ray, if_pos ht,
    gt_iff_lt, Electro.contrast]
  field_simp
  ring

/-- **C68.** On the surface the charge density is `ε₀` times the jump of the normal field `-∂V/∂n`. -/
theorem electro_charge_is_jump (eps0 : ℝ) (s : Electro) (hR : 0 < s.radius) (hs : 0 < s.sigmaSphere)
    (hb : 0 < s.sigmaBackground) (dr : Option ℝ) (hdr : ∀ d, dr = some d → 0 < d)
    (n : V3 ℝ) (hn : n.len = 1) (g : V3 ℝ → V3 ℝ)
    (hg : ∀ q, (q - s.location).len ≠ s.radius → HasGrad s.potentialTotal (g q) q) :
    ∃ outer inner : ℝ,
      Tendsto (fun t : ℝ => n.dot (-(g (s.location + t • n)))) (𝓝[>] s.radius) (𝓝 outer) ∧
      Tendsto (fun t : ℝ => n.dot (-(g (s.location + t • n)))) (𝓝[<] s.radius) (𝓝 inner) ∧
      s.chargeDensity eps0 (s.location + s.radius • n) dr = eps0 * (outer - inner) := by
  obtain ⟨h1, h2⟩ := interface_value s hR hs hb n hn g hg
  have h1' := h1.const_mul s.sigmaBackground⁻¹
  have h2' := h2.const_mul s.sigmaSphere⁻¹
  simp only [inv_mul_cancel_left₀ hb.ne'] at h1'
  simp only [inv_mul_cancel_left₀ hs.ne'] at h2'
  refine ⟨_, _, h1', h2', ?_⟩
  have hpos : 0 < dr.getD (0.05 * s.radius) := by
    cases h : dr with
    | none => simp only [Option.getD_none]; positivity
    | some d => exact hdr d h
  have hd : s.sigmaSphere + 2 * s.sigmaBackground ≠ 0 := by positivity
  have := hR.ne'
  simp only [Electro.chargeDensity, len_ray _ _ hn hR.le, dot_ray]
  rw [if_pos ⟨by linarith, by linarith⟩]
  field_simp

/-- **C68.** Away from the surface shell of thickness `dr` the charge density is zero. -/
theorem electro_charge_off_shell (eps0 : ℝ) (s : Electro) (p : V3 ℝ) (dr : Option ℝ)
    (h : dr.getD (0.05 * s.radius) / 2 ≤ |(p - s.location).len - s.radius|) :
    s.chargeDensity eps0 p dr = 0 := by
  simp only [Electro.chargeDensity]
  rw [if_neg]
  rintro ⟨h1, h2⟩
  rcases le_abs.1 h with h3 | h3 <;> linarith

/-! ## C37: normal current through the surface -/

/-- **C37.** The normal component of the *returned* current density tends, from outside, to the value on the surface
exactly when there is no contrast, the normal field vanishes there, or the radius is one (metre). -/
theorem electro_normal_current_iff (s : Electro) (hR : 0 < s.radius) (hs : 0 < s.sigmaSphere)
    (hb : 0 < s.sigmaBackground) (n : V3 ℝ) (hn : n.len = 1) :
    Tendsto (fun t : ℝ => n.dot (s.currentTotal (s.location + t • n))) (𝓝[>] s.radius)
      (𝓝 (n.dot (s.currentTotal (s.location + s.radius • n)))) ↔
      s.sigmaSphere = s.sigmaBackground ∨ n.dot s.primaryField = 0 ∨ s.radius = 1 := by
  have hd : s.sigmaSphere + 2 * s.sigmaBackground ≠ 0 := by positivity
  have hR' := hR.ne'
  have hb' := hb.ne'
  have h2 := len_sq n
  rw [hn] at h2
  -- the limit from outside
  have h1 : Tendsto (fun t : ℝ => s.sigmaBackground * (n.dot s.primaryField *
      (1 - s.contrast * s.radius ^ 3 / t ^ 3 + 3 * s.contrast * s.radius / t ^ 2))) (𝓝[>] s.radius)
      (𝓝 (s.sigmaBackground * (n.dot s.primaryField *
        (1 - s.contrast * s.radius ^ 3 / s.radius ^ 3 + 3 * s.contrast * s.radius / s.radius ^ 2)))) := by
    refine tendsto_nhdsWithin_of_tendsto_nhds (ContinuousAt.tendsto ?_)
    exact continuousAt_const.mul (continuousAt_const.mul ((continuousAt_const.sub
      (continuousAt_const.div (continuousAt_id.pow 3) (pow_ne_zero 3 hR'))).add
      (continuousAt_const.div (continuousAt_id.pow 2) (pow_ne_zero 2 hR'))))
  have h1' : Tendsto (fun t : ℝ => n.dot (s.currentTotal (s.location + t • n))) (𝓝[>] s.radius)
      (𝓝 (s.sigmaBackground * (n.dot s.primaryField *
        (1 - s.contrast * s.radius ^ 3 / s.radius ^ 3 + 3 * s.contrast * s.radius / s.radius ^ 2)))) := by
    refine h1.congr' ?_
    filter_upwards [self_mem_nhdsWithin] with t (ht : s.radius < t)
    have h0 := hR.trans ht
    have ht' := h0.ne'
    simp only [Electro.currentTotal, Electro.fieldTotal, len_ray _ _ hn h0.le, dot_ray, gt_iff_lt, if_pos ht,
      if_neg (not_le.2 ht)]
    rw [add_sub_cancel_left]
    have : n.dot (((s.primaryField.map fun c => c * (1 - s.contrast * s.radius ^ 3 / t ^ 3)) +
        (t • n).map fun c => 3 * (t * n.dot s.primaryField) * s.contrast * s.radius * c / t ^ 4).map
          (fun x => s.sigmaBackground * x)) =
        s.sigmaBackground * (n.dot s.primaryField * (1 - s.contrast * s.radius ^ 3 / t ^ 3) +
          3 * (t * n.dot s.primaryField) * s.contrast * s.radius * t / t ^ 4 *
          (n.x ^ 2 + n.y ^ 2 + n.z ^ 2)) := by
      simp only [V3.dot, map_x, map_y, map_z, add_x, add_y, add_z, smul_x, smul_y, smul_z, smul_eq_mul]
      ring
    rw [← h2] at this
    rw [show (s.sigmaSphere - s.sigmaBackground) / (s.sigmaSphere + 2 * s.sigmaBackground) = s.contrast from rfl,
      this]
    field_simp
  -- the value on the surface
  have hv : n.dot (s.currentTotal (s.location + s.radius • n)) =
      3 * s.sigmaSphere * s.sigmaBackground / (s.sigmaSphere + 2 * s.sigmaBackground) *
        n.dot s.primaryField := by
    simp only [Electro.currentTotal, Electro.fieldTotal, len_ray _ _ hn hR.le, lt_irrefl, if_false,
      le_refl, if_true]
    simp only [V3.dot, map_x, map_y, map_z]
    field_simp
  have hdiff : s.sigmaBackground * (n.dot s.primaryField *
      (1 - s.contrast * s.radius ^ 3 / s.radius ^ 3 + 3 * s.contrast * s.radius / s.radius ^ 2)) -
      3 * s.sigmaSphere * s.sigmaBackground / (s.sigmaSphere + 2 * s.sigmaBackground) * n.dot s.primaryField =
      3 * s.sigmaBackground * s.contrast * n.dot s.primaryField * (1 - s.radius) / s.radius := by
    simp only [Electro.contrast]
    field_simp
    ring
  constructor
  · intro h
    rw [hv] at h
    have e := tendsto_nhds_unique h1' h
    rw [e, sub_self] at hdiff
    have h3 := (div_eq_zero_iff.1 hdiff.symm).resolve_right hR'
    rcases mul_eq_zero.1 h3 with h4 | h4
    · rcases mul_eq_zero.1 h4 with h5 | h5
      · left
        have : s.contrast = 0 := by
          rcases mul_eq_zero.1 h5 with h6 | h6
          · exact absurd h6 (by positivity)
          · exact h6
        rw [Electro.contrast, div_eq_zero_iff] at this
        linarith [this.resolve_right hd]
      · exact Or.inr (Or.inl h5)
    · exact Or.inr (Or.inr (by linarith))
  · intro h
    rw [hv]
    have : 3 * s.sigmaBackground * s.contrast * n.dot s.primaryField * (1 - s.radius) / s.radius = 0 := by
      rcases h with h | h | h
      · have : s.contrast = 0 := by rw [Electro.contrast, h]; simp
        rw [this]; simp
      · rw [h]; simp
      · rw [h]; simp
    rw [this, sub_eq_zero] at hdiff
    rw [← hdiff]
    exact h1'

/-- **C37 is false of the code**: for a sphere of radius two the returned current jumps at the pole. -/
theorem electro_normal_current_wrong :
    ∃ (s : Electro) (n : V3 ℝ), 0 < s.radius ∧ 0 < s.sigmaSphere ∧ 0 < s.sigmaBackground ∧ n.len = 1 ∧
      ¬ Tendsto (fun t : ℝ => n.dot (s.currentTotal (s.location + t • n))) (𝓝[>] s.radius)
        (𝓝 (n.dot (s.currentTotal (s.location + s.radius • n)))) := by
  have hn : (⟨1, 0, 0⟩ : V3 ℝ).len = 1 := by simp [V3.len]
  refine ⟨witness, ⟨1, 0, 0⟩, ?_, ?_, ?_, hn, ?_⟩
  · norm_num [witness]
  · norm_num [witness]
  · norm_num [witness]
  · rw [electro_normal_current_iff witness (by norm_num [witness]) (by norm_num [witness])
      (by norm_num [witness]) _ hn]
    norm_num [witness, V3.dot]

/-- **C35.** The current density is the local conductivity times the field, for each returned part. -/
theorem electro_current_eq (s : Electro) (p : V3 ℝ) :
    ((p - s.location).len ≤ s.radius → s.currentTotal p = s.sigmaSphere • s.fieldTotal p) ∧
    (s.radius < (p - s.location).len → s.currentTotal p = s.sigmaBackground • s.fieldTotal p) ∧
    s.currentPrimary p = s.sigmaBackground • s.primaryField ∧ s.fieldPrimary p = s.primaryField ∧
    HasGrad s.potentialPrimary (-s.primaryField) p := by
  refine ⟨fun h => ?_, fun h => ?_, ?_, ?_, ?_⟩
  · simp only [Electro.currentTotal, if_pos h]; rfl
  · simp only [Electro.currentTotal, if_neg (not_le.2 h)]; rfl
  · simp only [Electro.currentPrimary, Electro.fieldPrimary, zero_add]; rfl
  · simp only [Electro.fieldPrimary, zero_add]
  · have := grad_interior s.primaryField 1 s.location p
    simp only [mul_one, one_smul] at this
    exact this

/-! ## Magnetostatic sphere: the same formulas with permeabilities -/

/-- The electrostatic sphere with the same numbers. -/
def Magneto.toElectro (s : Magneto) : Electro :=
  ⟨s.radius, s.muSphere, s.muBackground, s.primaryField, s.location⟩

theorem magneto_potential_eq (s : Magneto) : s.potentialTotal = s.toElectro.potentialTotal := rfl
theorem magneto_field_eq (s : Magneto) : s.fieldTotal = s.toElectro.fieldTotal := rfl
theorem magneto_flux_eq (s : Magneto) : s.fluxTotal = s.toElectro.currentTotal := rfl

/-- **C36 (part that holds).** Inside, `H = -∇V`. -/
theorem magneto_field_inside_partial (s : Magneto) (p : V3 ℝ) (h : (p - s.location).len < s.radius) :
    HasGrad s.potentialTotal (-(s.fieldTotal p)) p :=
  electro_field_inside_partial s.toElectro p h

/-- **C36.** Outside, `H = -∇V` exactly in the degenerate cases. -/
theorem magneto_field_outside_iff (s : Magneto) (hR : 0 ≤ s.radius)
    (hs : 0 < s.muSphere) (hb : 0 < s.muBackground) (p : V3 ℝ)
    (h : s.radius < (p - s.location).len) :
    HasGrad s.potentialTotal (-(s.fieldTotal p)) p ↔
      s.muSphere = s.muBackground ∨ s.radius = 0 ∨ (p - s.location).dot s.primaryField = 0 ∨
        (p - s.location).len = s.radius ^ 2 :=
  electro_field_outside_iff s.toElectro hR hs hb p h

/-- **C36 is false of the code.** -/
theorem magneto_field_wrong :
    ∃ (s : Magneto) (p : V3 ℝ), 0 < s.radius ∧ 0 < s.muSphere ∧ 0 < s.muBackground ∧
      s.radius < (p - s.location).len ∧ ¬ HasGrad s.potentialTotal (-(s.fieldTotal p)) p := by
  obtain ⟨s, p, h1, h2, h3, h4, h5⟩ := electro_field_wrong
  exact ⟨⟨s.radius, s.sigmaSphere, s.sigmaBackground, s.primaryField, s.location⟩, p, h1, h2, h3, h4, h5⟩

/-- **C36.** The scalar potential is continuous across the surface. -/
theorem magneto_potential_continuous (s : Magneto) (hR : 0 < s.radius) (hs : 0 < s.muSphere)
    (hb : 0 < s.muBackground) (n : V3 ℝ) (hn : n.len = 1) :
    Tendsto (fun t : ℝ => s.potentialTotal (s.location + t • n)) (𝓝[>] s.radius)
      (𝓝 (s.potentialTotal (s.location + s.radius • n))) :=
  electro_potential_continuous s.toElectro hR hs hb n hn

/-- **C36.** `B = μ(r) H` for the total, and the primary parts are uniform and derive from the primary potential. -/
theorem magneto_flux_spec (s : Magneto) (p : V3 ℝ) :
    ((p - s.location).len ≤ s.radius → s.fluxTotal p = s.muSphere • s.fieldTotal p) ∧
    (s.radius < (p - s.location).len → s.fluxTotal p = s.muBackground • s.fieldTotal p) ∧
    s.fluxPrimary p = s.muBackground • s.primaryField ∧ s.fieldPrimary p = s.primaryField ∧
    HasGrad s.potentialPrimary (-s.primaryField) p :=
  electro_current_eq s.toElectro p

/-- **C37.** Normal flux through the surface of a magnetic sphere. -/
theorem magneto_normal_flux_iff (s : Magneto) (hR : 0 < s.radius) (hs : 0 < s.muSphere)
    (hb : 0 < s.muBackground) (n : V3 ℝ) (hn : n.len = 1) :
    Tendsto (fun t : ℝ => n.dot (s.fluxTotal (s.location + t • n))) (𝓝[>] s.radius)
      (𝓝 (n.dot (s.fluxTotal (s.location + s.radius • n)))) ↔
      s.muSphere = s.muBackground ∨ n.dot s.primaryField = 0 ∨ s.radius = 1 :=
  electro_normal_current_iff s.toElectro hR hs hb n hn

/-- **C68.** The magnetic scalar potential solves its interface problem. -/
theorem magneto_potential_interface (s : Magneto) (hR : 0 < s.radius) (hs : 0 < s.muSphere)
    (hb : 0 < s.muBackground) :
    (∀ p, (p - s.location).len ≠ s.radius → ∃ g : V3 ℝ → V3 ℝ,
      (∀ q, (q - s.location).len ≠ s.radius → HasGrad s.potentialTotal (g q) q) ∧ HasDiv g 0 p) ∧
    (∀ n : V3 ℝ, n.len = 1 → ∀ g : V3 ℝ → V3 ℝ,
      (∀ q, (q - s.location).len ≠ s.radius → HasGrad s.potentialTotal (g q) q) → ∃ L : ℝ,
      Tendsto (fun t : ℝ => s.muBackground * n.dot (-(g (s.location + t • n)))) (𝓝[>] s.radius) (𝓝 L) ∧
      Tendsto (fun t : ℝ => s.muSphere * n.dot (-(g (s.location + t • n)))) (𝓝[<] s.radius) (𝓝 L)) ∧
    (∀ n : V3 ℝ, n.len = 1 → Tendsto (fun t : ℝ => s.potentialTotal (s.location + t • n) -
      s.potentialPrimary (s.location + t • n)) atTop (𝓝 0)) :=
  ⟨fun p hp => electro_potential_harmonic s.toElectro p hR.le hp,
   fun n hn g hg => electro_potential_interface s.toElectro hR hs hb n hn g hg,
   fun n hn => electro_potential_far s.toElectro hR.le n hn⟩

/-- Non-vacuity: there is a sphere, a direction and points on both sides. -/
example : ∃ (s : Magneto) (n p q : V3 ℝ), 0 < s.radius ∧ 0 < s.muSphere ∧ 0 < s.muBackground ∧ n.len = 1 ∧
    (p - s.location).len < s.radius ∧ s.radius < (q - s.location).len := by
  refine ⟨⟨2, 10, 1, ⟨1, 0, 0⟩, ⟨0, 0, 0⟩⟩, ⟨1, 0, 0⟩, ⟨0, 0, 0⟩, ⟨3, 0, 0⟩, ?_, ?_, ?_, ?_, ?_, ?_⟩
  · norm_num
  · norm_num
  · norm_num
  · simp [V3.len]
  · simp [V3.len]
  · simp only [V3.len, sub_x, sub_y, sub_z]
    rw [show ((3 - 0) ^ 2 + (0 - 0) ^ 2 + (0 - 0) ^ 2 : ℝ) = 3 ^ 2 by norm_num,
      Real.sqrt_sq (by norm_num)]
    norm_num

end Verif.Sphere
