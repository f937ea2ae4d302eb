import Verif.Lemmas.PrismEval
import Verif.Props.PrismFields
import Mathlib.Data.Real.Sign

/-! # C19, C24 (divergence), C25 (trace): Poisson's equation for prisms -/

namespace Verif.Prism

open Real

private theorem arctan_sum_pos {x y z : ℝ} (hx : 0 < x) (hy : 0 < y) (hz : 0 < z) :
    at' x y z + at' y z x + at' z x y = π / 2 := by
  unfold at'
  rw [rr1 x y z, rr2 x y z]
  have hr : 0 < rr x y z := rr_pos hx.ne'
  have hsq := rr_sq x y z
  set r := rr x y z
  set a := x * y / (z * r) with ha
  set b := y * z / (x * r) with hb
  set c := z * x / (y * r) with hc
  have hab : a * b = y ^ 2 / r ^ 2 := by rw [ha, hb]; field_simp
  have hlt : a * b < 1 := by
    rw [hab, div_lt_one (by positivity), hsq]
    have : 0 < x ^ 2 := by positivity
    have : 0 < z ^ 2 := by positivity
    linarith
  have hpa : 0 < a := by positivity
  have hpb : 0 < b := by positivity
  have hpc : 0 < c := by positivity
  rw [arctan_add hlt]
  have e : (a + b) / (1 - a * b) = c⁻¹ := by
    have h1 : 1 - a * b ≠ 0 := by linarith
    rw [div_eq_iff h1, hab, ha, hb, hc]
    field_simp
    rw [hsq]; ring
  rw [e, arctan_inv_of_pos hpc]
  ring

private theorem at_neg_x (x y z : ℝ) : at' (-x) y z = - at' x y z := by
  unfold at' rr
  rw [← arctan_neg]; congr 1
  rw [show -x * -x = x * x by ring]; ring

private theorem at_neg_y (x y z : ℝ) : at' x (-y) z = - at' x y z := by
  rw [← at_swap, at_neg_x, at_swap]

private theorem at_neg_z (x y z : ℝ) : at' x y (-z) = - at' x y z := by
  unfold at' rr
  rw [← arctan_neg]; congr 1
  rw [show -z * -z = z * z by ring, neg_mul, div_neg]

/-- The three arctangents at one corner add up to a signed right angle. -/
theorem corner_sum (x y z : ℝ) :
    Py.prismFzz x y z + Py.prismFzz y z x + Py.prismFzz z x y =
      π / 2 * (Real.sign x * Real.sign y * Real.sign z) := by
  rcases eq_or_ne x 0 with rfl | hx
  · simp [Py.prismFzz]
  rcases eq_or_ne y 0 with rfl | hy
  · simp [Py.prismFzz]
  rcases eq_or_ne z 0 with rfl | hz
  · simp [Py.prismFzz]
  rw [prismFzz_eq hz, prismFzz_eq hx, prismFzz_eq hy]
  have key : ∀ a b c : ℝ, 0 < a → 0 < b → 0 < c → at' a b c + at' b c a + at' c a b = π / 2 :=
    fun a b c ha hb hc => arctan_sum_pos ha hb hc
  rcases lt_or_gt_of_ne hx with h1 | h1 <;> rcases lt_or_gt_of_ne hy with h2 | h2 <;>
    rcases lt_or_gt_of_ne hz with h3 | h3
  · have := key (-x) (-y) (-z) (by linarith) (by linarith) (by linarith)
    simp only [at_neg_x, at_neg_y, at_neg_z] at this
    rw [sign_of_neg h1, sign_of_neg h2, sign_of_neg h3]; linarith
  · have := key (-x) (-y) z (by linarith) (by linarith) (by linarith)
    simp only [at_neg_x, at_neg_y, at_neg_z] at this
    rw [sign_of_neg h1, sign_of_neg h2, sign_of_pos h3]; linarith
  · have := key (-x) y (-z) (by linarith) (by linarith) (by linarith)
    simp only [at_neg_x, at_neg_y, at_neg_z] at this
    rw [sign_of_neg h1, sign_of_pos h2, sign_of_neg h3]; linarith
  · have := key (-x) y z (by linarith) (by linarith) (by linarith)
    simp only [at_neg_x, at_neg_y, at_neg_z] at this
    rw [sign_of_neg h1, sign_of_pos h2, sign_of_pos h3]; linarith
  · have := key x (-y) (-z) (by linarith) (by linarith) (by linarith)
    simp only [at_neg_x, at_neg_y, at_neg_z] at this
    rw [sign_of_pos h1, sign_of_neg h2, sign_of_neg h3]; linarith
  · have := key x (-y) z (by linarith) (by linarith) (by linarith)
    simp only [at_neg_x, at_neg_y, at_neg_z] at this
    rw [sign_of_pos h1, sign_of_neg h2, sign_of_pos h3]; linarith
  · have := key x y (-z) (by linarith) (by linarith) (by linarith)
    simp only [at_neg_x, at_neg_y, at_neg_z] at this
    rw [sign_of_pos h1, sign_of_pos h2, sign_of_neg h3]; linarith
  · have := key x y z h1 h2 h3
    rw [sign_of_pos h1, sign_of_pos h2, sign_of_pos h3]; linarith

/-- How much of an interval `[a, b]` surrounds the coordinate `t`: `1` strictly inside, `1/2` at an end
point, `0` outside.  (Specification.) -/
noncomputable def cover (a b t : ℝ) : ℝ :=
  open Classical in if a < t ∧ t < b then 1 else if t = a ∨ t = b then 1 / 2 else 0

private theorem cover_eq {a b t : ℝ} (hab : a < b) :
    Real.sign (b - t) - Real.sign (a - t) = 2 * cover a b t := by
  unfold cover
  rcases lt_trichotomy a t with h1 | h1 | h1
  · rcases lt_trichotomy t b with h2 | h2 | h2
    · rw [if_pos ⟨h1, h2⟩, sign_of_pos (by linarith), sign_of_neg (by linarith)]; norm_num
    · subst h2
      rw [if_neg (by simp), if_pos (Or.inr rfl), sub_self, sign_zero, sign_of_neg (by linarith)]
      norm_num
    · rw [if_neg (by rintro ⟨-, h⟩; linarith), if_neg (by rintro (h | h) <;> linarith),
        sign_of_neg (by linarith), sign_of_neg (by linarith)]
      norm_num
  · subst h1
    rw [if_neg (by simp), if_pos (Or.inl rfl), sub_self, sign_zero, sign_of_pos (by linarith)]
    norm_num
  · rw [if_neg (by rintro ⟨h, -⟩; linarith), if_neg (by rintro (h | h) <;> linarith),
      sign_of_pos (by linarith), sign_of_pos (by linarith)]
    norm_num

/-- A box with non-empty interior. -/
def Box.Proper (b : Box) : Prop := b.min.x < b.max.x ∧ b.min.y < b.max.y ∧ b.min.z < b.max.z

theorem sum_fzz (b : Box) (hb : b.Proper) (p : V3 ℝ) :
    b.evalDefInt Py.prismFzz p 1 + b.evalDefInt Py.prismFzz p 2 + b.evalDefInt Py.prismFzz p 0 =
      4 * π * (cover b.min.x b.max.x p.x * cover b.min.y b.max.y p.y * cover b.min.z b.max.z p.z) := by
  have h1 := cover_eq (t := p.x) hb.1
  have h2 := cover_eq (t := p.y) hb.2.1
  have h3 := cover_eq (t := p.z) hb.2.2
  rw [evalDefInt_cycle1, evalDefInt_cycle2, ← evalDefInt_add, ← evalDefInt_add]
  have e : (fun x y z => Py.prismFzz y z x + Py.prismFzz z x y + Py.prismFzz x y z) =
      fun x y z => π / 2 * (Real.sign x * Real.sign y * Real.sign z) := by
    funext x y z; rw [← corner_sum]; ring
  rw [e]
  have e2 : b.evalDefInt (fun x y z => π / 2 * (Real.sign x * Real.sign y * Real.sign z)) p 0 =
      π / 2 * ((Real.sign (b.max.x - p.x) - Real.sign (b.min.x - p.x)) *
        (Real.sign (b.max.y - p.y) - Real.sign (b.min.y - p.y)) *
        (Real.sign (b.max.z - p.z) - Real.sign (b.min.z - p.z))) := by
    simp only [Box.evalDefInt, cycleN]; ring
  rw [e2, h1, h2, h3]; ring

/-- **C19.** Poisson's equation at *every* point, without exception: the trace of the gradient tensor is
`-4πGρ` times the fraction (1 inside, 1/2 on an open face, 1/4 on an open edge, 1/8 at a corner, 0 outside) of a
small neighbourhood that the prism occupies. -/
theorem gravPrism_trace (s : GravPrism) (hb : s.box.Proper) (p : V3 ℝ) :
    M3.trace (s.gravitationalGradient p) = -4 * π * Gravity.G * s.rho *
      (cover s.box.min.x s.box.max.x p.x * cover s.box.min.y s.box.max.y p.y *
        cover s.box.min.z s.box.max.z p.z) := by
  have h := sum_fzz s.box hb p
  simp only [M3.trace, GravPrism.gravitationalGradient]
  linear_combination (-Gravity.G * s.rho) * h

/-- **C19.** Strictly inside the prism the trace is `-4πGρ`. -/
theorem gravPrism_trace_inside (s : GravPrism) (p : V3 ℝ)
    (hx : s.box.min.x < p.x ∧ p.x < s.box.max.x) (hy : s.box.min.y < p.y ∧ p.y < s.box.max.y)
    (hz : s.box.min.z < p.z ∧ p.z < s.box.max.z) :
    M3.trace (s.gravitationalGradient p) = -4 * π * Gravity.G * s.rho := by
  rw [gravPrism_trace s ⟨hx.1.trans hx.2, hy.1.trans hy.2, hz.1.trans hz.2⟩]
  simp [cover, hx, hy, hz]

/-- **C19.** Outside the closed prism the trace is zero. -/
theorem gravPrism_trace_outside (s : GravPrism) (hb : s.box.Proper) (p : V3 ℝ)
    (h : p.x < s.box.min.x ∨ s.box.max.x < p.x ∨ p.y < s.box.min.y ∨ s.box.max.y < p.y ∨
      p.z < s.box.min.z ∨ s.box.max.z < p.z) :
    M3.trace (s.gravitationalGradient p) = 0 := by
  rw [gravPrism_trace s hb]
  have key : ∀ a b t : ℝ, a < b → (t < a ∨ b < t) → cover a b t = 0 := by
    intro a b t hab h
    unfold cover
    rw [if_neg, if_neg]
    · rintro (rfl | rfl) <;> rcases h with h | h <;> linarith
    · rintro ⟨h1, h2⟩; rcases h with h | h <;> linarith
  rcases h with h | h | h | h | h | h
  · rw [key _ _ _ hb.1 (Or.inl h)]; ring
  · rw [key _ _ _ hb.1 (Or.inr h)]; ring
  · rw [key _ _ _ hb.2.1 (Or.inl h)]; ring
  · rw [key _ _ _ hb.2.1 (Or.inr h)]; ring
  · rw [key _ _ _ hb.2.2 (Or.inl h)]; ring
  · rw [key _ _ _ hb.2.2 (Or.inr h)]; ring

/-- **C19.** On the open top face the trace is `-2πGρ`. -/
theorem gravPrism_trace_top_face (s : GravPrism) (hb : s.box.Proper) (p : V3 ℝ)
    (hx : s.box.min.x < p.x ∧ p.x < s.box.max.x) (hy : s.box.min.y < p.y ∧ p.y < s.box.max.y)
    (hz : p.z = s.box.max.z) :
    M3.trace (s.gravitationalGradient p) = -2 * π * Gravity.G * s.rho := by
  rw [gravPrism_trace s hb]
  simp [cover, hx, hy, hz]
  ring

/-- **C19 + C18.** Off the face planes the divergence of the field of a prism is `-4πGρ` inside and `0`
outside. -/
theorem gravPrism_poisson (s : GravPrism) (hb : s.box.Proper) (p : V3 ℝ) (hp : s.box.OffPlanes p) :
    HasDiv s.gravitationalField (-4 * π * Gravity.G * s.rho *
      (cover s.box.min.x s.box.max.x p.x * cover s.box.min.y s.box.max.y p.y *
        cover s.box.min.z s.box.max.z p.z)) p :=
  ⟨_, gravPrism_gradient_is_jacobian s p hp, gravPrism_trace s hb p⟩

/-- Non-vacuity. -/
example : ∃ (s : GravPrism) (p : V3 ℝ), s.box.Proper ∧
    s.box.min.x < p.x ∧ p.x < s.box.max.x ∧ s.box.min.y < p.y ∧ p.y < s.box.max.y ∧ p.z = s.box.max.z :=
  ⟨⟨⟨⟨0, 0, 0⟩, ⟨1, 2, 3⟩⟩, 2.7⟩, ⟨1/2, 1, 3⟩, by norm_num [Box.Proper], by norm_num, by norm_num,
    by norm_num, by norm_num, by norm_num⟩

/-! ### Magnetic prism -/

private theorem tr_x (b : Box) (p : V3 ℝ) (hp : b.OffPlanes p) :
    b.evalDefInt Py.prismFzzz p 1 + b.evalDefInt Py.prismFxxz p 1 + b.evalDefInt Py.prismFxxy p 2 = 0 := by
  rw [evalDefInt_cycle1, evalDefInt_cycle1, evalDefInt_cycle2, ← evalDefInt_add, ← evalDefInt_add]
  rw [evalDefInt_congr b (g := fun _ _ _ => 0) p hp]
  · simp [Box.evalDefInt]
  · intro x y z hx hy hz
    rw [prismFzzz_eq hy hx, prismFxxz_eq hy, prismFxxy_eq hz, rr1 x y z, rr2 x y z]
    have hr : rr x y z ≠ 0 := (rr_pos hx).ne'
    have h1 := sq_add_ne hy x
    have h2 := sq_add_ne hz x
    field_simp; ring

private theorem tr_y (b : Box) (p : V3 ℝ) (hp : b.OffPlanes p) :
    b.evalDefInt Py.prismFxxy p 0 + b.evalDefInt Py.prismFzzz p 2 + b.evalDefInt Py.prismFxxz p 2 = 0 := by
  rw [evalDefInt_cycle2, evalDefInt_cycle2, ← evalDefInt_add, ← evalDefInt_add]
  rw [evalDefInt_congr b (g := fun _ _ _ => 0) p hp]
  · simp [Box.evalDefInt]
  · intro x y z hx hy hz
    rw [prismFzzz_eq hz hy, prismFxxz_eq hz, prismFxxy_eq hx, rr2 x y z]
    have hr : rr x y z ≠ 0 := (rr_pos hx).ne'
    have h1 := sq_add_ne hz y
    have h2 := sq_add_ne hx y
    field_simp; ring

private theorem tr_z (b : Box) (p : V3 ℝ) (hp : b.OffPlanes p) :
    b.evalDefInt Py.prismFxxz p 0 + b.evalDefInt Py.prismFxxy p 1 + b.evalDefInt Py.prismFzzz p 0 = 0 := by
  rw [evalDefInt_cycle1, ← evalDefInt_add, ← evalDefInt_add]
  rw [evalDefInt_congr b (g := fun _ _ _ => 0) p hp]
  · simp [Box.evalDefInt]
  · intro x y z hx hy hz
    rw [prismFzzz_eq hx hz, prismFxxz_eq hx, prismFxxy_eq hy, rr1 x y z]
    have hr : rr x y z ≠ 0 := (rr_pos hx).ne'
    have h1 := sq_add_ne hy z
    have h2 := sq_add_ne hx z
    field_simp; ring

/-- **C25.** The gradient tensor of a magnetised prism is trace-free off the face planes. -/
theorem magPrism_gradient_traceless (s : MagPrism) (p : V3 ℝ) (hp : s.box.OffPlanes p) :
    M3.trace (s.magneticFieldGradient p) = 0 := by
  have hx := tr_x s.box p hp
  have hy := tr_y s.box p hp
  have hz := tr_z s.box p hp
  simp only [M3.trace, MagPrism.magneticFieldGradient]
  generalize (-1.0 / (4 * π) : ℝ) = k
  linear_combination k * (s.magnetization.x * hx + s.magnetization.y * hy
    + s.magnetization.z * hz)

/-- Membership in the closed box does not change near a point off the face planes. -/
private theorem isInside_stable (s : MagPrism) (p : V3 ℝ) (hp : s.box.OffPlanes p) (v : V3 ℝ) :
    ∀ᶠ t : ℝ in nhds 0, (s.isInside (p + t • v) ↔ s.isInside p) := by
  obtain ⟨⟨h1, h2, h3⟩, h4, h5, h6⟩ := hp
  have ev : ∀ c u a : ℝ, c - u ≠ 0 → ∀ᶠ t : ℝ in nhds 0,
      ((u + t * a ≥ c ↔ u ≥ c) ∧ (u + t * a ≤ c ↔ u ≤ c)) := by
    intro c u a hu
    have hc : ContinuousAt (fun t : ℝ => u + t * a) 0 := by fun_prop
    rcases lt_or_gt_of_ne hu with h | h
    · filter_upwards [hc.eventually_const_lt (u := c) (by simp; linarith)] with t ht
      constructor <;> constructor <;> intro <;> linarith
    · filter_upwards [hc.eventually_lt_const (u := c) (by simp; linarith)] with t ht
      constructor <;> constructor <;> intro <;> linarith
  filter_upwards [ev _ _ v.x h1, ev _ _ v.y h2, ev _ _ v.z h3, ev _ _ v.x h4, ev _ _ v.y h5,
    ev _ _ v.z h6] with t e1 e2 e3 e4 e5 e6
  simp only [MagPrism.isInside, V3.add_x, V3.add_y, V3.add_z, V3.smul_x, V3.smul_y, V3.smul_z,
    smul_eq_mul]
  rw [e1.1, e2.1, e3.1, e4.2, e5.2, e6.2]

/-- **C24.** `B = μ₀ (H + M)` in the closed box and `B = μ₀ H` outside it. -/
theorem magPrism_flux_jump (s : MagPrism) (p : V3 ℝ) :
    ((s.box.min.x ≤ p.x ∧ p.x ≤ s.box.max.x ∧ s.box.min.y ≤ p.y ∧ p.y ≤ s.box.max.y ∧
      s.box.min.z ≤ p.z ∧ p.z ≤ s.box.max.z) →
      s.magneticFluxDensity p = mu0 • (s.magneticField p + s.magnetization)) ∧
    ((p.x < s.box.min.x ∨ s.box.max.x < p.x ∨ p.y < s.box.min.y ∨ s.box.max.y < p.y ∨
      p.z < s.box.min.z ∨ s.box.max.z < p.z) →
      s.magneticFluxDensity p = mu0 • s.magneticField p) := by
  constructor
  · rintro ⟨h1, h2, h3, h4, h5, h6⟩
    have : s.isInside p := ⟨⟨h1, h3, h5⟩, h2, h4, h6⟩
    simp only [MagPrism.magneticFluxDensity, if_pos this]
    rfl
  · intro h
    have : ¬ s.isInside p := by
      rintro ⟨⟨h1, h3, h5⟩, h2, h4, h6⟩
      rcases h with h | h | h | h | h | h <;> linarith
    simp only [MagPrism.magneticFluxDensity, if_neg this]
    rfl

/-- **C24.** The flux density of a magnetised prism is divergence-free off the face planes, inside and
outside. -/
theorem magPrism_div_B (s : MagPrism) (p : V3 ℝ) (hp : s.box.OffPlanes p) :
    HasDiv s.magneticFluxDensity 0 p := by
  obtain ⟨hx, hy, hz⟩ := magPrism_gradient_is_jacobian s p hp
  have htr := magPrism_gradient_traceless s p hp
  refine ⟨(s.magneticFieldGradient p).map (fun row => row.map (mu0 * ·)), ?_, ?_⟩
  · by_cases hin : s.isInside p
    · refine ⟨?_, ?_, ?_⟩
      · refine (((hx.add (hasGrad_const s.magnetization.x p)).const_mul mu0).congr ?_).congr_of_lines
          fun v => ?_
        · ext <;> simp
        · filter_upwards [isInside_stable s p hp v] with t ht
          simp [MagPrism.magneticFluxDensity, ht, hin]
      · refine (((hy.add (hasGrad_const s.magnetization.y p)).const_mul mu0).congr ?_).congr_of_lines
          fun v => ?_
        · ext <;> simp
        · filter_upwards [isInside_stable s p hp v] with t ht
          simp [MagPrism.magneticFluxDensity, ht, hin]
      · refine (((hz.add (hasGrad_const s.magnetization.z p)).const_mul mu0).congr ?_).congr_of_lines
          fun v => ?_
        · ext <;> simp
        · filter_upwards [isInside_stable s p hp v] with t ht
          simp [MagPrism.magneticFluxDensity, ht, hin]
    · refine ⟨?_, ?_, ?_⟩
      · refine (hx.const_mul mu0).congr_of_lines fun v => ?_
        filter_upwards [isInside_stable s p hp v] with t ht
        simp [MagPrism.magneticFluxDensity, ht, hin]
      · refine (hy.const_mul mu0).congr_of_lines fun v => ?_
        filter_upwards [isInside_stable s p hp v] with t ht
        simp [MagPrism.magneticFluxDensity, ht, hin]
      · refine (hz.const_mul mu0).congr_of_lines fun v => ?_
        filter_upwards [isInside_stable s p hp v] with t ht
        simp [MagPrism.magneticFluxDensity, ht, hin]
  · simp only [M3.trace, V3.map_x, V3.map_y, V3.map_z] at htr ⊢
    linear_combination mu0 * htr

end Verif.Prism
