import Verif.Spec.Work
import Verif.Props.GravityPointMass
import Verif.Props.GravitySphere
import Verif.Props.PrismEverywhere
import Verif.Props.PrismOffSurface
import Verif.Props.LineCurrent
import Verif.Props.StaticHalfspace
import Verif.Props.StaticDipole
import Mathlib.MeasureTheory.Integral.IntervalIntegral.FundThmCalculus

/-! # C136: the work along a path is the difference of the potentials at its ends -/

namespace Verif

open V3

/-- A field that varies continuously along straight lines through `p`. -/
def LineCont (F : V3 ℝ → V3 ℝ) (p : V3 ℝ) : Prop :=
  ∀ v w : V3 ℝ, ContinuousAt (fun t : ℝ => (F (p + t • v)).app w) 0

theorem HasJac.lineCont {F : V3 ℝ → V3 ℝ} {J : M3 ℝ} {p : V3 ℝ} (h : HasJac F J p) : LineCont F p := fun v w => by
  have h1 := (h.1 v).continuousAt
  have h2 := (h.2.1 v).continuousAt
  have h3 := (h.2.2 v).continuousAt
  simp only [V3.app, smul_eq_mul]
  exact ((continuousAt_const.mul h1).add (continuousAt_const.mul h2)).add (continuousAt_const.mul h3)

theorem LineCont.neg {F : V3 ℝ → V3 ℝ} {p : V3 ℝ} (h : LineCont F p) : LineCont (fun q => -F q) p := fun v w => by
  have := (h v w).neg
  refine this.congr (Filter.Eventually.of_forall fun t => ?_)
  simp [V3.app]
  ring

theorem LineCont.add {F H : V3 ℝ → V3 ℝ} {p : V3 ℝ} (h : LineCont F p) (h' : LineCont H p) : LineCont (fun q => F q + H q) p := fun v w => by
  have := (h v w).add (h' v w)
  refine this.congr (Filter.Eventually.of_forall fun t => ?_)
  simp [V3.app]
  ring

theorem line_shift (a u : V3 ℝ) (t s : ℝ) : a + t • u + s • u = a + (t + s) • u := by
  ext <;> simp <;> ring

/-- One straight piece. -/
theorem along_eq_sub {f : V3 ℝ → ℝ} {F : V3 ℝ → V3 ℝ} {a u : V3 ℝ}
    (hg : ∀ t ∈ Set.Icc (0 : ℝ) 1, HasGrad f (F (a + t • u)) (a + t • u)) (hc : ∀ t ∈ Set.Icc (0 : ℝ) 1, LineCont F (a + t • u)) :
    along F a u = f (a + u) - f a := by
  have hd : ∀ t ∈ Set.uIcc (0 : ℝ) 1, HasDerivAt (fun t : ℝ => f (a + t • u)) ((F (a + t • u)).app u) t := fun t ht => by
    rw [Set.uIcc_of_le zero_le_one] at ht
    have h := hg t ht u
    have h2 : HasDerivAt (fun s : ℝ => s - t) 1 t := (hasDerivAt_id _).sub_const _
    have h4 := h.scomp_of_eq t h2 (by simp)
    simp only [one_smul] at h4
    refine h4.congr_of_eventuallyEq (Filter.Eventually.of_forall fun s => ?_)
    simp only [Function.comp, line_shift]
    congr 3
    ring
  have hcont : ContinuousOn (fun t : ℝ => (F (a + t • u)).app u) (Set.uIcc 0 1) := fun t ht => by
    rw [Set.uIcc_of_le zero_le_one] at ht
    have h := hc t ht u u
    have h2 : ContinuousAt (fun s : ℝ => s - t) t := by fun_prop
    have h3 : ContinuousAt (fun s : ℝ => (F (a + t • u + s • u)).app u) (t - t) := by rw [sub_self]; exact h
    have h4 : ContinuousAt _ t := ContinuousAt.comp (f := fun s : ℝ => s - t) (x := t) h3 h2
    refine (h4.congr (Filter.Eventually.of_forall fun s => ?_)).continuousWithinAt
    simp only [Function.comp, line_shift]
    congr 4
    ring
  rw [along, intervalIntegral.integral_eq_sub_of_hasDerivAt hd hcont.intervalIntegrable]
  simp

/-- A whole path. -/
theorem work_eq_sub {f : V3 ℝ → ℝ} {F : V3 ℝ → V3 ℝ} (nodes : List (V3 ℝ)) (hn : nodes ≠ [])
    (h : ∀ p ∈ path nodes, HasGrad f (F p) p ∧ LineCont F p) : work F nodes = f (nodes.getLast hn) - f (nodes.head hn) := by
  match nodes, hn with
  | [a], _ => simp [work]
  | a :: b :: rest, _ =>
    have ih := work_eq_sub (f := f) (F := F) (b :: rest) (by simp) fun p hp => h p (Or.inr hp)
    have h1 := along_eq_sub (f := f) (F := F) (a := a) (u := b - a) (fun t ht => (h _ (Or.inl ⟨t, ht, rfl⟩)).1)
      (fun t ht => (h _ (Or.inl ⟨t, ht, rfl⟩)).2)
    have e : a + (b - a) = b := by ext <;> simp
    rw [work, ih, h1, e]
    simp

/-- Potentials with a minus sign. -/
theorem work_eq_neg_sub {f : V3 ℝ → ℝ} {F : V3 ℝ → V3 ℝ} (nodes : List (V3 ℝ)) (hn : nodes ≠ [])
    (h : ∀ p ∈ path nodes, HasGrad f (-(F p)) p ∧ LineCont F p) : work F nodes = f (nodes.head hn) - f (nodes.getLast hn) := by
  have := work_eq_sub (f := fun q => -f q) (F := F) nodes hn fun p hp => ⟨fun v => by
    have := ((h p hp).1 v).fun_neg
    refine this.congr_deriv ?_
    simp [V3.app]
    ring, (h p hp).2⟩
  rw [this]
  ring

theorem path_ends (nodes : List (V3 ℝ)) (hn : nodes ≠ []) : nodes.head hn ∈ path nodes ∧ nodes.getLast hn ∈ path nodes := by
  match nodes, hn with
  | [a], _ => simp [path]
  | a :: b :: rest, _ =>
    refine ⟨Or.inl ⟨0, by simp, by simp⟩, Or.inr ?_⟩
    rw [List.getLast_cons (by simp)]
    exact (path_ends (b :: rest) (by simp)).2

/-- Below the surface with all its nodes, a path is below the surface. -/
theorem path_below (nodes : List (V3 ℝ)) (h : ∀ p ∈ nodes, p.z ≤ 0) : ∀ p ∈ path nodes, p.z ≤ 0 := by
  match nodes with
  | [] => simp [path]
  | [a] => simpa [path] using h
  | a :: b :: rest =>
    rintro p (⟨t, ht, rfl⟩ | hp)
    · have h1 := h a (by simp)
      have h2 := h b (by simp)
      have h3 : 0 ≤ 1 - t := by linarith [ht.2]
      simp only [add_z, smul_z, sub_z, smul_eq_mul]
      nlinarith [mul_nonneg h3 (neg_nonneg.2 h1), mul_nonneg ht.1 (neg_nonneg.2 h2)]
    · exact path_below (b :: rest) (fun q hq => h q (by simp [hq])) p hp

namespace Gravity

/-- **C136.** A point mass: the work of its field along any path that avoids it. -/
theorem PointMass.work_done (m : PointMass) (nodes : List (V3 ℝ)) (hn : nodes ≠ []) (h : m.location ∉ path nodes) :
    work m.gravitationalField nodes = m.gravitationalPotential (nodes.getLast hn) - m.gravitationalPotential (nodes.head hn) :=
  work_eq_sub nodes hn fun p hp => by
    have hl : p ≠ m.location := fun e => h (e ▸ hp)
    exact ⟨pointMass_field_is_gradient m p hl, (pointMass_gradient_is_jacobian m p hl).lineCont⟩

/-- The field of a ball in one formula. -/
theorem Sphere.field_max (s : Sphere) (hR : 0 < s.radius) (p : V3 ℝ) :
    s.gravitationalField p = (-G * (4 / 3 * Real.pi * s.radius ^ 3 * s.rho) / max (p - s.location).len s.radius ^ 3) • (p - s.location) := by
  simp only [Sphere.gravitationalField]
  split_ifs with h
  · rw [max_eq_left h.le]
    ext <;> simp [PointMass.gravitationalField, Sphere.toPointMass, Sphere.mass] <;> ring
  · rw [max_eq_right (not_lt.1 h)]
    have := hR.ne'
    ext <;> simp only [map_x, map_y, map_z, smul_x, smul_y, smul_z, smul_eq_mul] <;> field_simp

theorem Sphere.lineCont (s : Sphere) (hR : 0 < s.radius) (p : V3 ℝ) : LineCont s.gravitationalField p := fun v w => by
  simp only [s.field_max hR, V3.app, smul_x, smul_y, smul_z, smul_eq_mul]
  have h1 : ContinuousAt (fun t : ℝ => (p + t • v - s.location).len) 0 := by
    simp only [V3.len, sub_x, sub_y, sub_z, add_x, add_y, add_z, smul_x, smul_y, smul_z, smul_eq_mul]
    fun_prop
  have h2 : ContinuousAt (fun t : ℝ => -G * (4 / 3 * Real.pi * s.radius ^ 3 * s.rho) / max (p + t • v - s.location).len s.radius ^ 3) 0 :=
    continuousAt_const.div ((h1.max continuousAt_const).pow 3) (pow_pos (lt_max_of_lt_right hR) 3).ne'
  simp only [sub_x, sub_y, sub_z, add_x, add_y, add_z, smul_x, smul_y, smul_z, smul_eq_mul]
  fun_prop

/-- **C136.** A ball: the work of its field along any path, also through it. -/
theorem Sphere.work_done (s : Sphere) (hR : 0 < s.radius) (nodes : List (V3 ℝ)) (hn : nodes ≠ []) :
    work s.gravitationalField nodes = s.gravitationalPotential (nodes.getLast hn) - s.gravitationalPotential (nodes.head hn) :=
  work_eq_sub nodes hn fun p _ => ⟨sphere_field_is_gradient s hR p, s.lineCont hR p⟩

/-- Through the centre of a ball and back around it. -/
example : work (Sphere.gravitationalField ⟨1, 1, ⟨0, 0, 0⟩⟩) [⟨-2, 0, 0⟩, ⟨2, 0, 0⟩, ⟨0, 3, 0⟩, ⟨-2, 0, 0⟩] = 0 := by
  rw [Sphere.work_done _ (by norm_num) _ (by simp)]
  simp

end Gravity

namespace Prism

/-- **C136.** A prism: the work of its field along any path, also through it and along its faces. -/
theorem GravPrism.work_done (s : GravPrism) (nodes : List (V3 ℝ)) (hn : nodes ≠ []) :
    work s.gravitationalField nodes = s.gravitationalPotential (nodes.getLast hn) - s.gravitationalPotential (nodes.head hn) :=
  work_eq_sub nodes hn fun p _ => ⟨gravPrism_field_is_gradient_everywhere s p, fun v w => by
    obtain ⟨-, hx, hy, hz⟩ := gravPrism_continuous_everywhere s
    have hl : Continuous fun t : ℝ => ((p + t • v).x, (p + t • v).y, (p + t • v).z) := by
      simp only [add_x, add_y, add_z, smul_x, smul_y, smul_z, smul_eq_mul]
      fun_prop
    have h1 := hx.comp hl
    have h2 := hy.comp hl
    have h3 := hz.comp hl
    simp only [V3.app, smul_eq_mul]
    exact ((continuous_const.mul h1).add (continuous_const.mul h2)).add (continuous_const.mul h3) |>.continuousAt⟩

/-- **C136.** A magnetic prism: the work of `H` along any path that stays off its faces. -/
theorem MagPrism.work_done (s : MagPrism) (h : s.box.Proper) (nodes : List (V3 ℝ)) (hn : nodes ≠ []) (hp : ∀ p ∈ path nodes, s.box.OffSurface p) :
    work s.magneticField nodes = s.scalarPotential (nodes.getLast hn) - s.scalarPotential (nodes.head hn) :=
  work_eq_sub nodes hn fun p hq => ⟨magPrism_field_is_gradient_off_surface s h p (hp p hq),
    (magPrism_gradient_is_jacobian_off_surface s h p (hp p hq)).lineCont⟩

end Prism

namespace Static

/-- **C136.** A magnetic pole. -/
theorem MagDipole.pole_work (s : MagDipole) (hmu : 0 < s.mu) (nodes : List (V3 ℝ)) (hn : nodes ≠ []) (h : s.location ∉ path nodes) :
    work s.poleField nodes =
      s.moment / (4 * Real.pi) * (1 / (nodes.head hn - s.location).len - 1 / (nodes.getLast hn - s.location).len) := by
  have e : s.poleField = Static.poleField (s.moment / (4 * Real.pi)) s.location := by
    funext q
    have := hmu.ne'
    ext <;> simp [MagDipole.poleField, MagDipole.poleFluxDensity, Static.poleField] <;> field_simp
  rw [work_eq_neg_sub nodes hn fun p hp => by
    have hl : p ≠ s.location := fun e => h (e ▸ hp)
    obtain ⟨J, hJ, -⟩ := pole_div_curl (s.moment / (4 * Real.pi)) s.location p hl
    exact ⟨pole_field_is_gradient s hmu p hl, e ▸ hJ.lineCont⟩]
  simp only [div_mul_eq_div_div]
  ring

/-- **C136.** A wire with two electrodes in a whole space: the voltage along any path that avoids the electrodes is the potential at the
beginning minus the potential at the end. -/
theorem line_work (s : LineCurrent) (hs : s.nodes ≠ []) : ∃ (V : V3 ℝ → ℝ) (E : V3 ℝ → V3 ℝ),
    (∀ q, s.scalarPotential q = .ok (V q)) ∧ (∀ q, s.electricField q = .ok (E q)) ∧
    ∀ (nodes : List (V3 ℝ)) (hn : nodes ≠ []), s.nodes.head hs ∉ path nodes → s.nodes.getLast hs ∉ path nodes →
      work E nodes = V (nodes.head hn) - V (nodes.getLast hn) := by
  obtain ⟨V, E, hV, hE, h⟩ := line_field_is_neg_grad s hs
  refine ⟨V, E, hV, hE, fun nodes hn h1 h2 => work_eq_neg_sub nodes hn fun p hp => ?_⟩
  obtain ⟨hg, J, hJ, -⟩ := h p (fun e => h1 (e ▸ hp)) (fun e => h2 (e ▸ hp))
  exact ⟨hg, hJ.lineCont⟩

/-- **C136.** An electrode in or on a half-space and a path through the ground. -/
theorem PointHalf.work_done {mu0 rho current : ℝ} {location : V3 ℝ} {s : PointHalf} (hs : PointHalf.new mu0 rho current location = .ok s) :
    ∃ (V : V3 ℝ → ℝ) (E : V3 ℝ → V3 ℝ), (∀ q, q.z ≤ 0 → s.potential q = .ok (V q)) ∧ (∀ q, q.z ≤ 0 → s.electricField q = .ok (E q)) ∧
    ∀ (nodes : List (V3 ℝ)) (hn : nodes ≠ []), (∀ p ∈ nodes, p.z ≤ 0) → location ∉ path nodes →
      work E nodes = V (nodes.head hn) - V (nodes.getLast hn) := by
  refine ⟨imagePotential rho current location, imageField rho current location, fun q hq => ?_, fun q hq => ?_, fun nodes hn hz hl => ?_⟩
  · rw [pointHalf_potential mu0 rho current location s hs q, if_pos hq]
  · rw [pointHalf_electricField mu0 rho current location s hs q, if_pos hq]
  · refine work_eq_neg_sub nodes hn fun p hp => ?_
    have hpz := path_below nodes hz p hp
    have hpl : p ≠ location := fun e => hl (e ▸ hp)
    obtain ⟨E, h1, h2, -⟩ := pointHalf_field mu0 rho current location s hs p hpz hpl
    rw [pointHalf_electricField mu0 rho current location s hs p, if_pos hpz] at h1
    rw [Except.ok.inj h1]
    obtain ⟨-, hl0, -⟩ := pointHalf_new_eq hs
    obtain ⟨J, hJ, -⟩ := pole_div_curl (rho * current / (4 * Real.pi)) location p hpl
    obtain ⟨K, hK, -⟩ := pole_div_curl (rho * current / (4 * Real.pi)) (mirror location) p (ne_mirror hl0 hpz hpl)
    exact ⟨h2, hJ.lineCont.add hK.lineCont⟩

/-- **C136.** What a voltmeter between `m` and `n` shows near two current electrodes is the work of the electric field along every path through
the ground from `m` to `n`. -/
theorem DipoleHalf.voltage {mu0 rho current : ℝ} {a b : V3 ℝ} {d : DipoleHalf} (hd : DipoleHalf.new mu0 rho a b current = .ok d) :
    ∃ E : V3 ℝ → V3 ℝ, (∀ q, q.z ≤ 0 → d.electricField q none = .ok (E q)) ∧
    ∀ (nodes : List (V3 ℝ)) (hn : nodes ≠ []), (∀ p ∈ nodes, p.z ≤ 0) → a ∉ path nodes → b ∉ path nodes →
      d.potential (nodes.head hn) (some (nodes.getLast hn)) = .ok (work E nodes) := by
  obtain ⟨h1, h2, -⟩ := dipoleHalf_new_eq hd
  have hE : ∀ q : V3 ℝ, q.z ≤ 0 → d.electricField q none = .ok (imageField rho current a q - imageField rho current b q) := fun q hq => by
    have ha := pointHalf_electricField mu0 rho current a d.a h1 q
    have hb := pointHalf_electricField mu0 rho current b d.b h2 q
    rw [if_pos hq] at ha hb
    simp only [DipoleHalf.electricField, gt_iff_lt, if_neg (not_lt.2 hq), ha, hb, bind, Except.bind, pure, Except.pure]
  refine ⟨fun q => imageField rho current a q - imageField rho current b q, hE, fun nodes hn hz hna hnb => ?_⟩
  obtain ⟨e1, e2⟩ := path_ends nodes hn
  have below := path_below nodes hz
  rw [(dipoleHalf_potential mu0 rho current a b d hd _ _ (below _ e1) (below _ e2)).2]
  rw [work_eq_neg_sub (f := fun q => imagePotential rho current a q - imagePotential rho current b q) nodes hn fun p hp => ?_]
  · simp only [dcVoltage]
  have hpz := below p hp
  have hpa : p ≠ a := fun e => hna (e ▸ hp)
  have hpb : p ≠ b := fun e => hnb (e ▸ hp)
  obtain ⟨E, F, f1, -, -, f4, -⟩ := dipoleHalf_field mu0 rho current a b d hd p p hpz hpz hpa hpb
  rw [hE p hpz] at f1
  rw [Except.ok.inj f1]
  refine ⟨f4, ?_⟩
  have cont : ∀ l : V3 ℝ, l.z ≤ 0 → p ≠ l → LineCont (imageField rho current l) p := fun l hl hpl => by
    obtain ⟨J, hJ, -⟩ := pole_div_curl (rho * current / (4 * Real.pi)) l p hpl
    obtain ⟨K, hK, -⟩ := pole_div_curl (rho * current / (4 * Real.pi)) (mirror l) p (ne_mirror hl hpz hpl)
    exact hJ.lineCont.add hK.lineCont
  have hc := (cont a (pointHalf_new_eq h1).2.1 hpa).add (cont b (pointHalf_new_eq h2).2.1 hpb).neg
  intro v w
  refine (hc v w).congr (Filter.Eventually.of_forall fun t => ?_)
  simp only [sub_eq_add_neg]

/-- Two electrodes at the surface and a path down and up again. -/
example : ∃ d : DipoleHalf, DipoleHalf.new 1 100 ⟨0, 0, 0⟩ ⟨10, 0, 0⟩ 1 = .ok d ∧
    (⟨0, 0, 0⟩ : V3 ℝ) ∉ path [⟨1, 0, 0⟩, ⟨5, 0, -5⟩, ⟨9, 0, 0⟩] ∧ (⟨10, 0, 0⟩ : V3 ℝ) ∉ path [⟨1, 0, 0⟩, ⟨5, 0, -5⟩, ⟨9, 0, 0⟩] := by
  refine ⟨_, by norm_num [DipoleHalf.new, PointHalf.new, bind, Except.bind, pure, Except.pure]; rfl, ?_, ?_⟩
  · simp only [path, Set.mem_union, Set.mem_ofPred_eq, Set.mem_singleton_iff, V3.ext_iff, add_x, add_y, add_z, smul_x, smul_y, smul_z, sub_x, sub_y, sub_z, smul_eq_mul, Set.mem_Icc]
    rintro (⟨t, ht, h⟩ | ⟨t, ht, h⟩ | h) <;> norm_num at h <;> linarith [h.1, h.2]
  · simp only [path, Set.mem_union, Set.mem_ofPred_eq, Set.mem_singleton_iff, V3.ext_iff, add_x, add_y, add_z, smul_x, smul_y, smul_z, sub_x, sub_y, sub_z, smul_eq_mul, Set.mem_Icc]
    rintro (⟨t, ht, h⟩ | ⟨t, ht, h⟩ | h) <;> norm_num at h <;> linarith [h.1, h.2]

end Static

end Verif
