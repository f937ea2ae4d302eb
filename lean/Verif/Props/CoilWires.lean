import Verif.Props.Coil

/-!
# C135, wires: Ampère's law and the flux of a wire for coils

A coil that stays away from the straight lines through the pieces of a wire: the magnetic field once around is the current that flows through the
ground inside the coil (nothing for a closed wire), and the flux through the coil is the vector potential once around. -/

namespace Verif.Static

open V3 Spatial BiotSavart Coil

theorem smooth_add {F G : V3 ℝ → V3 ℝ} {p : V3 ℝ} (hF : Smooth F p) (hG : Smooth G p) : Smooth (fun q => F q + G q) p :=
  ⟨hF.1.add hG.1, hF.2.1.add hG.2.1, hF.2.2.add hG.2.2⟩

theorem smooth_const (c p : V3 ℝ) : Smooth (fun _ => c) p :=
  ⟨differentiableAt_const _, differentiableAt_const _, differentiableAt_const _⟩

theorem smooth_smul {f : V3 ℝ → ℝ} {F : V3 ℝ → V3 ℝ} {p : V3 ℝ} (hf : DifferentiableAt ℝ (fun q => f (at3 q)) (p.x, p.y, p.z)) (hF : Smooth F p) :
    Smooth (fun q => f q • F q) p :=
  ⟨hf.mul hF.1, hf.mul hF.2.1, hf.mul hF.2.2⟩

theorem diff_len {loc p : V3 ℝ} (h : (p - loc).len ≠ 0) : DifferentiableAt ℝ (fun q => (at3 q - loc).len) (p.x, p.y, p.z) :=
  radial (γ := fun r => r) h (hasDerivAt_id _)

theorem diff_dot (u loc p : V3 ℝ) : DifferentiableAt ℝ (fun q => u.dot (at3 q - loc)) (p.x, p.y, p.z) := by
  simp only [V3.dot, at3, V3.sub_x, V3.sub_y, V3.sub_z]
  fun_prop

theorem diff_div {f g : ℝ × ℝ × ℝ → ℝ} {x : ℝ × ℝ × ℝ} (hf : DifferentiableAt ℝ f x) (hg : DifferentiableAt ℝ g x) (h : g x ≠ 0) :
    DifferentiableAt ℝ (fun q => f q / g q) x := by
  simp only [div_eq_mul_inv]
  exact hf.mul (hg.inv h)

theorem offLine_ne {a b q : V3 ℝ} (h : OffLine a b q) : q ≠ a ∧ q ≠ b := by
  constructor
  · rintro rfl
    exact h (by ext <;> simp)
  · rintro rfl
    exact h (by ext <;> simp <;> ring)

theorem smooth_fluxFree {a b p : V3 ℝ} (h : a ≠ b) (ho : OffLine a b p) : Smooth (fluxFree a b) p := by
  have la := len_sub_ne_zero (offLine_ne ho).1
  have lb := len_sub_ne_zero (offLine_ne ho).2
  have hr := (rho2_pos h ho).ne'
  have d1 : DifferentiableAt ℝ (fun q => rho2 a b (at3 q)) (p.x, p.y, p.z) := ((diff_len la).pow 2).sub ((diff_dot (tan a b) a p).pow 2)
  have d2 : DifferentiableAt ℝ (fun q => (tan a b).dot (at3 q - b) / (at3 q - b).len) (p.x, p.y, p.z) := by
    have e := diff_len lb
    have f := diff_dot (tan a b) b p
    exact diff_div (g := fun q => (at3 q - b).len) f e lb
  have d3 : DifferentiableAt ℝ (fun q => (tan a b).dot (at3 q - a) / (at3 q - a).len) (p.x, p.y, p.z) := by
    have e := diff_len la
    have f := diff_dot (tan a b) a p
    exact diff_div (g := fun q => (at3 q - a).len) f e la
  have d4 := diff_div (g := fun q => rho2 a b (at3 q)) (d2.fun_sub d3) d1 hr
  refine smooth_smul d4 ⟨?_, ?_, ?_⟩ <;>
  · simp only [V3.cross, at3, V3.sub_x, V3.sub_y, V3.sub_z]
    fun_prop

theorem log_arg {a b p c : V3 ℝ} (h : a ≠ b) (hrho : (p - c).len ^ 2 - ((tan a b).dot (p - c)) ^ 2 = rho2 a b p) (ho : OffLine a b p) :
    (tan a b).dot (p - c) + (p - c).len ≠ 0 := by
  intro e
  have := rho2_pos h ho
  rw [← hrho] at this
  have e2 : (p - c).len = -(tan a b).dot (p - c) := by linarith
  rw [e2] at this
  simp at this

theorem smooth_potFree {a b p : V3 ℝ} (h : a ≠ b) (ho : OffLine a b p) : Smooth (potFree a b) p := by
  have la := len_sub_ne_zero (offLine_ne ho).1
  have lb := len_sub_ne_zero (offLine_ne ho).2
  refine smooth_smul ((((diff_dot (tan a b) b p).add (diff_len lb)).log (log_arg h (rho2_p1 h p) ho)).sub
    (((diff_dot (tan a b) a p).add (diff_len la)).log (log_arg h rfl ho))) (smooth_const _ p)

theorem smooth_segSum {g : V3 ℝ → V3 ℝ → V3 ℝ → V3 ℝ} {p : V3 ℝ} (nodes : List (V3 ℝ)) (h : nodes.IsChain fun a b => Smooth (g a b) p) :
    Smooth (fun q => segSum (fun a b => g a b q) nodes) p := by
  induction nodes with
  | nil => exact smooth_const 0 p
  | cons a t ih =>
    cases t with
    | nil => exact smooth_const 0 p
    | cons b t =>
      rw [List.isChain_cons_cons] at h
      exact smooth_add h.1 (ih h.2)

theorem smooth_pole {a p : V3 ℝ} (h : p ≠ a) : Smooth (fun q => (1 / (q - a).len ^ 3) • (q - a)) p := by
  have la := len_sub_ne_zero h
  have e := (diff_len la).fun_pow 3
  have d : DifferentiableAt ℝ (fun q => 1 / (at3 q - a).len ^ 3) (p.x, p.y, p.z) :=
    diff_div (g := fun q => (at3 q - a).len ^ 3) (differentiableAt_const _) e (pow_ne_zero 3 la)
  refine smooth_smul d ⟨?_, ?_, ?_⟩ <;>
  · simp only [at3, V3.sub_x, V3.sub_y, V3.sub_z]
    fun_prop

/-- The fields of a wire in closed form. -/
theorem line_fields (s : LineCurrent) (hmu : 0 < s.mu) (hsig : 0 < s.sigma) (hn : 2 ≤ s.nodes.length) (hr : Regular s.nodes) :
    let H : V3 ℝ → V3 ℝ := fun q => (-s.current / (4 * Real.pi)) • segSum (fun a b => fluxFree a b q) s.nodes
    let J : V3 ℝ → V3 ℝ := fun q =>
      (-s.current / (4 * Real.pi)) • segSum (fun a b => (1 / (q - a).len ^ 3) • (q - a) - (1 / (q - b).len ^ 3) • (q - b)) s.nodes
    ∀ p, Off s.nodes p → s.magneticField p = .ok (H p) ∧ s.currentDensity p = .ok (J p) ∧ HasCurl H (J p) p := by
  have hr' : s.nodes.IsChain (· ≠ ·) := hr.imp fun a b h => h.1
  obtain ⟨H', hH'⟩ := line_ampere s hmu hsig hn hr
  set k := -s.current / (4 * Real.pi) with hk
  intro H J
  have eH : ∀ p, Off s.nodes p → s.magneticField p = .ok (H p) := fun p ho => by
    simp only [LineCurrent.magneticField, flux_closed_form s p hr ho, bind, Except.bind, pure, Except.pure]
    congr 1
    ext <;> simp [H, hk] <;> field_simp
  have cH : ∀ p, Off s.nodes p → HasCurl H (J p) p := fun p ho => by
    obtain ⟨K, hK, hc, -⟩ := segSum_flux_jac s.nodes p (chain_and hr' ho)
    exact HasCurl.const_smul k ⟨K, hK, hc⟩
  refine fun p ho => ⟨eH p ho, ?_, cH p ho⟩
  obtain ⟨-, ⟨j, hj, hcurl⟩, -⟩ := hH' p ho
  have h2 : HasCurl H j p := HasCurl.congr_lines hcurl fun v => by
    filter_upwards [eventually_off s.nodes p ho v] with t ht
    exact Except.ok.inj ((eH _ ht).symm.trans (hH' _ ht).1)
  rw [hj, h2.unique (cH p ho)]

/-- **C135.** Ampère's law for a coil near a wire, grounded or closed. -/
theorem line_coil_ampere (s : LineCurrent) (hmu : 0 < s.mu) (hsig : 0 < s.sigma) (hn : 2 ≤ s.nodes.length) (hr : Regular s.nodes) :
    ∃ H J : V3 ℝ → V3 ℝ, (∀ p, Off s.nodes p → s.magneticField p = .ok (H p) ∧ s.currentDensity p = .ok (J p)) ∧
      ∀ o u v : V3 ℝ, (∀ p ∈ coil o u v, Off s.nodes p) → circulation H o u v = flux J o u v := by
  have hr' : s.nodes.IsChain (· ≠ ·) := hr.imp fun a b h => h.1
  have hf := line_fields s hmu hsig hn hr
  refine ⟨_, _, fun p ho => ⟨(hf p ho).1, (hf p ho).2.1⟩, fun o u v hc => ?_⟩
  refine stokes (fun p hp => ?_) (fun p hp => ?_) fun p hp => (hf p (hc p hp)).2.2
  · exact (smooth_segSum s.nodes ((chain_and hr' (hc p hp)).imp fun a b h => smooth_fluxFree h.1 h.2)).real_mul _
  · refine (smooth_segSum (g := fun a b q => (1 / (q - a).len ^ 3) • (q - a) - (1 / (q - b).len ^ 3) • (q - b)) s.nodes
      ((hc p hp).imp fun a b h => ?_)).real_mul _
    have h1 := smooth_pole (offLine_ne h).1
    have h2 := smooth_pole (offLine_ne h).2
    exact ⟨h1.1.sub h2.1, h1.2.1.sub h2.2.1, h1.2.2.sub h2.2.2⟩

/-- **C135.** Around a coil near a closed wire the magnetic field adds up to nothing. -/
theorem line_coil_closed (s : LineCurrent) (hmu : 0 < s.mu) (hsig : 0 < s.sigma) (hr : Regular s.nodes) (n0 n1 : V3 ℝ) (rest : List (V3 ℝ))
    (hn : s.nodes = n0 :: n1 :: rest) (hc : (n0 :: n1 :: rest).getLast (by simp) = n0) :
    ∃ H : V3 ℝ → V3 ℝ, (∀ p, Off s.nodes p → s.magneticField p = .ok (H p)) ∧
      ∀ o u v : V3 ℝ, (∀ p ∈ coil o u v, Off s.nodes p) → circulation H o u v = 0 := by
  obtain ⟨H, J, h1, h2⟩ := line_coil_ampere s hmu hsig (by simp [hn]) hr
  refine ⟨H, fun p ho => (h1 p ho).1, fun o u v h => ?_⟩
  rw [h2 o u v h, flux]
  refine MeasureTheory.setIntegral_eq_zero_of_forall_eq_zero fun w hw => ?_
  have ho := h _ ⟨w.1, hw.1, w.2, hw.2, rfl⟩
  have hj := (h1 _ ho).2
  rw [line_current_density s _ 0 (line_closed s n0 n1 rest hn hc _).2, smul_zero] at hj
  rw [← Except.ok.inj hj]
  simp [V3.app]

/-- **C135.** The flux of a wire through a coil is the vector potential once around. -/
theorem line_coil_potential (s : LineCurrent) (hr : Regular s.nodes) :
    ∃ A B : V3 ℝ → V3 ℝ, (∀ q, s.vectorPotential q = .ok (A q)) ∧ (∀ p, Off s.nodes p → s.magneticFluxDensity p = .ok (B p)) ∧
      ∀ o u v : V3 ℝ, (∀ p ∈ coil o u v, Off s.nodes p) → circulation A o u v = flux B o u v := by
  have hr' : s.nodes.IsChain (· ≠ ·) := hr.imp fun a b h => h.1
  obtain ⟨A, hA, hB⟩ := line_flux_is_curl s hr
  set k := -s.mu * s.current / (4 * Real.pi) with hk
  refine ⟨A, fun q => k • segSum (fun a b => fluxFree a b q) s.nodes, hA, fun p ho => flux_closed_form s p hr ho, fun o u v hc => ?_⟩
  have eA : ∀ q, Off s.nodes q → A q = k • segSum (fun a b => potFree a b q) s.nodes := fun q ho => by
    have h := sumSegments_eq (seg := fun p0 p1 => segmentPotential p0 p1 q)
      (g := fun a b => potFree a b q) s.nodes
      ((chain_and hr ho).imp fun a b h => segmentPotential_eq h.1.1 h.1.2 h.2) 0
    have h2 := hA q
    simp only [LineCurrent.vectorPotential, h, bind, Except.bind, pure, Except.pure] at h2
    rw [← Except.ok.inj h2]
    ext <;> simp [hk] <;> ring
  have e : circulation A o u v = circulation (fun q => k • segSum (fun a b => potFree a b q) s.nodes) o u v := by
    have seg : ∀ a d : V3 ℝ, (∀ t ∈ Set.Icc (0 : ℝ) 1, a + t • d ∈ coil o u v) →
        along A a d = along (fun q => k • segSum (fun a b => potFree a b q) s.nodes) a d := fun a d h => by
      refine intervalIntegral.integral_congr fun t ht => ?_
      rw [Set.uIcc_of_le zero_le_one] at ht
      simp only
      rw [eA _ (hc _ (h t ht))]
    rw [circulation, circulation, seg, seg, seg, seg]
    · exact fun t ht => ⟨0, by simp, 1 - t, ⟨by linarith [ht.2], by linarith [ht.1]⟩, by module⟩
    · exact fun t ht => ⟨1 - t, ⟨by linarith [ht.2], by linarith [ht.1]⟩, 1, by simp, by module⟩
    · exact fun t ht => ⟨1, by simp, t, ht, by module⟩
    · exact fun t ht => ⟨t, ht, 0, by simp, by module⟩
  rw [e]
  refine stokes (fun p hp => ?_) (fun p hp => ?_) fun p hp => HasCurl.const_smul k (segSum_curl s.nodes p (chain_and hr' (hc p hp)))
  · exact (smooth_segSum s.nodes ((chain_and hr' (hc p hp)).imp fun a b h => smooth_potFree h.1 h.2)).real_mul k
  · exact (smooth_segSum s.nodes ((chain_and hr' (hc p hp)).imp fun a b h => smooth_fluxFree h.1 h.2)).real_mul k

/-- A coil next to a straight wire along the `x` axis. -/
example : ∀ p ∈ coil ⟨0, 1, 0⟩ ⟨1, 0, 0⟩ ⟨0, 1, 0⟩, Off [⟨0, 0, 0⟩, ⟨1, 0, 0⟩] p := by
  rintro p ⟨a, ha, b, hb, rfl⟩
  simp only [Off, List.isChain_cons_cons, OffLine, List.isChain_singleton, and_true]
  intro h
  have := congrArg V3.z h
  simp [V3.cross] at this
  linarith [hb.1]

end Verif.Static
