import Verif.Props.Reflection
import Verif.Model.FdemHalfspace
import Verif.Spec.StaticLimit
import Mathlib.Analysis.Calculus.Deriv.Inv
import Mathlib.Analysis.SpecialFunctions.Exp
import Mathlib.Analysis.Complex.RealDeriv

/-!
# C123: thick layers hide what is below them, thin layers do not matter

As a layer of a layered earth gets thicker its reflection coefficient, and the field of a dipole above it, tend to those of the earth that
consists of the layers above it and of its own material below; the difference falls at least like `exp(-2 Re(u) h)`, where `h` is the thickness
and `u` the vertical wavenumber of the layer.  As a layer gets thinner they tend to those of the earth without the layer.
-/

namespace Verif.RTE

open Complex Filter Topology Asymptotics

/-- The recursion from the top of layer `m` upwards depends smoothly on the admittance there. -/
theorem differentiableAt_downLoop {c : Col} (hd : Defined c) {m : ℕ} (hm : m ≤ c.n) :
    DifferentiableAt ℂ (downLoop m fun k => stepOf (c.Y k) (c.t k)) (c.yh m) := by
  induction m with
  | zero => exact differentiableAt_id
  | succ m ih =>
    have hlt : m < c.n := hm
    have h1 := ih hlt.le
    rw [c.yh_succ hlt] at h1
    have h2 : DifferentiableAt ℂ (stepOf (c.Y m) (c.t m)) (c.yh (m + 1)) := by
      unfold stepOf
      exact DifferentiableAt.div (by fun_prop) (by fun_prop) (hd.denominator m hlt)
    exact h1.comp (c.yh (m + 1)) h2

/-- The reflection coefficient as a function of the admittance at the top of layer `m`. -/
theorem differentiableAt_top {c : Col} (hd : Defined c) {m : ℕ} (hm : m ≤ c.n) :
    DifferentiableAt ℂ (fun y => (c.Y0 - downLoop m (fun k => stepOf (c.Y k) (c.t k)) y) /
      (c.Y0 + downLoop m (fun k => stepOf (c.Y k) (c.t k)) y)) (c.yh m) := by
  have h := differentiableAt_downLoop hd hm
  refine DifferentiableAt.div (h.const_sub _) (h.const_add _) ?_
  rw [← yh_zero_split c hm]
  exact hd.last

/-- The earth whose lowest layer is layer `j`. -/
def Col.cut (c : Col) (j : ℕ) : Col := { c with n := j }

/-- The earth with another thickness of layer `j`. -/
def Col.thick (c : Col) (j : ℕ) (d : ℝ) : Col := { c with h := Function.update c.h j d }

theorem cut_physical {c : Col} (hc : Physical c) {j : ℕ} (hj : j ≤ c.n) : Physical (c.cut j) :=
  ⟨hc.omega_pos, hc.mu0_pos, fun k hk => hc.mu_pos k (hk.trans hj), fun k hk => hc.h_nonneg k (lt_of_lt_of_le hk hj),
    hc.sigma.imp (fun h k hk => h k (hk.trans hj)) fun h => ⟨h.1, fun k hk => h.2 k (hk.trans hj)⟩⟩

theorem thick_physical {c : Col} (hc : Physical c) (j : ℕ) {d : ℝ} (hd : 0 ≤ d) : Physical (c.thick j d) :=
  ⟨hc.omega_pos, hc.mu0_pos, hc.mu_pos, fun k hk => by
    by_cases h : k = j
    · subst h; simpa [Col.thick] using hd
    · simpa [Col.thick, h] using hc.h_nonneg k hk, hc.sigma⟩

theorem thick_yh {c : Col} {j k : ℕ} (hk : j < k) (d : ℝ) : (c.thick j d).yh k = c.yh k := by
  unfold Col.yh
  refine downLoop_congr _ _ _ (fun i _ => ?_) _
  funext y
  have : k + i ≠ j := by omega
  simp [Col.Y, Col.t, Col.u, Col.thick, this]

/-- The reflection coefficient with another thickness of layer `j`. -/
theorem forward_thick {c : Col} {j : ℕ} (hj : j < c.n) (d : ℝ) :
    forward (c.thick j d) = (fun y => (c.Y0 - downLoop j (fun k => stepOf (c.Y k) (c.t k)) y) /
      (c.Y0 + downLoop j (fun k => stepOf (c.Y k) (c.t k)) y)) (stepOf (c.Y j) (tanhOf (c.u j) d) (c.yh (j + 1))) := by
  have h0 : (c.thick j d).yh j = stepOf (c.Y j) (tanhOf (c.u j) d) (c.yh (j + 1)) := by
    rw [(c.thick j d).yh_succ hj, thick_yh (Nat.lt_succ_self j)]
    simp [Col.Y, Col.t, Col.u, Col.thick]
  have h1 : downLoop j (fun k => stepOf ((c.thick j d).Y k) ((c.thick j d).t k)) = downLoop j (fun k => stepOf (c.Y k) (c.t k)) := by
    funext y
    refine downLoop_congr _ _ _ (fun k hk => ?_) _
    have : k ≠ j := by omega
    funext y
    simp [Col.Y, Col.t, Col.u, Col.thick, this]
  rw [forward_eq, yh_zero_split (c.thick j d) (show j ≤ (c.thick j d).n from hj.le), h0, h1]
  rfl

theorem forward_cut {c : Col} (j : ℕ) :
    forward (c.cut j) = (fun y => (c.Y0 - downLoop j (fun k => stepOf (c.Y k) (c.t k)) y) /
      (c.Y0 + downLoop j (fun k => stepOf (c.Y k) (c.t k)) y)) (c.Y j) := by
  rw [forward_eq, Col.yh_zero]
  rfl

theorem step_exp {Y y u : ℂ} {d : ℝ} (hu : 0 < u.re) (hd : 0 < d) :
    stepOf Y (tanhOf u d) y = Y * (y * (1 + Complex.exp (-2 * u * d)) + Y * (1 - Complex.exp (-2 * u * d))) /
      (Y * (1 + Complex.exp (-2 * u * d)) + y * (1 - Complex.exp (-2 * u * d))) := by
  have hn : ‖Complex.exp (-2 * u * d)‖ < 1 := by
    rw [Complex.norm_exp]
    have : (-2 * u * d).re = -(2 * u.re * d) := by simp [Complex.mul_re]
    rw [this, Real.exp_lt_one_iff]
    have := mul_pos hu hd
    linarith
  have h1 : 1 + Complex.exp (-2 * u * d) ≠ 0 := by
    intro h
    have : Complex.exp (-2 * u * d) = -1 := by linear_combination h
    rw [this] at hn
    simp at hn
  have ht : tanhOf u d = (1 - Complex.exp (-2 * u * d)) / (1 + Complex.exp (-2 * u * d)) := by
    have hz := Complex.exp_ne_zero (u * d)
    have e : Complex.exp (-2 * u * d) = Complex.exp (-(u * d)) * Complex.exp (-(u * d)) := by
      rw [← Complex.exp_add]; congr 1; ring
    rw [tanhOf, Complex.tanh_eq_sinh_div_cosh, Complex.sinh, Complex.cosh, div_div_div_cancel_right₀ two_ne_zero]
    rw [e] at h1 ⊢
    rw [Complex.exp_neg] at h1 ⊢
    have h2 : Complex.exp (u * d) + (Complex.exp (u * d))⁻¹ ≠ 0 := by
      intro h
      apply h1
      field_simp at h ⊢
      linear_combination h
    rw [div_eq_div_iff h2 h1]
    field_simp
  rw [ht, stepOf]
  generalize Complex.exp (-2 * u * d) = E at *
  have e1 : y + Y * ((1 - E) / (1 + E)) = (y * (1 + E) + Y * (1 - E)) / (1 + E) := by field_simp
  have e2 : Y + y * ((1 - E) / (1 + E)) = (Y * (1 + E) + y * (1 - E)) / (1 + E) := by field_simp
  rw [e1, e2, mul_div_assoc', div_div_div_cancel_right₀ h1]

theorem sum_ne_zero {c : Col} (hc : Physical c) {j : ℕ} (hj : j < c.n) : c.Y j + c.yh (j + 1) ≠ 0 := by
  have hj1 : j + 1 ≤ c.n := hj
  obtain ⟨a1, a2⟩ := yh_sector hc hj1
  obtain ⟨b1, b2⟩ := yh_sector (cut_physical hc hj.le) (le_refl (c.cut j).n)
  rw [Col.yh_n] at b1 b2
  have e : (c.cut j).Y (c.cut j).n = c.Y j := rfl
  rw [e] at b1 b2
  intro h
  rcases hc.sigma with hs | ⟨-, hs⟩
  · have h1 := a1 hs
    have h2 := b1 fun k hk => hs k (hk.trans hj.le)
    have := congrArg Complex.re h
    simp only [Complex.add_re, Complex.zero_re] at this
    linarith
  · have h1 := (a2 fun k hk => (hs k hk).2).2
    have h2 := (b2 fun k hk => (hs k (hk.trans hj.le)).2).2
    have := congrArg Complex.im h
    simp only [Complex.add_im, Complex.zero_im] at this
    linarith

/-- **C123.** The effect of everything below layer `j` falls at least exponentially with the thickness of the layer. -/
theorem thick_layer_rate {c : Col} (hc : Physical c) {j : ℕ} (hj : j < c.n) :
    (fun d => forward (c.thick j d) - forward (c.cut j)) =O[atTop] fun d => Real.exp (-2 * (c.u j).re * d) := by
  have hp := cut_physical hc hj.le
  have hd := differentiableAt_top (physical_defined _ hp) (le_refl (c.cut j).n)
  rw [Col.yh_n] at hd
  have hs := sum_ne_zero hc hj
  set ψ : ℂ → ℂ := fun y => (c.Y0 - downLoop j (fun k => stepOf (c.Y k) (c.t k)) y) / (c.Y0 + downLoop j (fun k => stepOf (c.Y k) (c.t k)) y) with hψ
  set φ : ℂ → ℂ := fun E => c.Y j * (c.yh (j + 1) * (1 + E) + c.Y j * (1 - E)) / (c.Y j * (1 + E) + c.yh (j + 1) * (1 - E)) with hφ
  have hY : c.Y j ≠ 0 := (physical_defined _ hc).admittance j hj.le
  have φ0 : φ 0 = c.Y j := by
    simp only [hφ, add_zero, sub_zero, mul_one]
    rw [mul_div_assoc, add_comm (c.yh (j + 1)), div_self hs, mul_one]
  have dφ : DifferentiableAt ℂ φ 0 := by
    refine DifferentiableAt.div (by fun_prop) (by fun_prop) ?_
    simpa using hs
  have dψ : DifferentiableAt ℂ ψ (φ 0) := by rw [φ0]; exact hd
  have big := (dψ.comp 0 dφ).hasDerivAt.isBigO_sub
  have hu := u_re_pos hc hj.le
  have hn : ∀ d : ℝ, ‖Complex.exp (-2 * c.u j * d)‖ = Real.exp (-2 * (c.u j).re * d) := fun d => by
    rw [Complex.norm_exp]; congr 1; simp [Complex.mul_re]
  have lim : Tendsto (fun d : ℝ => Complex.exp (-2 * c.u j * d)) atTop (𝓝 0) := by
    rw [tendsto_zero_iff_norm_tendsto_zero]
    simp only [hn]
    refine Real.tendsto_exp_atBot.comp ?_
    exact tendsto_id.const_mul_atTop_of_neg (by linarith)
  have h := big.comp_tendsto lim
  refine (h.congr' ?_ ?_).trans (isBigO_of_le _ fun d => ?_) (g := fun d : ℝ => Complex.exp (-2 * c.u j * d))
  · filter_upwards [eventually_gt_atTop 0] with d hd0
    simp only [Function.comp, forward_thick hj, forward_cut j, φ0]
    rw [step_exp hu hd0]
  · exact Eventually.of_forall fun d => by simp
  · rw [hn, Real.norm_of_nonneg (Real.exp_pos _).le]

/-- **C123.** As layer `j` gets thicker the reflection coefficient tends to that of the earth whose lowest layer is layer `j`. -/
theorem thick_layer {c : Col} (hc : Physical c) {j : ℕ} (hj : j < c.n) :
    Tendsto (fun d => forward (c.thick j d)) atTop (𝓝 (forward (c.cut j))) := by
  have hu := u_re_pos hc hj.le
  have lim : Tendsto (fun d : ℝ => Real.exp (-2 * (c.u j).re * d)) atTop (𝓝 0) :=
    Real.tendsto_exp_atBot.comp (tendsto_id.const_mul_atTop_of_neg (by linarith))
  have h := ((thick_layer_rate hc hj).trans_tendsto lim).add_const (forward (c.cut j))
  simpa using h

/-- **C123.** As layer `j` gets thinner the reflection coefficient tends to that of the earth without the layer. -/
theorem thin_layer {c : Col} (hc : Physical c) {j : ℕ} (hj : j ≤ c.n) (s m : ℂ) (hY : yOf c.omega c.lamb m s ≠ 0) :
    Tendsto (fun d => forward (c.insert j s m d)) (𝓝 0) (𝓝 (forward c)) := by
  have hd := differentiableAt_top (physical_defined _ hc) hj
  have hs : ContinuousAt (fun d : ℝ => stepOf (yOf c.omega c.lamb m s) (tanhOf (uOf c.omega c.lamb m s) d) (c.yh j)) 0 := by
    unfold stepOf tanhOf
    have ht : ContinuousAt (fun d : ℝ => Complex.tanh (uOf c.omega c.lamb m s * d)) 0 := by
      simp only [Complex.tanh_eq_sinh_div_cosh]
      exact ContinuousAt.div (by fun_prop) (by fun_prop) (by simp)
    exact ContinuousAt.div (by fun_prop) (by fun_prop) (by simpa using hY)
  have h0 : stepOf (yOf c.omega c.lamb m s) (tanhOf (uOf c.omega c.lamb m s) (0 : ℝ)) (c.yh j) = c.yh j := stepOf_zero hY
  have hc' := hd.continuousAt
  rw [← h0] at hc'
  have h := (ContinuousAt.comp (f := fun d : ℝ => stepOf (yOf c.omega c.lamb m s) (tanhOf (uOf c.omega c.lamb m s) d) (c.yh j)) hc' hs).tendsto
  simp only [Function.comp, h0, ← yh_zero_split c hj, ← forward_eq] at h
  refine h.congr fun d => ?_
  rw [forward_eq, insert_yh_zero c j s m d hj]
  rfl

end Verif.RTE

namespace Verif.Fdem

open Filter Topology RTE

theorem tendsto_transform {ι : Type*} {l : Filter ι} (filter : List Tap) {f : ι → Tap → ℂ} {g : Tap → ℂ}
    (h : ∀ t ∈ filter, Tendsto (fun i => f i t) l (𝓝 (g t))) : Tendsto (fun i => transform filter (f i)) l (𝓝 (transform filter g)) := by
  induction filter with
  | nil => simpa [transform] using tendsto_const_nhds
  | cons a as ih =>
    have := (h a (by simp)).add (ih fun t ht => h t (by simp [ht]))
    simpa [transform] using this

/-- The offset of a station from the dipole. -/
noncomputable def LayeredDipole.offset (s : LayeredDipole) (p : V3 ℝ) : ℝ := √((p - s.location).x ^ 2 + (p - s.location).y ^ 2)

/-- The column of the reflection recursion at one wave number. -/
noncomputable def LayeredDipole.col (mu0 : ℝ) (s : LayeredDipole) (lamb : ℝ) : Col :=
  ⟨omegaOf s.frequency, lamb, mu0, s.nThick, s.sigmaHat, s.mu, s.thickness⟩

/-- The field above a layered earth follows the reflection coefficients. -/
theorem LayeredDipole.fieldAt_tends {ι : Type*} {l : Filter ι} (filter : List Tap) (mu0 : ℝ) (s : LayeredDipole) (n : ι → ℕ) (th : ι → ℕ → ℝ)
    (sg mm : ι → ℕ → ℂ) (p : V3 ℝ) (field : String) (s₀ : LayeredDipole) (hf : s₀.location = s.location ∧ s₀.orientation = s.orientation ∧ s₀.moment = s.moment)
    (h : ∀ t ∈ filter, Tendsto (fun i => LayeredDipole.rTE mu0 { s with nThick := n i, thickness := th i, sigmaHat := sg i, mu := mm i }
      (t.base / s.offset p)) l (𝓝 (s₀.rTE mu0 (t.base / s.offset p)))) :
    V3.Tends (fun i => LayeredDipole.fieldAt filter mu0 { s with nThick := n i, thickness := th i, sigmaHat := sg i, mu := mm i } p field) l
      (s₀.fieldAt filter mu0 p field) := by
  obtain ⟨h1, h2, h3⟩ := hf
  have key : ∀ (a b : Tap → ℂ), Tendsto (fun i =>
      (transform filter (fun t => a t * (LayeredDipole.rTE mu0 { s with nThick := n i, thickness := th i, sigmaHat := sg i, mu := mm i } (t.base / s.offset p) *
          Real.exp (-(t.base / s.offset p) * (p.z + s.location.z))) * t.j0) +
        transform filter (fun t => b t * (LayeredDipole.rTE mu0 { s with nThick := n i, thickness := th i, sigmaHat := sg i, mu := mm i } (t.base / s.offset p) *
          Real.exp (-(t.base / s.offset p) * (p.z + s.location.z))) * t.j1)) / s.offset p) l
      (𝓝 ((transform filter (fun t => a t * (s₀.rTE mu0 (t.base / s.offset p) * Real.exp (-(t.base / s.offset p) * (p.z + s.location.z))) * t.j0) +
        transform filter (fun t => b t * (s₀.rTE mu0 (t.base / s.offset p) * Real.exp (-(t.base / s.offset p) * (p.z + s.location.z))) * t.j1)) /
          s.offset p)) := by
    intro a b
    refine Tendsto.div_const (Tendsto.add ?_ ?_) _
    · exact tendsto_transform filter fun t ht => (((h t ht).mul_const _).const_mul _).mul_const _
    · exact tendsto_transform filter fun t ht => (((h t ht).mul_const _).const_mul _).mul_const _
  simp only [LayeredDipole.offset] at key
  simp only [LayeredDipole.fieldAt, h1, h2, h3]
  split_ifs
  · refine ⟨?_, ?_, ?_⟩ <;> simp only [V3.smul_x, V3.smul_y, V3.smul_z, V3.add_x, V3.add_y, V3.add_z, smul_eq_mul] <;>
      exact ((key _ _).add_const _).const_mul _
  · refine ⟨?_, ?_, ?_⟩ <;> simp only [V3.smul_x, V3.smul_y, V3.smul_z, smul_eq_mul] <;> exact (key _ _).const_mul _

/-- **C123.** As layer `j` gets thicker the field above tends to the field above the earth whose lowest layer is layer `j`. -/
theorem LayeredDipole.thick_layer (filter : List Tap) (mu0 : ℝ) (s : LayeredDipole) (p : V3 ℝ) (field : String) {j : ℕ} (hj : j < s.nThick)
    (hp : ∀ t ∈ filter, Physical (s.col mu0 (t.base / s.offset p))) :
    V3.Tends (fun d => ({ s with thickness := Function.update s.thickness j d } : LayeredDipole).fieldAt filter mu0 p field) atTop
      (({ s with nThick := j } : LayeredDipole).fieldAt filter mu0 p field) :=
  LayeredDipole.fieldAt_tends filter mu0 s (fun _ => s.nThick) (fun d => Function.update s.thickness j d) (fun _ => s.sigmaHat) (fun _ => s.mu) p field
    { s with nThick := j } ⟨rfl, rfl, rfl⟩ fun t ht => RTE.thick_layer (hp t ht) hj

/-- **C123.** As layer `j` gets thinner the field above tends to the field above the earth without the layer. -/
theorem LayeredDipole.thin_layer (filter : List Tap) (mu0 : ℝ) (s : LayeredDipole) (p : V3 ℝ) (field : String) {j : ℕ} (hj : j ≤ s.nThick)
    (sg m : ℂ) (hp : ∀ t ∈ filter, Physical (s.col mu0 (t.base / s.offset p)))
    (hY : ∀ t ∈ filter, yOf (omegaOf s.frequency) (t.base / s.offset p) m sg ≠ 0) :
    V3.Tends (fun d => ({ s with
        nThick := s.nThick + 1, thickness := insertAt j d s.thickness, sigmaHat := insertAt j sg s.sigmaHat, mu := insertAt j m s.mu } :
        LayeredDipole).fieldAt filter mu0 p field) (𝓝 0) (s.fieldAt filter mu0 p field) :=
  LayeredDipole.fieldAt_tends filter mu0 s (fun _ => s.nThick + 1) (fun d => insertAt j d s.thickness) (fun _ => insertAt j sg s.sigmaHat)
    (fun _ => insertAt j m s.mu) p field s ⟨rfl, rfl, rfl⟩ fun t ht => RTE.thin_layer (hp t ht) hj sg m (hY t ht)

/-- The hypotheses are met by three conducting layers, whatever the filter. -/
example (filter : List Tap) (p : V3 ℝ) : ∀ t ∈ filter,
    Physical ((⟨1, 2, fun _ => 1, fun k => (k + 1 : ℕ), fun _ => 1, ⟨0, 0, 1⟩, ⟨0, 0, 1⟩, 1⟩ : LayeredDipole).col 1 (t.base / p.x)) := by
  intro t _
  refine ⟨?_, one_pos, fun k _ => by simp [LayeredDipole.col], fun k _ => by simp [LayeredDipole.col], Or.inl fun k _ => ?_⟩
  · simp [LayeredDipole.col, omegaOf, Real.pi_pos]
  · simp only [LayeredDipole.col, Complex.natCast_re]
    positivity

end Verif.Fdem
