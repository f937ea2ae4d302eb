import Verif.Props.LayerLimits
import Mathlib.Analysis.Complex.Schwarz

/-!
# C127: the skin effect

How little an earth whose upper layers are conductors shows of what lies below them: the bound for every earth, thickness, wave number and
frequency. -/

namespace Verif.RTE

open Complex Filter Topology

/-- One layer of a passive earth takes admittances of the lower half of the plane to such admittances. -/
theorem step_lower {c : Col} (hc : Physical c) {k : ℕ} (hk : k < c.n) (hs : (c.sigma k).im ≤ 0) {y : ℂ} (hy : y.im < 0) :
    (stepOf (c.Y k) (c.t k) y).im < 0 ∧ c.Y k + y * c.t k ≠ 0 := by
  obtain ⟨P, E, -, him, hE, hd, hch, hY, hst⟩ := layer hc hk y
  have hP : P.im < 0 := lt_of_le_of_lt (him hs) hy
  have hE0 : E ≠ 0 := fun e => by rw [hE e] at hP; simp at hP
  refine ⟨?_, ?_⟩
  · rw [hst hE0, div_ofReal_im]
    exact div_neg_of_neg_of_pos hP (normSq_pos.2 hE0)
  · rw [hd]
    exact div_ne_zero (mul_ne_zero hY hE0) hch

theorem loop_lower {c : Col} (hc : Physical c) (hs : ∀ k ≤ c.n, (c.sigma k).im ≤ 0) {m : ℕ} (hm : m ≤ c.n) {y : ℂ} (hy : y.im < 0) :
    (downLoop m (fun k => stepOf (c.Y k) (c.t k)) y).im < 0 ∧ DifferentiableAt ℂ (downLoop m fun k => stepOf (c.Y k) (c.t k)) y := by
  induction m generalizing y with
  | zero => exact ⟨hy, differentiableAt_id⟩
  | succ m ih =>
    obtain ⟨h1, h2⟩ := step_lower hc (show m < c.n from hm) (hs m (by omega)) hy
    obtain ⟨i1, i2⟩ := ih (by omega) h1
    refine ⟨i1, ?_⟩
    have h3 : DifferentiableAt ℂ (stepOf (c.Y m) (c.t m)) y := by
      unfold stepOf
      exact DifferentiableAt.div (by fun_prop) (by fun_prop) h2
    exact i2.comp y h3

/-- A reflection coefficient of an admittance in the lower half of the plane. -/
theorem top_lower {a : ℝ} (ha : 0 ≤ a) {y : ℂ} (hy : y.im < 0) : -I * (a : ℂ) + y ≠ 0 ∧ ‖(-I * (a : ℂ) - y) / (-I * (a : ℂ) + y)‖ ≤ 1 := by
  have h0 : -I * (a : ℂ) + y ≠ 0 := by
    intro h
    have := congrArg Complex.im h
    simp at this
    linarith
  refine ⟨h0, ?_⟩
  rw [norm_div, div_le_one (norm_pos_iff.2 h0)]
  refine le_of_sq_le_sq ?_ (norm_nonneg _)
  rw [Complex.sq_norm, Complex.sq_norm, normSq_apply, normSq_apply]
  simp
  nlinarith [mul_nonneg ha (neg_pos.2 hy).le]

/-- A function of the lower half of the plane with values of at most one: how far its values at two points may be apart. -/
theorem schwarz_lower {F : ℂ → ℂ} (hd : ∀ y : ℂ, y.im < 0 → DifferentiableAt ℂ F y) (hb : ∀ y : ℂ, y.im < 0 → ‖F y‖ ≤ 1) {y Y : ℂ}
    (hy : y.im < 0) (hY : Y.im < 0) : ‖F y - F Y‖ ≤ 2 * (‖y - Y‖ / ‖y - star Y‖) := by
  have hYs : (star Y).im = -Y.im := by simp
  have im_lt : ∀ z : ℂ, ‖z‖ < 1 → ((Y - star Y * z) / (1 - z)).im < 0 ∧ 1 - z ≠ 0 := by
    intro z hz
    have h1 : 1 - z ≠ 0 := by
      intro h
      rw [sub_eq_zero] at h
      rw [← h] at hz
      simp at hz
    refine ⟨?_, h1⟩
    have hz2 : normSq z < 1 := by
      rw [← Complex.sq_norm]
      nlinarith [norm_nonneg z]
    rw [Complex.div_im, ← sub_div]
    refine div_neg_of_neg_of_pos ?_ (normSq_pos.2 h1)
    rw [normSq_apply] at hz2
    simp
    nlinarith
  have hne : y - star Y ≠ 0 := by
    intro h
    have := congrArg Complex.im h
    rw [sub_im, hYs, zero_im] at this
    linarith
  set z₀ : ℂ := (y - Y) / (y - star Y) with hz₀
  have hz₀lt : ‖z₀‖ < 1 := by
    rw [hz₀, norm_div, div_lt_one (norm_pos_iff.2 hne)]
    refine lt_of_pow_lt_pow_left₀ 2 (norm_nonneg _) ?_
    rw [Complex.sq_norm, Complex.sq_norm, normSq_apply, normSq_apply]
    simp
    nlinarith [mul_pos (neg_pos.2 hy) (neg_pos.2 hY)]
  set f : ℂ → ℂ := fun z => F ((Y - star Y * z) / (1 - z)) with hf
  have f0 : f 0 = F Y := by simp [hf]
  have f1 : f z₀ = F y := by
    have h1 := (im_lt z₀ hz₀lt).2
    simp only [hf]
    congr 1
    rw [div_eq_iff h1, hz₀]
    field_simp
    ring
  have hdiff : DifferentiableOn ℂ f (Metric.ball 0 1) := by
    intro z hz
    rw [mem_ball_zero_iff] at hz
    obtain ⟨h1, h2⟩ := im_lt z hz
    refine DifferentiableAt.differentiableWithinAt ?_
    have : DifferentiableAt ℂ (fun z : ℂ => (Y - star Y * z) / (1 - z)) z := DifferentiableAt.div (by fun_prop) (by fun_prop) h2
    exact (hd _ h1).comp z this
  have hmaps : Set.MapsTo f (Metric.ball 0 1) (Metric.closedBall (f 0) 2) := by
    intro z hz
    rw [mem_ball_zero_iff] at hz
    rw [Metric.mem_closedBall, dist_eq_norm, f0]
    have h1 := hb _ (im_lt z hz).1
    have h2 := hb Y hY
    exact (norm_sub_le _ _).trans (by simp only [hf]; linarith)
  have := Complex.dist_le_div_mul_dist_of_mapsTo_ball hdiff hmaps (mem_ball_zero_iff.2 hz₀lt)
  rw [f0, f1, dist_eq_norm, dist_zero_right, hz₀, norm_div] at this
  linarith

/-- The square of the attenuation of a layer: at least that of a vertical wave. -/
theorem u_bounds {c : Col} (hc : Physical c) {k : ℕ} (hk : k ≤ c.n) (hs : (c.sigma k).im ≤ 0) :
    0 ≤ (c.u k).im ∧ (c.u k).im ≤ (c.u k).re ∧ c.omega * (c.mu k).re * (c.sigma k).re / 2 ≤ (c.u k).re ^ 2 := by
  obtain ⟨m0, mp⟩ := hc.mu_pos k hk
  have hmu : c.mu k = ((c.mu k).re : ℂ) := by apply Complex.ext <;> simp [m0]
  have hsr : 0 ≤ (c.sigma k).re := by
    rcases hc.sigma with hs | ⟨-, hs⟩
    · exact (hs k hk).le
    · exact (hs k hk).1
  have hp : 0 < c.omega * (c.mu k).re := mul_pos hc.omega_pos mp
  have h2 : c.u k ^ 2 = (c.lamb ^ 2 : ℝ) + ((c.omega * (c.mu k).re : ℝ) : ℂ) * (I * c.sigma k) := by
    have := u_sq c.omega c.lamb (c.mu k) (c.sigma k)
    rw [Col.u, this]
    conv_lhs => rw [hmu]
    push_cast; ring
  have hu := u_re_pos hc hk
  have him := congrArg Complex.im h2
  have hre := congrArg Complex.re h2
  rw [add_im, im_ofReal_mul, ofReal_im] at him
  rw [add_re, re_ofReal_mul, ofReal_re] at hre
  simp [pow_two, mul_im, mul_re] at him hre
  have hm := mul_nonneg hp.le hsr
  have hm2 := mul_nonneg hp.le (neg_nonneg.2 hs)
  have a1 : 0 ≤ (c.u k).im := by
    by_contra hn
    have := mul_pos hu (neg_pos.2 (not_le.1 hn))
    nlinarith
  have a2 : (c.u k).im ≤ (c.u k).re := by
    by_contra hn
    nlinarith [not_le.1 hn, sq_nonneg c.lamb]
  refine ⟨a1, a2, ?_⟩
  nlinarith

/-- The admittance of a passive layer lies in the lower eighth of the fourth quadrant. -/
theorem Y_bounds {c : Col} (hc : Physical c) {k : ℕ} (hk : k ≤ c.n) (hs : (c.sigma k).im ≤ 0) :
    (c.Y k).im < 0 ∧ 0 ≤ (c.Y k).re ∧ (c.Y k).re ≤ -(c.Y k).im := by
  obtain ⟨m0, mp⟩ := hc.mu_pos k hk
  have hmu : c.mu k = ((c.mu k).re : ℂ) := by apply Complex.ext <;> simp [m0]
  have hp : 0 < c.omega * (c.mu k).re := mul_pos hc.omega_pos mp
  have e : c.Y k = c.u k * (-I) / ((c.omega * (c.mu k).re : ℝ) : ℂ) := by
    have hw' : (c.omega : ℂ) ≠ 0 := ofReal_ne_zero.2 hc.omega_pos.ne'
    have hm' : ((c.mu k).re : ℂ) ≠ 0 := ofReal_ne_zero.2 mp.ne'
    rw [Col.Y, yOf, hmu]
    simp only [ofReal_re]
    rw [show uOf c.omega c.lamb ((c.mu k).re : ℂ) (c.sigma k) = c.u k by rw [Col.u, ← hmu]]
    push_cast
    field_simp
    linear_combination (c.u k) * I_sq
  have er : (c.Y k).re = (c.u k).im / (c.omega * (c.mu k).re) := by
    rw [e, div_ofReal_re]; simp
  have ei : (c.Y k).im = -((c.u k).re / (c.omega * (c.mu k).re)) := by
    rw [e, div_ofReal_im, ← neg_div]; simp
  obtain ⟨h1, h2, -⟩ := u_bounds hc hk hs
  rw [er, ei, neg_neg]
  exact ⟨neg_neg_of_pos (div_pos (u_re_pos hc hk) hp), div_nonneg h1 hp.le, div_le_div_of_nonneg_right h2 hp.le⟩

/-- What a layer of thickness `d` leaves of the contrast below it. -/
theorem step_near {Y y u : ℂ} {d : ℝ} (hu : 0 < u.re) (hd : 0 < d) (hY : Y ≠ 0) (hq : 0 ≤ (y * star Y).re) :
    ‖stepOf Y (tanhOf u d) y - Y‖ ≤ ‖Y‖ * (2 * Real.exp (-2 * u.re * d) / (1 - Real.exp (-2 * u.re * d))) := by
  have hn : ‖Complex.exp (-2 * u * d)‖ = Real.exp (-2 * u.re * d) := by
    rw [Complex.norm_exp]; congr 1; simp [Complex.mul_re]
  have hlt : Real.exp (-2 * u.re * d) < 1 := by
    rw [Real.exp_lt_one_iff]
    have := mul_pos hu hd
    linarith
  rw [step_exp hu hd, ← hn]
  rw [← hn] at hlt
  generalize Complex.exp (-2 * u * d) = E at *
  have hYn : 0 < normSq Y := normSq_pos.2 hY
  have key : normSq (y - Y) ≤ normSq (y + Y) := by
    have : (y * star Y).re = y.re * Y.re + y.im * Y.im := by simp [mul_re]
    rw [this] at hq
    rw [normSq_apply, normSq_apply]
    simp
    nlinarith
  have hs : y + Y ≠ 0 := by
    intro h
    have h1 : y = -Y := by linear_combination h
    rw [h1] at hq
    have : (-Y * star Y).re = -normSq Y := by rw [normSq_apply]; simp [mul_re]
    linarith
  have hΓ : ‖(y - Y) / (y + Y)‖ ≤ 1 := by
    rw [norm_div, div_le_one (norm_pos_iff.2 hs)]
    rw [← Complex.sq_norm, ← Complex.sq_norm] at key
    exact le_of_sq_le_sq key (norm_nonneg _)
  set G : ℂ := (y - Y) / (y + Y) with hG
  have hGE : ‖G * E‖ ≤ ‖E‖ := by
    rw [norm_mul]
    exact mul_le_of_le_one_left (norm_nonneg _) hΓ
  have hden : 1 - ‖E‖ ≤ ‖1 - G * E‖ := by
    have := norm_sub_norm_le (1 : ℂ) (G * E)
    rw [norm_one] at this
    linarith
  have hden0 : 1 - G * E ≠ 0 := by
    intro h
    rw [h, norm_zero] at hden
    linarith
  have e : Y * (y * (1 + E) + Y * (1 - E)) / (Y * (1 + E) + y * (1 - E)) - Y = Y * (2 * (G * E) / (1 - G * E)) := by
    have h1 : Y * (1 + E) + y * (1 - E) = (y + Y) * (1 - G * E) := by
      rw [hG]; field_simp; ring
    have h2 : y * (1 + E) + Y * (1 - E) = (y + Y) * (1 + G * E) := by
      rw [hG]; field_simp; ring
    rw [h1, h2]
    field_simp
    ring
  rw [e, norm_mul, norm_div, norm_mul]
  refine mul_le_mul_of_nonneg_left ?_ (norm_nonneg _)
  rw [show ‖(2 : ℂ)‖ = 2 by simp]
  exact div_le_div₀ (by positivity) (by linarith) (by linarith) hden

/-- **C127.** What lies below layer `j` shows at the surface by at most `4√2·e/(1 − e)`, where `e = exp(−2·Re u·h)` is what a wave loses on its
way down and up through the layer: whatever is above and below, and at every wave number. -/
theorem hidden_below {c : Col} (hc : Physical c) (hl : 0 ≤ c.lamb) (hs : ∀ k ≤ c.n, (c.sigma k).im ≤ 0) {j : ℕ} (hj : j < c.n) (hh : 0 < c.h j) :
    ‖forward c - forward (c.cut j)‖ ≤ 4 * √2 * (Real.exp (-2 * (c.u j).re * c.h j) / (1 - Real.exp (-2 * (c.u j).re * c.h j))) := by
  set F : ℂ → ℂ := fun y => (c.Y0 - downLoop j (fun k => stepOf (c.Y k) (c.t k)) y) / (c.Y0 + downLoop j (fun k => stepOf (c.Y k) (c.t k)) y) with hF
  have e1 : forward c = F (c.yh j) := by rw [forward_eq, yh_zero_split c hj.le]
  have e2 : forward (c.cut j) = F (c.Y j) := forward_cut j
  have ha : 0 ≤ c.lamb / (c.omega * c.mu0) := div_nonneg hl (mul_pos hc.omega_pos hc.mu0_pos).le
  have hb : ∀ y : ℂ, y.im < 0 → ‖F y‖ ≤ 1 := fun y hy => by
    simp only [hF, Y0_eq]
    exact (top_lower ha (loop_lower hc hs hj.le hy).1).2
  have hd : ∀ y : ℂ, y.im < 0 → DifferentiableAt ℂ F y := fun y hy => by
    obtain ⟨h1, h2⟩ := loop_lower hc hs hj.le hy
    refine DifferentiableAt.div (h2.const_sub _) (h2.const_add _) ?_
    rw [Y0_eq]
    exact (top_lower ha h1).1
  obtain ⟨-, hy⟩ := (yh_sector hc hj.le).2 hs
  obtain ⟨q1, q2⟩ := (yh_sector hc (show j + 1 ≤ c.n from hj)).2 hs
  obtain ⟨b1, b2, b3⟩ := Y_bounds hc hj.le (hs j hj.le)
  have hY0 : c.Y j ≠ 0 := fun h => by rw [h] at b1; simp at b1
  have hu := u_re_pos hc hj.le
  have near : ‖c.yh j - c.Y j‖ ≤ ‖c.Y j‖ * (2 * Real.exp (-2 * (c.u j).re * c.h j) / (1 - Real.exp (-2 * (c.u j).re * c.h j))) := by
    rw [c.yh_succ hj]
    refine step_near hu hh hY0 ?_
    have : (c.yh (j + 1) * star (c.Y j)).re = (c.yh (j + 1)).re * (c.Y j).re + (c.yh (j + 1)).im * (c.Y j).im := by simp [mul_re]
    rw [this]
    nlinarith [mul_nonneg q1 b2, mul_pos (neg_pos.2 q2) (neg_pos.2 b1)]
  have hlt : Real.exp (-2 * (c.u j).re * c.h j) < 1 := by
    rw [Real.exp_lt_one_iff]
    have := mul_pos hu hh
    linarith
  have hep := Real.exp_pos (-2 * (c.u j).re * c.h j)
  rw [e1, e2]
  refine (schwarz_lower hd hb hy b1).trans ?_
  generalize Real.exp (-2 * (c.u j).re * c.h j) = e at *
  have h1 : -(c.Y j).im ≤ ‖c.yh j - star (c.Y j)‖ := by
    have := Complex.abs_im_le_norm (c.yh j - star (c.Y j))
    have h2 : (c.yh j - star (c.Y j)).im = (c.yh j).im + (c.Y j).im := by simp
    rw [h2, abs_of_neg (by linarith)] at this
    linarith
  have h2 : ‖c.Y j‖ ≤ √2 * -(c.Y j).im := by
    refine le_of_sq_le_sq ?_ (by have := Real.sqrt_nonneg 2; nlinarith)
    rw [Complex.sq_norm, normSq_apply, mul_pow, Real.sq_sqrt (by norm_num)]
    nlinarith
  have hi : 0 < -(c.Y j).im := by linarith
  have hq : 0 ≤ 2 * e / (1 - e) := div_nonneg (by linarith) (by linarith)
  have h3 : ‖c.yh j - c.Y j‖ / ‖c.yh j - star (c.Y j)‖ ≤ √2 * (2 * e / (1 - e)) := by
    rw [div_le_iff₀ (lt_of_lt_of_le hi h1)]
    calc ‖c.yh j - c.Y j‖ ≤ ‖c.Y j‖ * (2 * e / (1 - e)) := near
      _ ≤ (√2 * -(c.Y j).im) * (2 * e / (1 - e)) := mul_le_mul_of_nonneg_right h2 hq
      _ = √2 * (2 * e / (1 - e)) * -(c.Y j).im := by ring
      _ ≤ _ := mul_le_mul_of_nonneg_left h1 (mul_nonneg (Real.sqrt_nonneg _) hq)
  calc 2 * (‖c.yh j - c.Y j‖ / ‖c.yh j - star (c.Y j)‖) ≤ 2 * (√2 * (2 * e / (1 - e))) := by linarith
    _ = 4 * √2 * (e / (1 - e)) := by ring

end Verif.RTE

namespace Verif.Fdem

open Filter Topology RTE

/-- An earth of real conductivities and permeabilities, as in the quasi-static approximation. -/
structure LayeredDipole.Conducting (s : LayeredDipole) (sigma mu : ℕ → ℝ) : Prop where
  sigmaHat : ∀ k, s.sigmaHat k = (sigma k : ℂ)
  mu_eq : ∀ k, s.mu k = (mu k : ℂ)
  sigma_pos : ∀ k, 0 < sigma k
  mu_pos : ∀ k, 0 < mu k
  thickness_pos : ∀ k, 0 < s.thickness k

theorem LayeredDipole.Conducting.physical {s : LayeredDipole} {sigma mu : ℕ → ℝ} (h : s.Conducting sigma mu) {mu0 : ℝ} (hm : 0 < mu0) (hf : 0 < s.frequency)
    (lamb : ℝ) : Physical (s.col mu0 lamb) := by
  refine ⟨?_, hm, fun k _ => ?_, fun k _ => (h.thickness_pos k).le, Or.inl fun k _ => ?_⟩
  · exact mul_pos (mul_pos two_pos Real.pi_pos) hf
  · simp only [LayeredDipole.col, h.mu_eq k, Complex.ofReal_im, Complex.ofReal_re]
    exact ⟨trivial, h.mu_pos k⟩
  · simp only [LayeredDipole.col, h.sigmaHat k, Complex.ofReal_re]
    exact h.sigma_pos k

/-- **C127.** The skin effect: what lies below layer `j` changes the reflection coefficient by at most `4√2/(exp(2h/δ) − 1)`, where `h` is the
thickness of the layer and `δ` the skin depth that the library gives for it: at every wave number, for every earth. -/
theorem LayeredDipole.skin_effect {s : LayeredDipole} {sigma mu : ℕ → ℝ} (h : s.Conducting sigma mu) {mu0 : ℝ} (hm : 0 < mu0) (hf : 0 < s.frequency)
    {lamb : ℝ} (hl : 0 ≤ lamb) {j : ℕ} (hj : j < s.nThick) (epsilon : ℝ) :
    ‖s.rTE mu0 lamb - ({ s with nThick := j } : LayeredDipole).rTE mu0 lamb‖ ≤
      4 * √2 / (Real.exp (2 * s.thickness j / skinDepth s.frequency (sigma j) (mu j) epsilon (.bool true)) - 1) := by
  have hp := h.physical hm hf lamb
  have hs : ∀ k ≤ (s.col mu0 lamb).n, ((s.col mu0 lamb).sigma k).im ≤ 0 := fun k _ => by
    simp only [LayeredDipole.col, h.sigmaHat k, Complex.ofReal_im, le_refl]
  have hh := h.thickness_pos j
  refine (hidden_below hp hl hs hj hh).trans ?_
  have hjn : j ≤ (s.col mu0 lamb).n := le_of_lt hj
  obtain ⟨-, -, hu⟩ := u_bounds hp hjn (hs j hjn)
  have hup := u_re_pos hp hjn
  have e1 : ((s.col mu0 lamb).mu j).re = mu j := by simp only [LayeredDipole.col, h.mu_eq j, Complex.ofReal_re]
  have e2 : ((s.col mu0 lamb).sigma j).re = sigma j := by simp only [LayeredDipole.col, h.sigmaHat j, Complex.ofReal_re]
  rw [e1, e2] at hu
  have hw : 0 < omega s.frequency := mul_pos (mul_pos two_pos Real.pi_pos) hf
  have hq : 0 < omega s.frequency * sigma j * mu j := mul_pos (mul_pos hw (h.sigma_pos j)) (h.mu_pos j)
  have hd : skinDepth s.frequency (sigma j) (mu j) epsilon (.bool true) = √(2 / (omega s.frequency * sigma j * mu j)) := by
    simp [skinDepth, Flag.truthy]
  have hd0 : 0 < √(2 / (omega s.frequency * sigma j * mu j)) := Real.sqrt_pos.2 (div_pos two_pos hq)
  rw [hd]
  set δ := √(2 / (omega s.frequency * sigma j * mu j)) with hδ
  have hinv : 1 / δ ≤ ((s.col mu0 lamb).u j).re := by
    refine le_of_sq_le_sq ?_ hup.le
    have : (1 / δ) ^ 2 = omega s.frequency * sigma j * mu j / 2 := by
      rw [div_pow, hδ, Real.sq_sqrt (div_pos two_pos hq).le, one_pow, one_div_div]
    rw [this]
    have e3 : (s.col mu0 lamb).omega = omega s.frequency := rfl
    rw [e3] at hu
    linarith
  have eh : (s.col mu0 lamb).h j = s.thickness j := rfl
  rw [eh]
  set x := 2 * ((s.col mu0 lamb).u j).re * s.thickness j with hx
  have hxl : 2 * s.thickness j / δ ≤ x := by
    have := mul_le_mul_of_nonneg_right hinv (show 0 ≤ 2 * s.thickness j by linarith)
    calc 2 * s.thickness j / δ = 1 / δ * (2 * s.thickness j) := by ring
      _ ≤ _ := this
      _ = x := by rw [hx]; ring
  have hx0 : 0 < 2 * s.thickness j / δ := by positivity
  rw [show -2 * ((s.col mu0 lamb).u j).re * s.thickness j = -x by rw [hx]; ring]
  have e4 : Real.exp (-x) / (1 - Real.exp (-x)) = 1 / (Real.exp x - 1) := by
    have h1 : Real.exp x - 1 ≠ 0 := by
      have := Real.add_one_lt_exp (show x ≠ 0 by linarith)
      linarith
    have h2 := Real.exp_pos x
    rw [Real.exp_neg]
    have h3 : 1 - (Real.exp x)⁻¹ ≠ 0 := by
      intro h0
      apply h1
      field_simp at h0
      linarith
    field_simp
  rw [e4, mul_one_div]
  have h5 : 0 < Real.exp (2 * s.thickness j / δ) - 1 := by
    have := Real.add_one_lt_exp hx0.ne'
    linarith
  refine div_le_div_of_nonneg_left (by positivity) h5 ?_
  have := Real.exp_le_exp.2 hxl
  linarith

/-- **C127.** At high frequencies the reflection coefficient sees nothing but the top layer, or the top layers. -/
theorem LayeredDipole.rTE_high_frequency {s : LayeredDipole} {sigma mu : ℕ → ℝ} (h : s.Conducting sigma mu) {mu0 : ℝ} (hm : 0 < mu0)
    {lamb : ℝ} (hl : 0 ≤ lamb) {j : ℕ} (hj : j < s.nThick) :
    Tendsto (fun f => ({ s with frequency := f } : LayeredDipole).rTE mu0 lamb - ({ s with frequency := f, nThick := j } : LayeredDipole).rTE mu0 lamb)
      atTop (𝓝 0) := by
  have hδ : Tendsto (fun f : ℝ => 2 * s.thickness j / skinDepth f (sigma j) (mu j) 1 (.bool true)) atTop atTop := by
    have hc : 0 < √(2 * Real.pi * sigma j * mu j / 2) :=
      Real.sqrt_pos.2 (by have := h.sigma_pos j; have := h.mu_pos j; have := Real.pi_pos; positivity)
    have hlim : Tendsto (fun f : ℝ => 2 * s.thickness j * √(2 * Real.pi * sigma j * mu j / 2) * √f) atTop atTop := by
      refine Tendsto.const_mul_atTop ?_ Real.tendsto_sqrt_atTop
      exact mul_pos (mul_pos two_pos (h.thickness_pos j)) hc
    refine hlim.congr' ?_
    filter_upwards [eventually_gt_atTop 0] with f hf
    have hd : skinDepth f (sigma j) (mu j) 1 (.bool true) = √(2 / (omega f * sigma j * mu j)) := by
      simp [skinDepth, Flag.truthy]
    have hn : 0 ≤ 2 * Real.pi * sigma j * mu j / 2 := by have := h.sigma_pos j; have := h.mu_pos j; have := Real.pi_pos; positivity
    rw [hd, div_eq_mul_inv (2 * s.thickness j), ← Real.sqrt_inv, inv_div, mul_assoc, ← Real.sqrt_mul hn, omega]
    congr 2
    ring
  have hb : Tendsto (fun f : ℝ => 4 * √2 / (Real.exp (2 * s.thickness j / skinDepth f (sigma j) (mu j) 1 (.bool true)) - 1)) atTop (𝓝 0) :=
    Tendsto.const_div_atTop (tendsto_atTop_add_const_right _ (-1) (Real.tendsto_exp_atTop.comp hδ)) _
  refine squeeze_zero_norm' ?_ hb
  filter_upwards [eventually_gt_atTop 0] with f hf
  exact LayeredDipole.skin_effect (s := { s with frequency := f }) (sigma := sigma) (mu := mu)
    ⟨h.sigmaHat, h.mu_eq, h.sigma_pos, h.mu_pos, h.thickness_pos⟩ hm hf hl hj 1

/-- The field above a layered earth follows the differences of reflection coefficients. -/
theorem LayeredDipole.fieldAt_sub_tends {ι : Type*} {l : Filter ι} (filter : List Tap) (mu0 : ℝ) (s : LayeredDipole) (a b : ι → LayeredDipole) (p : V3 ℝ)
    (field : String) (ha : ∀ i, (a i).location = s.location ∧ (a i).orientation = s.orientation ∧ (a i).moment = s.moment)
    (hb : ∀ i, (b i).location = s.location ∧ (b i).orientation = s.orientation ∧ (b i).moment = s.moment)
    (h : ∀ t ∈ filter, Tendsto (fun i => (a i).rTE mu0 (t.base / s.offset p) - (b i).rTE mu0 (t.base / s.offset p)) l (𝓝 0)) :
    V3.Tends (fun i => (a i).fieldAt filter mu0 p field - (b i).fieldAt filter mu0 p field) l 0 := by
  have tsub : ∀ (f g : Tap → ℂ), transform filter f - transform filter g = transform filter fun t => f t - g t := by
    intro f g
    unfold transform
    induction filter with
    | nil => simp
    | cons x xs ih =>
      have := ih fun t ht => h t (by simp [ht])
      simp only [List.map_cons, List.sum_cons]
      linear_combination this
  have key : ∀ (A B : Tap → ℂ), Tendsto (fun i =>
      (transform filter (fun t => A t * ((a i).rTE mu0 (t.base / s.offset p) * Real.exp (-(t.base / s.offset p) * (p.z + s.location.z))) * t.j0) +
        transform filter (fun t => B t * ((a i).rTE mu0 (t.base / s.offset p) * Real.exp (-(t.base / s.offset p) * (p.z + s.location.z))) * t.j1)) / s.offset p -
      (transform filter (fun t => A t * ((b i).rTE mu0 (t.base / s.offset p) * Real.exp (-(t.base / s.offset p) * (p.z + s.location.z))) * t.j0) +
        transform filter (fun t => B t * ((b i).rTE mu0 (t.base / s.offset p) * Real.exp (-(t.base / s.offset p) * (p.z + s.location.z))) * t.j1)) / s.offset p)
      l (𝓝 0) := by
    intro A B
    have h1 : Tendsto (fun i => (transform filter (fun t => A t * (((a i).rTE mu0 (t.base / s.offset p) - (b i).rTE mu0 (t.base / s.offset p)) *
          Real.exp (-(t.base / s.offset p) * (p.z + s.location.z))) * t.j0) +
        transform filter (fun t => B t * (((a i).rTE mu0 (t.base / s.offset p) - (b i).rTE mu0 (t.base / s.offset p)) *
          Real.exp (-(t.base / s.offset p) * (p.z + s.location.z))) * t.j1)) / s.offset p) l
        (𝓝 ((transform filter (fun t => A t * (0 * Real.exp (-(t.base / s.offset p) * (p.z + s.location.z))) * t.j0) +
          transform filter (fun t => B t * (0 * Real.exp (-(t.base / s.offset p) * (p.z + s.location.z))) * t.j1)) / s.offset p)) := by
      refine Tendsto.div_const (Tendsto.add ?_ ?_) _
      · exact tendsto_transform filter fun t ht => (((h t ht).mul_const _).const_mul _).mul_const _
      · exact tendsto_transform filter fun t ht => (((h t ht).mul_const _).const_mul _).mul_const _
    have h0 : ∀ g : Tap → ℂ, (∀ t, g t = 0) → transform filter g = 0 := fun g hg => by
      unfold transform
      exact List.sum_eq_zero fun x hx => by obtain ⟨t, -, rfl⟩ := List.mem_map.1 hx; exact hg t
    rw [h0 _ fun t => by ring, h0 _ fun t => by ring, add_zero, zero_div] at h1
    refine h1.congr fun i => ?_
    rw [← sub_div, add_sub_add_comm, tsub, tsub]
    congr 2 <;> congr 1 <;> funext t <;> ring
  simp only [LayeredDipole.offset] at key
  have e : ∀ (m x y z : ℂ), m * (x + z) - m * (y + z) = m * (x - y) := fun m x y z => by ring
  simp only [LayeredDipole.fieldAt, (ha _).1, (ha _).2.1, (ha _).2.2, (hb _).1, (hb _).2.1, (hb _).2.2]
  split_ifs
  · refine ⟨?_, ?_, ?_⟩ <;>
      simp only [V3.sub_x, V3.sub_y, V3.sub_z, V3.smul_x, V3.smul_y, V3.smul_z, V3.add_x, V3.add_y, V3.add_z, smul_eq_mul, e, V3.zero_x, V3.zero_y, V3.zero_z] <;>
      simpa using (key _ _).const_mul _
  · refine ⟨?_, ?_, ?_⟩ <;>
      simp only [V3.sub_x, V3.sub_y, V3.sub_z, V3.smul_x, V3.smul_y, V3.smul_z, smul_eq_mul, ← mul_sub, V3.zero_x, V3.zero_y, V3.zero_z] <;>
      simpa using (key _ _).const_mul _

/-- **C127.** At high frequencies the field above a layered earth differs ever less from the field above the earth without the layers below. -/
theorem LayeredDipole.high_frequency (filter : List Tap) (hb : ∀ t ∈ filter, 0 ≤ t.base) {s : LayeredDipole} {sigma mu : ℕ → ℝ}
    (h : s.Conducting sigma mu) {mu0 : ℝ} (hm : 0 < mu0) (p : V3 ℝ) (field : String) {j : ℕ} (hj : j < s.nThick) :
    V3.Tends (fun f => ({ s with frequency := f } : LayeredDipole).fieldAt filter mu0 p field -
      ({ s with frequency := f, nThick := j } : LayeredDipole).fieldAt filter mu0 p field) atTop 0 :=
  LayeredDipole.fieldAt_sub_tends filter mu0 s _ _ p field (fun _ => ⟨rfl, rfl, rfl⟩) (fun _ => ⟨rfl, rfl, rfl⟩) fun t ht =>
    LayeredDipole.rTE_high_frequency h hm (div_nonneg (hb t ht) (Real.sqrt_nonneg _)) hj

/-- Three conducting layers above a conductor. -/
example : (⟨1, 3, fun k => (k + 1 : ℕ), fun k => ((k + 1 : ℕ) : ℝ), fun _ => (1 : ℝ), ⟨0, 0, 1⟩, ⟨0, 0, 1⟩, 1⟩ : LayeredDipole).Conducting
    (fun k => ((k + 1 : ℕ) : ℝ)) (fun _ => 1) :=
  ⟨fun _ => rfl, fun _ => rfl, fun k => by positivity, fun _ => one_pos, fun k => by positivity⟩

end Verif.Fdem
