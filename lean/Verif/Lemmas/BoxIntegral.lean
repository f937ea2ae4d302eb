import Verif.Props.PrismNewton
import Mathlib.Analysis.Calculus.ParametricIntegral

/-! # Differentiating an integral over a box with respect to an outer point (helper lemmas) -/

namespace Verif.Prism

open Real Set MeasureTheory Filter Topology

/-- The closed box. -/
def Box.closed (b : Box) : Set (ℝ × ℝ × ℝ) :=
  Icc b.min.x b.max.x ×ˢ Icc b.min.y b.max.y ×ˢ Icc b.min.z b.max.z

theorem Box.isCompact_closed (b : Box) : IsCompact b.closed :=
  isCompact_Icc.prod (isCompact_Icc.prod isCompact_Icc)

theorem Box.points_subset_closed (b : Box) : b.points ⊆ b.closed :=
  prod_mono Ioc_subset_Icc_self (prod_mono Ioc_subset_Icc_self Ioc_subset_Icc_self)

theorem Box.measurableSet_points (b : Box) : MeasurableSet b.points :=
  measurableSet_Ioc.prod (measurableSet_Ioc.prod measurableSet_Ioc)

/-- The point at `t` on a line. -/
theorem line_eq (p v : V3 ℝ) (t : ℝ) : p + t • v = ⟨p.x + t * v.x, p.y + t * v.y, p.z + t * v.z⟩ := by
  ext <;> simp

variable {k kx ky kz : ℝ → ℝ → ℝ → ℝ}

/-- The derivative of `∭ k (q - p) dq` with respect to `p` outside the closed box. -/
theorem hasGrad_integral (b : Box)
    (hk : ∀ x y z, (x ≠ 0 ∨ y ≠ 0 ∨ z ≠ 0) → KGrad k (kx x y z) (ky x y z) (kz x y z) x y z)
    (c : ContinuousOn (fun w : ℝ × ℝ × ℝ => k w.1 w.2.1 w.2.2) {0}ᶜ)
    (cx : ContinuousOn (fun w : ℝ × ℝ × ℝ => kx w.1 w.2.1 w.2.2) {0}ᶜ)
    (cy : ContinuousOn (fun w : ℝ × ℝ × ℝ => ky w.1 w.2.1 w.2.2) {0}ᶜ)
    (cz : ContinuousOn (fun w : ℝ × ℝ × ℝ => kz w.1 w.2.1 w.2.2) {0}ᶜ)
    (p : V3 ℝ) (hp : (p.x, p.y, p.z) ∉ b.closed) :
    HasGrad (fun p => ∫ q in b.points, k (q.1 - p.x) (q.2.1 - p.y) (q.2.2 - p.z))
      ⟨-∫ q in b.points, kx (q.1 - p.x) (q.2.1 - p.y) (q.2.2 - p.z),
       -∫ q in b.points, ky (q.1 - p.x) (q.2.1 - p.y) (q.2.2 - p.z),
       -∫ q in b.points, kz (q.1 - p.x) (q.2.1 - p.y) (q.2.2 - p.z)⟩ p := by
  intro v
  -- the line stays outside for a while
  have hline : Continuous fun t : ℝ => ((p.x + t * v.x, p.y + t * v.y, p.z + t * v.z) : ℝ × ℝ × ℝ) := by fun_prop
  have hopen : ∀ᶠ t in 𝓝 (0 : ℝ), ((p.x + t * v.x, p.y + t * v.y, p.z + t * v.z) : ℝ × ℝ × ℝ) ∉ b.closed := by
    refine hline.continuousAt.eventually (b.isCompact_closed.isClosed.isOpen_compl.mem_nhds ?_)
    simpa using hp
  obtain ⟨ε, hε, hball⟩ := Metric.eventually_nhds_iff_ball.1 hopen
  set δ := ε / 2 with hδ
  have hδ0 : 0 < δ := by positivity
  have hT : ∀ t ∈ Icc (-δ) δ, ((p.x + t * v.x, p.y + t * v.y, p.z + t * v.z) : ℝ × ℝ × ℝ) ∉ b.closed := by
    intro t ht
    refine hball t ?_
    rw [mem_ball_zero_iff, Real.norm_eq_abs]
    have := abs_le.2 ht
    linarith
  let w : ℝ × ℝ × ℝ × ℝ → ℝ × ℝ × ℝ := fun u =>
    (u.2.1 - (p.x + u.1 * v.x), u.2.2.1 - (p.y + u.1 * v.y), u.2.2.2 - (p.z + u.1 * v.z))
  have hw : Continuous w := by fun_prop
  have hw0 : MapsTo w (Icc (-δ) δ ×ˢ b.closed) {0}ᶜ := by
    intro u hu hc
    refine hT u.1 hu.1 ?_
    have h1 := congrArg Prod.fst hc
    have h2 := congrArg (fun q => q.2.1) hc
    have h3 := congrArg (fun q => q.2.2) hc
    simp only [w, Prod.fst_zero, Prod.snd_zero, sub_eq_zero] at h1 h2 h3
    have : u.2 = (p.x + u.1 * v.x, p.y + u.1 * v.y, p.z + u.1 * v.z) := by
      rw [← h1, ← h2, ← h3]
    rw [← this]
    exact hu.2
  let F : ℝ → ℝ × ℝ × ℝ → ℝ := fun t q => k (w (t, q)).1 (w (t, q)).2.1 (w (t, q)).2.2
  let F' : ℝ → ℝ × ℝ × ℝ → ℝ := fun t q => -(v.x * kx (w (t, q)).1 (w (t, q)).2.1 (w (t, q)).2.2 +
    v.y * ky (w (t, q)).1 (w (t, q)).2.1 (w (t, q)).2.2 + v.z * kz (w (t, q)).1 (w (t, q)).2.1 (w (t, q)).2.2)
  have hFc : ContinuousOn (fun u : ℝ × ℝ × ℝ × ℝ => F u.1 u.2) (Icc (-δ) δ ×ˢ b.closed) :=
    c.comp hw.continuousOn hw0
  have hFc' : ContinuousOn (fun u : ℝ × ℝ × ℝ × ℝ => F' u.1 u.2) (Icc (-δ) δ ×ˢ b.closed) :=
    (((continuousOn_const.mul (cx.comp hw.continuousOn hw0)).add (continuousOn_const.mul (cy.comp hw.continuousOn hw0))).add
      (continuousOn_const.mul (cz.comp hw.continuousOn hw0))).neg
  have slice : ∀ {G : ℝ → ℝ × ℝ × ℝ → ℝ}, ContinuousOn (fun u : ℝ × ℝ × ℝ × ℝ => G u.1 u.2) (Icc (-δ) δ ×ˢ b.closed) →
      ∀ t ∈ Icc (-δ) δ, IntegrableOn (G t) b.points := by
    intro G hG t ht
    have : ContinuousOn (G t) b.closed := hG.comp (f := fun q => (t, q)) (by fun_prop) fun q hq => ⟨ht, hq⟩
    exact (this.integrableOn_compact b.isCompact_closed).mono_set b.points_subset_closed
  obtain ⟨C, hC⟩ := (isCompact_Icc.prod b.isCompact_closed).exists_bound_of_continuousOn hFc'
  have h0 : (0 : ℝ) ∈ Icc (-δ) δ := ⟨by linarith, hδ0.le⟩
  have hmem : Icc (-δ) δ ∈ 𝓝 (0 : ℝ) := Icc_mem_nhds (by linarith) hδ0
  have key := hasDerivAt_integral_of_dominated_loc_of_deriv_le (μ := volume.restrict b.points) (F := F) (F' := F')
    (x₀ := (0 : ℝ)) (bound := fun _ => C) hmem
    (by filter_upwards [hmem] with t ht using (slice hFc t ht).aestronglyMeasurable) (slice hFc 0 h0)
    (slice hFc' 0 h0).aestronglyMeasurable ?_ ?_ ?_
  · have hd := key.2
    have e0 : ∀ q : ℝ × ℝ × ℝ, w (0, q) = (q.1 - p.x, q.2.1 - p.y, q.2.2 - p.z) := fun q => by simp [w]
    have hi : ∀ {f : ℝ → ℝ → ℝ → ℝ}, ContinuousOn (fun w : ℝ × ℝ × ℝ => f w.1 w.2.1 w.2.2) {0}ᶜ →
        IntegrableOn (fun q : ℝ × ℝ × ℝ => f (q.1 - p.x) (q.2.1 - p.y) (q.2.2 - p.z)) b.points := by
      intro f hf
      have := slice (G := fun t q => f (w (t, q)).1 (w (t, q)).2.1 (w (t, q)).2.2) (hf.comp hw.continuousOn hw0) 0 h0
      simpa only [e0] using this
    refine (hd.congr_deriv ?_).congr_of_eventuallyEq (Eventually.of_forall fun t => ?_)
    · simp only [F', e0, V3.app, smul_eq_mul]
      rw [integral_neg, integral_add (f := fun q : ℝ × ℝ × ℝ => v.x * kx (q.1 - p.x) (q.2.1 - p.y) (q.2.2 - p.z) +
          v.y * ky (q.1 - p.x) (q.2.1 - p.y) (q.2.2 - p.z)) (((hi cx).const_mul _).add ((hi cy).const_mul _)) ((hi cz).const_mul _),
        integral_add ((hi cx).const_mul _) ((hi cy).const_mul _), integral_const_mul, integral_const_mul, integral_const_mul]
      ring
    · simp only [F, w, line_eq]
  · rw [ae_restrict_iff' b.measurableSet_points]
    exact Eventually.of_forall fun q hq t ht => hC (t, q) ⟨ht, b.points_subset_closed hq⟩
  · exact integrableOn_const (by
      exact (b.isCompact_closed.measure_lt_top.trans_le' (measure_mono b.points_subset_closed)).ne)
  · rw [ae_restrict_iff' b.measurableSet_points]
    refine Eventually.of_forall fun q hq t ht => ?_
    have hne : w (t, q) ≠ 0 := hw0 (x := (t, q)) ⟨ht, b.points_subset_closed hq⟩
    have hne' : (w (t, q)).1 ≠ 0 ∨ (w (t, q)).2.1 ≠ 0 ∨ (w (t, q)).2.2 ≠ 0 := by
      by_contra hc
      push Not at hc
      exact hne (Prod.ext hc.1 (Prod.ext hc.2.1 hc.2.2))
    have hd := hk _ _ _ hne' (-v.x) (-v.y) (-v.z)
    have h2 : (0 : ℝ) = t - t := (sub_self t).symm
    rw [h2] at hd
    have hd := hd.comp_sub_const t t
    refine (hd.congr_of_eventuallyEq (Eventually.of_forall fun s => ?_)).congr_deriv ?_
    · simp only [F, w]
      congr 1 <;> ring
    · simp only [F']
      ring

end Verif.Prism
