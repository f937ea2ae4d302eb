import Verif.Spec.Coil
import Verif.Lemmas.Radial
import Mathlib.MeasureTheory.Integral.DivergenceTheorem
import Mathlib.Analysis.SpecialFunctions.Sqrt
import Mathlib.Analysis.Calculus.Deriv.Prod
import Mathlib.Analysis.Calculus.ParametricIntegral

/-! # Stokes's theorem for parallelograms (helper lemmas) -/

namespace Verif

open MeasureTheory Set

variable {E : Type*} [NormedAddCommGroup E] [NormedSpace ℝ E]

namespace Coil

/-- A point from its coordinates. -/
def at3 (q : ℝ × ℝ × ℝ) : V3 ℝ := ⟨q.1, q.2.1, q.2.2⟩

/-- Total differentiability at a point. -/
def Smooth (F : V3 ℝ → V3 E) (p : V3 ℝ) : Prop :=
  DifferentiableAt ℝ (fun q => (F (at3 q)).x) (p.x, p.y, p.z) ∧ DifferentiableAt ℝ (fun q => (F (at3 q)).y) (p.x, p.y, p.z) ∧
    DifferentiableAt ℝ (fun q => (F (at3 q)).z) (p.x, p.y, p.z)

/-- Along a parallelogram. -/
theorem Smooth.patch {F : V3 ℝ → V3 E} {o u v : V3 ℝ} {w : ℝ × ℝ} (h : Smooth F (o + w.1 • u + w.2 • v)) (d : V3 ℝ) :
    DifferentiableAt ℝ (fun w : ℝ × ℝ => (F (o + w.1 • u + w.2 • v)).app d) w := by
  have hp : DifferentiableAt ℝ (fun w : ℝ × ℝ => (o.x + w.1 * u.x + w.2 * v.x, o.y + w.1 * u.y + w.2 * v.y, o.z + w.1 * u.z + w.2 * v.z)) w := by
    fun_prop
  have e : ∀ w : ℝ × ℝ, at3 (o.x + w.1 * u.x + w.2 * v.x, o.y + w.1 * u.y + w.2 * v.y, o.z + w.1 * u.z + w.2 * v.z) = o + w.1 • u + w.2 • v := fun w => rfl
  obtain ⟨hx, hy, hz⟩ := h
  have kx := DifferentiableAt.comp w (f := fun w : ℝ × ℝ => (o.x + w.1 * u.x + w.2 * v.x, o.y + w.1 * u.y + w.2 * v.y, o.z + w.1 * u.z + w.2 * v.z)) hx hp
  have ky := DifferentiableAt.comp w (f := fun w : ℝ × ℝ => (o.x + w.1 * u.x + w.2 * v.x, o.y + w.1 * u.y + w.2 * v.y, o.z + w.1 * u.z + w.2 * v.z)) hy hp
  have kz := DifferentiableAt.comp w (f := fun w : ℝ × ℝ => (o.x + w.1 * u.x + w.2 * v.x, o.y + w.1 * u.y + w.2 * v.y, o.z + w.1 * u.z + w.2 * v.z)) hz hp
  simp only [Function.comp_def, e] at kx ky kz
  exact ((kx.const_smul d.x).add (ky.const_smul d.y)).add (kz.const_smul d.z)

theorem along_neg (F : V3 ℝ → V3 E) (a u : V3 ℝ) : along F (a + u) (-u) = -along F a u := by
  simp only [along]
  have h := intervalIntegral.integral_comp_sub_left (fun t : ℝ => (F (a + t • u)).app u) (a := 0) (b := 1) 1
  rw [sub_self, sub_zero] at h
  rw [← h, ← intervalIntegral.integral_neg]
  refine intervalIntegral.integral_congr fun t _ => ?_
  rw [show a + u + t • -u = a + (1 - t) • u by module]
  simp only [V3.app, V3.neg_x, V3.neg_y, V3.neg_z]
  module

/-- Stokes's theorem. -/
theorem stokes [CompleteSpace E] {A F : V3 ℝ → V3 E} {o u v : V3 ℝ} (hA : ∀ p ∈ coil o u v, Smooth A p) (hF : ∀ p ∈ coil o u v, Smooth F p)
    (hc : ∀ p ∈ coil o u v, HasCurl A (F p) p) : circulation A o u v = flux F o u v := by
  have mem : ∀ w : ℝ × ℝ, w ∈ Icc (0 : ℝ) 1 ×ˢ Icc (0 : ℝ) 1 → o + w.1 • u + w.2 • v ∈ coil o u v := fun w hw => ⟨w.1, hw.1, w.2, hw.2, rfl⟩
  have hI : Icc ((0, 0) : ℝ × ℝ) (1, 1) = Icc (0 : ℝ) 1 ×ˢ Icc (0 : ℝ) 1 := by rw [Icc_prod_Icc]
  set f : ℝ × ℝ → E := fun w => (A (o + w.1 • u + w.2 • v)).app v with hf
  set g : ℝ × ℝ → E := fun w => -(A (o + w.1 • u + w.2 • v)).app u with hg
  have df : ∀ w ∈ Icc (0 : ℝ) 1 ×ˢ Icc (0 : ℝ) 1, DifferentiableAt ℝ f w := fun w hw => (hA _ (mem w hw)).patch v
  have dg : ∀ w ∈ Icc (0 : ℝ) 1 ×ˢ Icc (0 : ℝ) 1, DifferentiableAt ℝ g w := fun w hw => ((hA _ (mem w hw)).patch u).neg
  have key : ∀ w ∈ Icc (0 : ℝ) 1 ×ˢ Icc (0 : ℝ) 1, fderiv ℝ f w (1, 0) + fderiv ℝ g w (0, 1) = (F (o + w.1 • u + w.2 • v)).app (u.cross v) := by
    intro w hw
    obtain ⟨J, ⟨jx, jy, jz⟩, e⟩ := hc _ (mem w hw)
    have lf : HasDerivAt (fun t : ℝ => f (w.1 + t, w.2)) (fderiv ℝ f w (1, 0)) 0 := by
      have h1 : HasDerivAt (fun t : ℝ => (w.1 + t, w.2)) ((1, 0) : ℝ × ℝ) 0 := by
        exact HasDerivAt.prodMk ((hasDerivAt_id (0 : ℝ)).const_add w.1) (hasDerivAt_const (0 : ℝ) w.2)
      have h2 : HasFDerivAt f (fderiv ℝ f w) ((fun t : ℝ => (w.1 + t, w.2)) 0) := by simpa using (df w hw).hasFDerivAt
      exact h2.comp_hasDerivAt (0 : ℝ) h1
    have lg : HasDerivAt (fun t : ℝ => g (w.1, w.2 + t)) (fderiv ℝ g w (0, 1)) 0 := by
      have h1 : HasDerivAt (fun t : ℝ => (w.1, w.2 + t)) ((0, 1) : ℝ × ℝ) 0 := by
        exact HasDerivAt.prodMk (hasDerivAt_const (0 : ℝ) w.1) ((hasDerivAt_id (0 : ℝ)).const_add w.2)
      have h2 : HasFDerivAt g (fderiv ℝ g w) ((fun t : ℝ => (w.1, w.2 + t)) 0) := by simpa using (dg w hw).hasFDerivAt
      exact h2.comp_hasDerivAt (0 : ℝ) h1
    have mf : HasDerivAt (fun t : ℝ => f (w.1 + t, w.2)) (v.x • J.x.app u + v.y • J.y.app u + v.z • J.z.app u) 0 := by
      refine ((((jx u).const_smul v.x).add ((jy u).const_smul v.y)).add ((jz u).const_smul v.z)).congr_of_eventuallyEq (Filter.Eventually.of_forall fun t => ?_)
      simp only [hf, V3.app, Pi.add_apply, Pi.smul_apply]
      rw [show o + (w.1 + t) • u + w.2 • v = o + w.1 • u + w.2 • v + t • u by module]
    have mg : HasDerivAt (fun t : ℝ => g (w.1, w.2 + t)) (-(u.x • J.x.app v + u.y • J.y.app v + u.z • J.z.app v)) 0 := by
      refine ((((jx v).const_smul u.x).add ((jy v).const_smul u.y)).add ((jz v).const_smul u.z)).neg.congr_of_eventuallyEq (Filter.Eventually.of_forall fun t => ?_)
      simp only [hg, V3.app, Pi.add_apply, Pi.smul_apply, Pi.neg_apply]
      rw [show o + w.1 • u + (w.2 + t) • v = o + w.1 • u + w.2 • v + t • v by module]
    rw [lf.unique mf, lg.unique mg, ← e]
    simp only [V3.app, M3.curl, V3.cross]
    module
  have hi : IntegrableOn (fun w => fderiv ℝ f w (1, 0) + fderiv ℝ g w (0, 1)) (Icc ((0, 0) : ℝ × ℝ) (1, 1)) := by
    rw [hI]
    refine (integrableOn_congr_fun key (measurableSet_Icc.prod measurableSet_Icc)).2 ?_
    refine ContinuousOn.integrableOn_compact (isCompact_Icc.prod isCompact_Icc) fun w hw => ?_
    exact ((hF _ (mem w hw)).patch (u.cross v)).continuousAt.continuousWithinAt
  have hd := integral_divergence_prod_Icc_of_hasFDerivAt_of_le f g (fderiv ℝ f) (fderiv ℝ g) (0, 0) (1, 1) (by simp [Prod.le_def])
    (by rw [hI]; exact fun w hw => (df w hw).continuousAt.continuousWithinAt) (by rw [hI]; exact fun w hw => (dg w hw).continuousAt.continuousWithinAt)
    (fun w hw => (df w ⟨Ioo_subset_Icc_self hw.1, Ioo_subset_Icc_self hw.2⟩).hasFDerivAt)
    (fun w hw => (dg w ⟨Ioo_subset_Icc_self hw.1, Ioo_subset_Icc_self hw.2⟩).hasFDerivAt) hi
  rw [hI, setIntegral_congr_fun (measurableSet_Icc.prod measurableSet_Icc) key] at hd
  rw [flux, hd]
  have e1 : along A (o + u + v) (-u) = -along A (o + v) u := by
    rw [show o + u + v = o + v + u by module, along_neg]
  rw [circulation, e1, along_neg]
  simp only [along, hf, hg, intervalIntegral.integral_neg, zero_smul, one_smul, add_zero]
  have r : ∀ t : ℝ, o + t • u + v = o + v + t • u := fun t => by module
  simp only [r]
  abel

/-- What is a curl on the faces does not flow out of a crate. -/
theorem crate_zero [CompleteSpace E] {A F : V3 ℝ → V3 E} {o u v w : V3 ℝ} (hA : ∀ p ∈ crate o u v w, Smooth A p) (hF : ∀ p ∈ crate o u v w, Smooth F p)
    (hc : ∀ p ∈ crate o u v w, HasCurl A (F p) p) : crateFlux F o u v w = 0 := by
  have st : ∀ {o' u' v' : V3 ℝ}, coil o' u' v' ⊆ crate o u v w → flux F o' u' v' = circulation A o' u' v' := fun hs =>
    (stokes (fun p hp => hA p (hs hp)) (fun p hp => hF p (hs hp)) (fun p hp => hc p (hs hp))).symm
  rw [crateFlux, st (fun p hp => Or.inl (Or.inl (Or.inr hp))), st (fun p hp => Or.inl (Or.inl (Or.inl hp))),
    st (fun p hp => Or.inl (Or.inr (Or.inr hp))), st (fun p hp => Or.inl (Or.inr (Or.inl hp))),
    st (fun p hp => Or.inr (Or.inr hp)), st (fun p hp => Or.inr (Or.inl hp))]
  have e : ∀ a b c : V3 ℝ, circulation A a b c = along A a b + along A (a + b) c - along A (a + c) b - along A a c := fun a b c => by
    rw [circulation, show a + b + c = a + c + b by module, along_neg, along_neg]
    abel
  simp only [e]
  rw [show o + w + u = o + u + w by module, show o + w + v = o + v + w by module, show o + v + u = o + u + v by module]
  abel

/-! Dipole-type fields -/

theorem radial {γ : ℝ → E} {γ' : E} {loc p : V3 ℝ} (h : (p - loc).len ≠ 0) (hγ : HasDerivAt γ γ' (p - loc).len) :
    DifferentiableAt ℝ (fun q => γ (at3 q - loc).len) (p.x, p.y, p.z) := by
  have h0 : (p.x - loc.x) ^ 2 + (p.y - loc.y) ^ 2 + (p.z - loc.z) ^ 2 ≠ 0 := fun e => h (by
    rw [V3.len]
    simp only [V3.sub_x, V3.sub_y, V3.sub_z, e, Real.sqrt_zero])
  have h1 : DifferentiableAt ℝ (fun q : ℝ × ℝ × ℝ => (at3 q - loc).len) (p.x, p.y, p.z) := by
    simp only [V3.len, at3, V3.sub_x, V3.sub_y, V3.sub_z]
    exact DifferentiableAt.sqrt (by fun_prop) h0
  exact DifferentiableAt.comp (p.x, p.y, p.z) (f := fun q : ℝ × ℝ × ℝ => (at3 q - loc).len) (g := γ) hγ.differentiableAt h1

theorem dipF_smooth {α β : ℝ → E} {α' β' : E} {o loc p : V3 ℝ} (h : (p - loc).len ≠ 0)
    (hα : HasDerivAt α α' (p - loc).len) (hβ : HasDerivAt β β' (p - loc).len) : Smooth (dipF o loc α β) p := by
  have ha := radial h hα
  have hb := radial h hβ
  refine ⟨?_, ?_, ?_⟩
  · simp only [dipF, V3.add_x, sv_x]
    refine DifferentiableAt.add (DifferentiableAt.smul ?_ ha) (hb.const_smul o.x)
    simp only [at3, V3.smul_x, V3.dot, V3.sub_x, V3.sub_y, V3.sub_z, smul_eq_mul]
    fun_prop
  · simp only [dipF, V3.add_y, sv_y]
    refine DifferentiableAt.add (DifferentiableAt.smul ?_ ha) (hb.const_smul o.y)
    simp only [at3, V3.smul_y, V3.dot, V3.sub_x, V3.sub_y, V3.sub_z, smul_eq_mul]
    fun_prop
  · simp only [dipF, V3.add_z, sv_z]
    refine DifferentiableAt.add (DifferentiableAt.smul ?_ ha) (hb.const_smul o.z)
    simp only [at3, V3.smul_z, V3.dot, V3.sub_x, V3.sub_y, V3.sub_z, smul_eq_mul]
    fun_prop

theorem dipX_smooth {γ : ℝ → E} {γ' : E} {o loc p : V3 ℝ} (h : (p - loc).len ≠ 0)
    (hγ : HasDerivAt γ γ' (p - loc).len) : Smooth (dipX o loc γ) p := by
  have hg := radial h hγ
  refine ⟨?_, ?_, ?_⟩
  · simp only [dipX, sv_x]
    refine DifferentiableAt.smul ?_ hg
    simp only [at3, V3.cross, V3.sub_x, V3.sub_y, V3.sub_z]
    fun_prop
  · simp only [dipX, sv_y]
    refine DifferentiableAt.smul ?_ hg
    simp only [at3, V3.cross, V3.sub_x, V3.sub_y, V3.sub_z]
    fun_prop
  · simp only [dipX, sv_z]
    refine DifferentiableAt.smul ?_ hg
    simp only [at3, V3.cross, V3.sub_x, V3.sub_y, V3.sub_z]
    fun_prop

theorem Smooth.congr_off {F G : V3 ℝ → V3 E} {p loc : V3 ℝ} (h : Smooth F p) (hp : p ≠ loc) (e : ∀ q, q ≠ loc → G q = F q) : Smooth G p := by
  have hev : ∀ᶠ q : ℝ × ℝ × ℝ in nhds (p.x, p.y, p.z), at3 q ≠ loc := by
    have : (p.x, p.y, p.z) ≠ (loc.x, loc.y, loc.z) := fun h => hp (by
      simp only [Prod.mk.injEq] at h
      exact V3.ext h.1 h.2.1 h.2.2)
    filter_upwards [isOpen_ne.mem_nhds this] with q hq h'
    exact hq (by rw [← h']; rfl)
  obtain ⟨hx, hy, hz⟩ := h
  refine ⟨hx.congr_of_eventuallyEq ?_, hy.congr_of_eventuallyEq ?_, hz.congr_of_eventuallyEq ?_⟩ <;>
  · filter_upwards [hev] with q hq
    rw [e _ hq]

theorem Smooth.mul {F : V3 ℝ → V3 ℂ} {p : V3 ℝ} (h : Smooth F p) (c : ℂ) : Smooth (fun q => c • F q) p :=
  ⟨h.1.const_smul c, h.2.1.const_smul c, h.2.2.const_smul c⟩

theorem Smooth.real_mul {F : V3 ℝ → V3 E} {p : V3 ℝ} (h : Smooth F p) (c : ℝ) : Smooth (fun q => c • F q) p :=
  ⟨h.1.const_smul c, h.2.1.const_smul c, h.2.2.const_smul c⟩

/-- The rate of change of a flux. -/
theorem flux_hasDerivAt {F D : ℝ → V3 ℝ → V3 ℝ} {o u v : V3 ℝ} {a b t₀ : ℝ} (h : t₀ ∈ Ioo a b)
    (hF : ∀ t ∈ Ioo a b, ∀ p ∈ coil o u v, Smooth (F t) p)
    (hD : ContinuousOn (fun x : ℝ × ℝ × ℝ => (D x.1 (o + x.2.1 • u + x.2.2 • v)).app (u.cross v)) (Icc a b ×ˢ Icc (0 : ℝ) 1 ×ˢ Icc (0 : ℝ) 1))
    (hd : ∀ t ∈ Ioo a b, ∀ p ∈ coil o u v, HasDerivAt (fun t => (F t p).x) (D t p).x t ∧ HasDerivAt (fun t => (F t p).y) (D t p).y t ∧
      HasDerivAt (fun t => (F t p).z) (D t p).z t) :
    HasDerivAt (fun t => flux (F t) o u v) (flux (D t₀) o u v) t₀ := by
  have mem : ∀ w : ℝ × ℝ, w ∈ Icc (0 : ℝ) 1 ×ˢ Icc (0 : ℝ) 1 → o + w.1 • u + w.2 • v ∈ coil o u v := fun w hw => ⟨w.1, hw.1, w.2, hw.2, rfl⟩
  have hsq : MeasurableSet (Icc (0 : ℝ) 1 ×ˢ Icc (0 : ℝ) 1) := measurableSet_Icc.prod measurableSet_Icc
  have hcp : IsCompact (Icc (0 : ℝ) 1 ×ˢ Icc (0 : ℝ) 1) := isCompact_Icc.prod isCompact_Icc
  obtain ⟨C, hC⟩ := (isCompact_Icc.prod hcp).exists_bound_of_continuousOn hD
  have hc : ∀ t ∈ Ioo a b, ContinuousOn (fun w : ℝ × ℝ => (F t (o + w.1 • u + w.2 • v)).app (u.cross v)) (Icc (0 : ℝ) 1 ×ˢ Icc (0 : ℝ) 1) :=
    fun t ht w hw => ((hF t ht _ (mem w hw)).patch _).continuousAt.continuousWithinAt
  have hc' : ContinuousOn (fun w : ℝ × ℝ => (D t₀ (o + w.1 • u + w.2 • v)).app (u.cross v)) (Icc (0 : ℝ) 1 ×ˢ Icc (0 : ℝ) 1) :=
    hD.comp (f := fun w : ℝ × ℝ => (t₀, w)) (by fun_prop) fun w hw => ⟨Ioo_subset_Icc_self h, hw⟩
  refine (hasDerivAt_integral_of_dominated_loc_of_deriv_le (μ := volume.restrict (Icc (0 : ℝ) 1 ×ˢ Icc (0 : ℝ) 1))
    (F := fun t (w : ℝ × ℝ) => (F t (o + w.1 • u + w.2 • v)).app (u.cross v))
    (F' := fun t (w : ℝ × ℝ) => (D t (o + w.1 • u + w.2 • v)).app (u.cross v)) (bound := fun _ => C) (Ioo_mem_nhds h.1 h.2) ?_ ?_ ?_ ?_ ?_ ?_).2
  · filter_upwards [Ioo_mem_nhds h.1 h.2] with t ht
    exact (hc t ht).aestronglyMeasurable hsq
  · exact (hc t₀ h).integrableOn_compact hcp
  · exact hc'.aestronglyMeasurable hsq
  · filter_upwards [ae_restrict_mem hsq] with w hw t ht
    exact hC (t, w) ⟨Ioo_subset_Icc_self ht, hw⟩
  · exact continuousOn_const.integrableOn_compact hcp
  · filter_upwards [ae_restrict_mem hsq] with w hw t ht
    obtain ⟨hx, hy, hz⟩ := hd t ht _ (mem w hw)
    exact ((hx.const_smul (u.cross v).x).add (hy.const_smul (u.cross v).y)).add (hz.const_smul (u.cross v).z)

/-- Through a small coil across a field that is not zero there is a flux. -/
theorem small_flux {F : V3 ℝ → V3 ℂ} {c p u v : V3 ℝ} (h : ∀ q, q ≠ c → Smooth F q) (hp : p ≠ c) (h0 : (F p).app (u.cross v) ≠ 0) :
    ∃ δ > 0, ∀ e : ℝ, 0 < e → e < δ → (∀ w ∈ Icc (0 : ℝ) 1 ×ˢ Icc (0 : ℝ) 1, p + w.1 • e • u + w.2 • e • v ≠ c) ∧
      flux F p (e • u) (e • v) ≠ 0 := by
  have hz : p + (0 : ℝ × ℝ).1 • u + (0 : ℝ × ℝ).2 • v = p := by simp
  have hc : ContinuousAt (fun w : ℝ × ℝ => (F (p + w.1 • u + w.2 • v)).app (u.cross v)) 0 :=
    (Smooth.patch (F := F) (o := p) (u := u) (v := v) (w := 0) (by rw [hz]; exact h p hp) _).continuousAt
  obtain ⟨δ₁, hδ₁, hb⟩ := Metric.continuousAt_iff.1 hc (‖(F p).app (u.cross v)‖ / 2) (by positivity)
  rw [hz] at hb
  have hd : ContinuousAt (fun w : ℝ × ℝ => (p + w.1 • u + w.2 • v - c).len) 0 := by
    simp only [V3.len, V3.sub_x, V3.sub_y, V3.sub_z, V3.add_x, V3.add_y, V3.add_z, V3.smul_x, V3.smul_y, V3.smul_z, smul_eq_mul]
    fun_prop
  obtain ⟨δ₂, hδ₂, hb₂⟩ := Metric.continuousAt_iff.1 hd _ (V3.len_sub_pos hp)
  rw [hz] at hb₂
  refine ⟨min δ₁ δ₂, lt_min hδ₁ hδ₂, fun e he hed => ?_⟩
  have hed₁ := hed.trans_le (min_le_left _ _)
  have hed₂ := hed.trans_le (min_le_right _ _)
  have hnear : ∀ w ∈ Icc (0 : ℝ) 1 ×ˢ Icc (0 : ℝ) 1, dist (w.1 * e, w.2 * e) (0 : ℝ × ℝ) ≤ e := by
    intro w hw
    rw [Prod.dist_eq, max_le_iff]
    simp only [Real.dist_eq, Prod.fst_zero, Prod.snd_zero, sub_zero]
    constructor
    · rw [abs_of_nonneg (mul_nonneg hw.1.1 he.le)]
      nlinarith [hw.1.2]
    · rw [abs_of_nonneg (mul_nonneg hw.2.1 he.le)]
      nlinarith [hw.2.2]
  have hoff : ∀ w ∈ Icc (0 : ℝ) 1 ×ˢ Icc (0 : ℝ) 1, p + w.1 • e • u + w.2 • e • v ≠ c := by
    intro w hw hq
    have := hb₂ ((hnear w hw).trans_lt hed₂)
    simp only [mul_smul, hq] at this
    rw [sub_self, Real.dist_eq] at this
    simp [V3.len] at this
    have h2 := lt_of_abs_lt this
    simp at h2
  refine ⟨hoff, fun hf => ?_⟩
  set g := (F p).app (u.cross v) with hg
  have hcr : ∀ w : V3 ℂ, w.app ((e • u).cross (e • v)) = (e ^ 2 : ℝ) • w.app (u.cross v) := fun w => by
    simp only [V3.app, V3.cross, V3.smul_x, V3.smul_y, V3.smul_z, smul_eq_mul]
    module
  have hbd : ∀ w ∈ Icc (0 : ℝ) 1 ×ˢ Icc (0 : ℝ) 1, ‖(F (p + w.1 • e • u + w.2 • e • v)).app (u.cross v) - g‖ ≤ ‖g‖ / 2 := by
    intro w hw
    have := hb ((hnear w hw).trans_lt hed₁)
    rw [dist_eq_norm] at this
    simp only [mul_smul] at this
    exact this.le
  have hsq : MeasurableSet (Icc (0 : ℝ) 1 ×ˢ Icc (0 : ℝ) 1) := measurableSet_Icc.prod measurableSet_Icc
  have hvol : volume (Icc (0 : ℝ) 1 ×ˢ Icc (0 : ℝ) 1) = 1 := by
    rw [Measure.volume_eq_prod, Measure.prod_prod]
    simp
  simp only [flux, hcr] at hf
  rw [integral_smul, smul_eq_zero] at hf
  rcases hf with hf | hf
  · exact (pow_pos he 2).ne' hf
  · have hi : IntegrableOn (fun w : ℝ × ℝ => (F (p + w.1 • e • u + w.2 • e • v)).app (u.cross v)) (Icc (0 : ℝ) 1 ×ˢ Icc (0 : ℝ) 1) :=
      ContinuousOn.integrableOn_compact (isCompact_Icc.prod isCompact_Icc)
        fun w hw => (Smooth.patch (h _ (hoff w hw)) _).continuousAt.continuousWithinAt
    have hgi : IntegrableOn (fun _ : ℝ × ℝ => g) (Icc (0 : ℝ) 1 ×ˢ Icc (0 : ℝ) 1) :=
      continuousOn_const.integrableOn_compact (isCompact_Icc.prod isCompact_Icc)
    have h1 := norm_setIntegral_le_of_norm_le_const (μ := volume) (by rw [hvol]; simp) hbd
    rw [integral_sub hi hgi, hf, setIntegral_const, Measure.real, hvol] at h1
    simp only [ENNReal.toReal_one, one_smul, zero_sub, norm_neg, mul_one] at h1
    have : 0 < ‖g‖ := norm_pos_iff.2 h0
    linarith

end Coil

end Verif
