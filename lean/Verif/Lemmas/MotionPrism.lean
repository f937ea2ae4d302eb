import Verif.Lemmas.Motion
import Verif.Lemmas.BoxIntegral
import Verif.Spec.Calculus
import Mathlib.MeasureTheory.Measure.Lebesgue.EqHaar
import Mathlib.MeasureTheory.Constructions.Polish.Basic

/-! # Rigid motions, integrals over boxes and derivatives (helper lemmas) -/

namespace Verif.Motion

open MeasureTheory Prism Set Filter Topology

variable (g : Motion)

/-- The rotation as a linear map of triples. -/
def linear : (ℝ × ℝ × ℝ) →ₗ[ℝ] (ℝ × ℝ × ℝ) where
  toFun q := ((g.turn (vec q)).x, (g.turn (vec q)).y, (g.turn (vec q)).z)
  map_add' p q := by
    simp only [turn, M3.mulVec, V3.dot, vec, Prod.mk_add_mk, Prod.mk.injEq, Prod.fst_add, Prod.snd_add]
    refine ⟨?_, ?_, ?_⟩ <;> ring
  map_smul' c q := by
    simp only [turn, M3.mulVec, V3.dot, vec, Prod.smul_mk, Prod.mk.injEq, Prod.smul_fst, Prod.smul_snd, smul_eq_mul, RingHom.id_apply]
    refine ⟨?_, ?_, ?_⟩ <;> ring

/-- The motion as a map of triples. -/
def actP (q : ℝ × ℝ × ℝ) : ℝ × ℝ × ℝ := ((g.act (vec q)).x, (g.act (vec q)).y, (g.act (vec q)).z)

theorem vec_actP (q : ℝ × ℝ × ℝ) : vec (g.actP q) = g.act (vec q) := rfl

theorem vec_linear (q : ℝ × ℝ × ℝ) : vec (g.linear q) = g.turn (vec q) := rfl

theorem vec_injective {p q : ℝ × ℝ × ℝ} (h : vec p = vec q) : p = q := by
  simp only [vec, V3.mk.injEq] at h
  exact Prod.ext h.1 (Prod.ext h.2.1 h.2.2)

theorem linear_injective : Function.Injective g.linear := by
  intro p q h
  have := congrArg vec h
  rw [vec_linear, vec_linear] at this
  refine vec_injective (sub_eq_zero.1 (V3.len_eq_zero.1 ?_))
  rw [← g.turn_len, g.turn_sub, this, sub_self]
  simp [V3.len]

theorem actP_injective : Function.Injective g.actP := by
  intro p q h
  have := congrArg vec h
  rw [vec_actP, vec_actP, g.act_injective] at this
  exact vec_injective this

theorem continuous_actP : Continuous g.actP := by
  unfold actP act M3.mulVec V3.dot vec
  simp only [V3.add_x, V3.add_y, V3.add_z]
  fun_prop

/-- Points at distance at most one from the origin. -/
def ball : Set (ℝ × ℝ × ℝ) := {q | (vec q).len ≤ 1}

theorem measurePreserving_linear : MeasurePreserving g.linear volume volume := by
  have i2 : (volume : Measure (ℝ × ℝ)).IsAddHaarMeasure := by
    rw [Measure.volume_eq_prod]; exact Measure.prod.instIsAddHaarMeasure _ _
  have i3 : (volume : Measure (ℝ × ℝ × ℝ)).IsAddHaarMeasure := by
    rw [Measure.volume_eq_prod]; exact Measure.prod.instIsAddHaarMeasure _ _
  have hdet : LinearMap.det g.linear ≠ 0 := by
    intro h0
    have h1 := LinearMap.bot_lt_ker_of_det_eq_zero h0
    rw [LinearMap.ker_eq_bot.2 g.linear_injective] at h1
    exact lt_irrefl _ h1
  have hball : g.linear ⁻¹' ball = ball := by
    ext q
    simp only [ball, mem_preimage, mem_ofPred_eq, vec_linear, g.turn_len]
  have hpos : volume ball ≠ 0 := by
    have hsub : Ioo (-(1 / 2) : ℝ) (1 / 2) ×ˢ Ioo (-(1 / 2) : ℝ) (1 / 2) ×ˢ Ioo (-(1 / 2) : ℝ) (1 / 2) ⊆ ball := by
      rintro ⟨x, y, z⟩ ⟨⟨x1, x2⟩, ⟨y1, y2⟩, z1, z2⟩
      simp only [ball, mem_ofPred_eq, V3.len, vec]
      rw [Real.sqrt_le_one]
      simp only at x1 x2 y1 y2 z1 z2
      nlinarith
    have ho : IsOpen (Ioo (-(1 / 2) : ℝ) (1 / 2) ×ˢ Ioo (-(1 / 2) : ℝ) (1 / 2) ×ˢ Ioo (-(1 / 2) : ℝ) (1 / 2)) :=
      isOpen_Ioo.prod (isOpen_Ioo.prod isOpen_Ioo)
    have hne : (Ioo (-(1 / 2) : ℝ) (1 / 2) ×ˢ Ioo (-(1 / 2) : ℝ) (1 / 2) ×ˢ Ioo (-(1 / 2) : ℝ) (1 / 2)).Nonempty :=
      ⟨(0, 0, 0), by constructor <;> norm_num⟩
    exact fun h0 => (ho.measure_pos volume hne).ne' (measure_mono_null hsub h0)
  have hfin : volume ball ≠ ⊤ := by
    have hsub : ball ⊆ Icc (-1 : ℝ) 1 ×ˢ Icc (-1 : ℝ) 1 ×ˢ Icc (-1 : ℝ) 1 := by
      rintro ⟨x, y, z⟩ h
      simp only [ball, mem_ofPred_eq, V3.len, vec, Real.sqrt_le_one] at h
      refine ⟨?_, ?_, ?_⟩ <;> simp only [mem_Icc] <;> constructor <;> nlinarith [sq_nonneg x, sq_nonneg y, sq_nonneg z]
    have hc : IsCompact (Icc (-1 : ℝ) 1 ×ˢ Icc (-1 : ℝ) 1 ×ˢ Icc (-1 : ℝ) 1) := isCompact_Icc.prod (isCompact_Icc.prod isCompact_Icc)
    exact ((measure_mono hsub).trans_lt hc.measure_lt_top).ne
  have hone : ENNReal.ofReal |(LinearMap.det g.linear)⁻¹| = 1 := by
    have h := Measure.addHaar_preimage_linearMap volume hdet ball
    rw [hball] at h
    exact ((ENNReal.mul_eq_right hpos hfin).1 h.symm)
  refine ⟨(LinearMap.continuous_of_finiteDimensional g.linear).measurable, ?_⟩
  rw [Measure.map_linearMap_addHaar_eq_smul_addHaar volume hdet, hone, one_smul]

theorem measurePreserving_actP : MeasurePreserving g.actP volume volume := by
  have h := (measurePreserving_shift (-(g.shift.x, g.shift.y, g.shift.z))).comp g.measurePreserving_linear
  convert h using 1
  funext q
  simp only [actP, linear, Function.comp, act, turn, LinearMap.coe_mk, AddHom.coe_mk, V3.add_x, V3.add_y, V3.add_z, sub_neg_eq_add,
    Prod.mk_add_mk]

/-- The box `b'` is where the motion takes the box `b`. -/
def Moves (b b' : Box) : Prop := ∀ q : ℝ × ℝ × ℝ, g.actP q ∈ b'.closed ↔ q ∈ b.closed

theorem points_ae_closed (b : Box) : b.points =ᵐ[volume] b.closed := by
  rw [Measure.volume_eq_prod]
  refine Measure.set_prod_ae_eq Ioc_ae_eq_Icc ?_
  rw [Measure.volume_eq_prod]
  exact Measure.set_prod_ae_eq Ioc_ae_eq_Icc Ioc_ae_eq_Icc

theorem integral_moved {b b' : Box} (h : g.Moves b b') (F : V3 ℝ → ℝ) :
    ∫ q in b'.points, F (vec q) = ∫ q in b.points, F (g.act (vec q)) := by
  rw [setIntegral_congr_set (points_ae_closed b'), setIntegral_congr_set (points_ae_closed b)]
  have hp : g.actP ⁻¹' b'.closed = b.closed := by ext q; exact h q
  rw [← hp]
  exact (g.measurePreserving_actP.setIntegral_preimage_emb (g.continuous_actP.measurableEmbedding g.actP_injective)
    (fun q => F (vec q)) b'.closed).symm

theorem turn_back (v : V3 ℝ) : ∃ w, g.turn w = v := ⟨g.rot.transpose.mulVec v, g.isRot.mulVec_transpose v⟩

theorem act_line (p w : V3 ℝ) (t : ℝ) : g.act p + t • g.turn w = g.act (p + t • w) := by
  rw [act, act, ← turn, ← turn, g.turn_add, g.turn_smul]; abel

/-- The gradient of a potential that moves along. -/
theorem grad_moved {f f' : V3 ℝ → ℝ} {p d d' : V3 ℝ} (hf : ∀ q, f' (g.act q) = f q) (h : HasGrad f d p) (h' : HasGrad f' d' (g.act p)) :
    d' = g.turn d := by
  have hd : HasGrad f' (g.turn d) (g.act p) := by
    intro v
    obtain ⟨w, rfl⟩ := g.turn_back v
    simp only [g.act_line, hf]
    refine (h w).congr_deriv ?_
    have := g.turn_dot d w
    simp only [V3.app, V3.dot, smul_eq_mul] at this ⊢
    linarith
  exact h'.unique hd

/-- The Jacobian of a field that moves along, at least near the point. -/
theorem jac_moved {F F' : V3 ℝ → V3 ℝ} {p : V3 ℝ} {J J' : M3 ℝ} (hF : ∀ w : V3 ℝ, ∀ᶠ t : ℝ in 𝓝 0, F' (g.act (p + t • w)) = g.turn (F (p + t • w)))
    (h : HasJac F J p) (h' : HasJac F' J' (g.act p)) : J' = g.turnT J := by
  have key : ∀ (row : V3 ℝ) (c : V3 ℝ → ℝ), (∀ v, c (g.turn v) = row.dot v) → ∀ v : V3 ℝ,
      HasDerivAt (fun t : ℝ => c (F' (g.act p + t • v))) (row.dot ⟨J.x.dot (g.rot.transpose.mulVec v), J.y.dot (g.rot.transpose.mulVec v),
        J.z.dot (g.rot.transpose.mulVec v)⟩) 0 := by
    intro row c hc v
    have hv : g.turn (g.rot.transpose.mulVec v) = v := g.isRot.mulVec_transpose v
    have e : (fun t : ℝ => c (F' (g.act p + t • v))) =ᶠ[𝓝 0] fun t : ℝ => row.dot (F (p + t • g.rot.transpose.mulVec v)) := by
      filter_upwards [hF (g.rot.transpose.mulVec v)] with t ht
      rw [← hc, ← ht, ← g.act_line, hv]
    refine HasDerivAt.congr_of_eventuallyEq ?_ e
    have hd := (((h.1 (g.rot.transpose.mulVec v)).const_mul row.x).add ((h.2.1 (g.rot.transpose.mulVec v)).const_mul row.y)).add
      ((h.2.2 (g.rot.transpose.mulVec v)).const_mul row.z)
    refine hd.congr_deriv ?_
    simp only [V3.app, V3.dot, smul_eq_mul]
    ring
  have hJ : HasJac F' (g.turnT J) (g.act p) := by
    refine ⟨fun v => ?_, fun v => ?_, fun v => ?_⟩
    · refine (key g.rot.x V3.x (fun v => rfl) v).congr_deriv ?_
      simp only [V3.app, V3.dot, smul_eq_mul, turnT, M3.mul, M3.transpose, M3.mulVec]; ring
    · refine (key g.rot.y V3.y (fun v => rfl) v).congr_deriv ?_
      simp only [V3.app, V3.dot, smul_eq_mul, turnT, M3.mul, M3.transpose, M3.mulVec]; ring
    · refine (key g.rot.z V3.z (fun v => rfl) v).congr_deriv ?_
      simp only [V3.app, V3.dot, smul_eq_mul, turnT, M3.mul, M3.transpose, M3.mulVec]; ring
  exact V3.ext (h'.1.unique hJ.1) (h'.2.1.unique hJ.2.1) (h'.2.2.unique hJ.2.2)

/-- Inside the box: a little way along every line is still in it. -/
theorem inside_iff (b : Box) (p : V3 ℝ) :
    ((b.min.x < p.x ∧ p.x < b.max.x) ∧ (b.min.y < p.y ∧ p.y < b.max.y) ∧ b.min.z < p.z ∧ p.z < b.max.z) ↔
      ∀ w : V3 ℝ, ∀ᶠ t : ℝ in 𝓝 0, ((p + t • w).x, (p + t • w).y, (p + t • w).z) ∈ b.closed := by
  constructor
  · rintro ⟨⟨x1, x2⟩, ⟨y1, y2⟩, z1, z2⟩ w
    have c : ∀ a d : ℝ, ContinuousAt (fun t : ℝ => a + t * d) 0 := fun a d => by fun_prop
    have lo : ∀ {a d m : ℝ}, m < a → ∀ᶠ t : ℝ in 𝓝 0, m < a + t * d := fun {a d m} h =>
      (c a d).eventually (lt_mem_nhds (by simpa using h))
    have hi : ∀ {a d m : ℝ}, a < m → ∀ᶠ t : ℝ in 𝓝 0, a + t * d < m := fun {a d m} h =>
      (c a d).eventually (gt_mem_nhds (by simpa using h))
    filter_upwards [lo x1, hi x2, lo y1, hi y2, lo z1, hi z2] with t a1 a2 a3 a4 a5 a6
    rw [line_eq]
    exact ⟨⟨a1.le, a2.le⟩, ⟨a3.le, a4.le⟩, a5.le, a6.le⟩
  · intro h
    have get : ∀ {P : ℝ → Prop}, (∀ᶠ t : ℝ in 𝓝 0, P t) → ∃ t, 0 < t ∧ P t ∧ P (-t) := by
      intro P hP
      obtain ⟨e, he, hb⟩ := Metric.eventually_nhds_iff.1 hP
      refine ⟨e / 2, by positivity, hb ?_, hb ?_⟩ <;> simp [abs_of_pos he] <;> linarith
    obtain ⟨t1, p1, ⟨a1, -⟩, a2, -⟩ := get (h ⟨1, 0, 0⟩)
    obtain ⟨t2, p2, ⟨-, b1, -⟩, -, b2, -⟩ := get (h ⟨0, 1, 0⟩)
    obtain ⟨t3, p3, ⟨-, -, c1⟩, -, -, c2⟩ := get (h ⟨0, 0, 1⟩)
    simp only [line_eq, mem_Icc, mul_one] at a1 a2 b1 b2 c1 c2
    exact ⟨⟨by linarith, by linarith⟩, ⟨by linarith, by linarith⟩, by linarith, by linarith⟩

theorem Moves.closed {g : Motion} {b b' : Box} (h : g.Moves b b') (p : V3 ℝ) :
    ((g.act p).x, (g.act p).y, (g.act p).z) ∈ b'.closed ↔ (p.x, p.y, p.z) ∈ b.closed := h (p.x, p.y, p.z)

theorem Moves.inside {g : Motion} {b b' : Box} (h : g.Moves b b') (p : V3 ℝ)
    (hp : (b.min.x < p.x ∧ p.x < b.max.x) ∧ (b.min.y < p.y ∧ p.y < b.max.y) ∧ b.min.z < p.z ∧ p.z < b.max.z) :
    (b'.min.x < (g.act p).x ∧ (g.act p).x < b'.max.x) ∧ (b'.min.y < (g.act p).y ∧ (g.act p).y < b'.max.y) ∧
      b'.min.z < (g.act p).z ∧ (g.act p).z < b'.max.z := by
  rw [inside_iff] at hp ⊢
  intro v
  obtain ⟨w, rfl⟩ := g.turn_back v
  simp only [g.act_line]
  filter_upwards [hp w] with t ht
  exact (h.closed _).2 ht

end Verif.Motion
