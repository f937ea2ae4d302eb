import Mathlib.MeasureTheory.Measure.Haar.Unique
import Verif.Lemmas.Mirror
import Verif.Lemmas.MotionPrism
import Verif.Props.PrismOffSurface

/-! # Mirror images of prisms (helper lemmas) -/

namespace Verif

open MeasureTheory Filter Topology

theorem V3.flip_line (p w : V3 ℝ) (t : ℝ) : p.flip + t • w.flip = (p + t • w).flip := by
  ext <;> simp [V3.flip]
  ring

/-- The gradient of a potential that is reflected along. -/
theorem grad_flipped {f f' : V3 ℝ → ℝ} {p d d' : V3 ℝ} (hf : ∀ q, f' q.flip = f q) (h : HasGrad f d p) (h' : HasGrad f' d' p.flip) :
    d' = d.flip := by
  have hd : HasGrad f' d.flip p.flip := by
    intro v
    rw [← v.flip_flip]
    simp only [V3.flip_line, hf]
    refine (h v.flip).congr_deriv ?_
    simp only [V3.app, V3.flip, smul_eq_mul]
    ring
  exact h'.unique hd

/-- A tensor, reflected in the plane `y = 0`. -/
def M3.flip (T : M3 ℝ) : M3 ℝ := ⟨⟨T.x.x, -T.x.y, T.x.z⟩, ⟨-T.y.x, T.y.y, -T.y.z⟩, ⟨T.z.x, -T.z.y, T.z.z⟩⟩

/-- The Jacobian of a field that is reflected along, at least near the point. -/
theorem jac_flipped {F F' : V3 ℝ → V3 ℝ} {p : V3 ℝ} {J J' : M3 ℝ}
    (hF : ∀ w : V3 ℝ, ∀ᶠ t : ℝ in 𝓝 0, F' (p + t • w).flip = (F (p + t • w)).flip)
    (h : HasJac F J p) (h' : HasJac F' J' p.flip) : J' = J.flip := by
  have hJ : HasJac F' J.flip p.flip := by
    refine ⟨fun v => ?_, fun v => ?_, fun v => ?_⟩
    all_goals
      rw [← v.flip_flip]
      simp only [V3.flip_line]
    · refine ((h.1 v.flip).congr_of_eventuallyEq ((hF v.flip).mono fun t ht => ?_)).congr_deriv ?_
      · exact (congrArg V3.x ht).trans rfl
      · simp only [V3.app, V3.flip, M3.flip, smul_eq_mul]; ring
    · refine ((h.2.1 v.flip).neg.congr_of_eventuallyEq ((hF v.flip).mono fun t ht => ?_)).congr_deriv ?_
      · exact congrArg V3.y ht
      · simp only [V3.app, V3.flip, M3.flip, smul_eq_mul]; ring
    · refine ((h.2.2 v.flip).congr_of_eventuallyEq ((hF v.flip).mono fun t ht => ?_)).congr_deriv ?_
      · exact (congrArg V3.z ht).trans rfl
      · simp only [V3.app, V3.flip, M3.flip, smul_eq_mul]; ring
  exact V3.ext (h'.1.unique hJ.1) (h'.2.1.unique hJ.2.1) (h'.2.2.unique hJ.2.2)

namespace Prism

/-- The box, reflected in the plane `y = 0`. -/
def Box.flip (b : Box) : Box := ⟨⟨b.min.x, -b.max.y, b.min.z⟩, ⟨b.max.x, -b.min.y, b.max.z⟩⟩

theorem Box.flip_proper {b : Box} (h : b.Proper) : b.flip.Proper := ⟨h.1, neg_lt_neg h.2.1, h.2.2⟩

theorem Box.flip_closed (b : Box) (p : V3 ℝ) : (p.flip.x, p.flip.y, p.flip.z) ∈ b.flip.closed ↔ (p.x, p.y, p.z) ∈ b.closed := by
  simp only [Box.flip, V3.flip, Box.closed, Set.mem_prod, Set.mem_Icc, neg_le_neg_iff]
  tauto

theorem Box.flip_offSurface {b : Box} {p : V3 ℝ} (h : b.OffSurface p) : b.flip.OffSurface p.flip := by
  rcases h with h | ⟨h1, h2, h3⟩
  · exact .inl fun hc => h ((b.flip_closed p).1 hc)
  · exact .inr ⟨h1, ⟨neg_lt_neg h2.2, neg_lt_neg h2.1⟩, h3⟩

/-- Reflection of triples. -/
def flipP (q : ℝ × ℝ × ℝ) : ℝ × ℝ × ℝ := (q.1, -q.2.1, q.2.2)

theorem measurePreserving_flipP : MeasurePreserving flipP volume volume :=
  (MeasurePreserving.id volume).prod ((Measure.measurePreserving_neg volume).prod (MeasurePreserving.id volume))

theorem measurableEmbedding_flipP : MeasurableEmbedding flipP := by
  have hc : Continuous flipP := by unfold flipP; fun_prop
  refine hc.measurableEmbedding ?_
  rintro ⟨a, b, c⟩ ⟨a', b', c'⟩ h
  simpa [flipP] using h

theorem integral_flipped (b : Box) (F : V3 ℝ → ℝ) : ∫ q in b.flip.points, F (vec q) = ∫ q in b.points, F (vec q).flip := by
  rw [setIntegral_congr_set (Motion.points_ae_closed b.flip), setIntegral_congr_set (Motion.points_ae_closed b)]
  have hp : flipP ⁻¹' b.flip.closed = b.closed := by ext q; exact b.flip_closed (vec q)
  rw [← hp]
  exact (measurePreserving_flipP.setIntegral_preimage_emb measurableEmbedding_flipP (fun q => F (vec q)) b.flip.closed).symm

theorem flip_kernels {b : Box} (hp : b.Proper) (p : V3 ℝ) :
    b.flip.evalDefInt Py.prismF p.flip 0 = b.evalDefInt Py.prismF p 0 ∧
    (⟨b.flip.evalDefInt Py.prismFz p.flip 1, b.flip.evalDefInt Py.prismFz p.flip 2, b.flip.evalDefInt Py.prismFz p.flip 0⟩ : V3 ℝ) =
      V3.flip ⟨b.evalDefInt Py.prismFz p 1, b.evalDefInt Py.prismFz p 2, b.evalDefInt Py.prismFz p 0⟩ := by
  obtain ⟨⟨-, w⟩, ⟨-, x⟩, ⟨-, y⟩, -, z⟩ := newton_box b hp p
  obtain ⟨⟨-, w'⟩, ⟨-, x'⟩, ⟨-, y'⟩, -, z'⟩ := newton_box b.flip (Box.flip_proper hp) p.flip
  have hl : ∀ v : V3 ℝ, (v.flip - p.flip).len = (v - p).len := fun v => by
    rw [← V3.flip_len (v - p)]; congr 1; ext <;> simp [V3.flip]; ring
  have ew := integral_flipped b fun v => 1 / (v - p.flip).len
  have ex := integral_flipped b fun v => (v.x - p.flip.x) / (v - p.flip).len ^ 3
  have ey := integral_flipped b fun v => (v.y - p.flip.y) / (v - p.flip).len ^ 3
  have ez := integral_flipped b fun v => (v.z - p.flip.z) / (v - p.flip).len ^ 3
  simp only [hl] at ew ex ey ez
  have ny : ∀ v : V3 ℝ, (v.flip.y - p.flip.y) / (v - p).len ^ 3 = -((v.y - p.y) / (v - p).len ^ 3) := fun v => by
    simp only [V3.flip]; ring
  simp only [ny, integral_neg] at ey
  simp only [vec] at w x y z w' x' y' z' ew ex ey ez
  refine ⟨by linarith, ?_⟩
  ext
  · simp only [V3.flip] at *; linarith
  · simp only [V3.flip] at *; linarith
  · simp only [V3.flip] at *; linarith

end Prism

end Verif
