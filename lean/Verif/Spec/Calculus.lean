import Verif.Spec.Vec
import Mathlib.Analysis.Calculus.Deriv.Add
import Mathlib.Analysis.Calculus.Deriv.Mul
import Mathlib.Analysis.Calculus.Deriv.Comp

/-!
# Vector calculus, as a specification

Gradient, Jacobian, curl and divergence of fields on `ℝ³`, stated through derivatives along every straight
line through the point (so in particular the three partial derivatives).  Values may be real or complex.
Nothing here depends on the modelled code.
-/

namespace Verif

variable {E : Type*} [NormedAddCommGroup E] [NormedSpace ℝ E]

/-- A row of derivatives applied to a direction: `g · v`. -/
def V3.app (g : V3 E) (v : V3 ℝ) : E := v.x • g.x + v.y • g.y + v.z • g.z

/-- `f` has gradient `g` at `p`: along every line through `p` with direction `v` the derivative of `f` is
`g · v`. -/
def HasGrad (f : V3 ℝ → E) (g : V3 E) (p : V3 ℝ) : Prop :=
  ∀ v : V3 ℝ, HasDerivAt (fun t : ℝ => f (p + t • v)) (g.app v) 0

/-- The vector field `F` has Jacobian `J` at `p` (`J.x.y` is `∂F_x/∂y`). -/
def HasJac (F : V3 ℝ → V3 E) (J : M3 E) (p : V3 ℝ) : Prop :=
  HasGrad (fun q => (F q).x) J.x p ∧ HasGrad (fun q => (F q).y) J.y p ∧
    HasGrad (fun q => (F q).z) J.z p

/-- The curl read off a Jacobian. -/
def M3.curl (J : M3 E) : V3 E := ⟨J.z.y - J.y.z, J.x.z - J.z.x, J.y.x - J.x.y⟩

/-- `F` is differentiable at `p` and its curl there is `c`. -/
def HasCurl (F : V3 ℝ → V3 E) (c : V3 E) (p : V3 ℝ) : Prop :=
  ∃ J : M3 E, HasJac F J p ∧ J.curl = c

/-- `F` is differentiable at `p` and its divergence there is `d`. -/
def HasDiv (F : V3 ℝ → V3 E) (d : E) (p : V3 ℝ) : Prop :=
  ∃ J : M3 E, HasJac F J p ∧ M3.trace J = d

/-- The definition contains the ordinary partial derivatives. -/
theorem HasGrad.partials {f : V3 ℝ → E} {g : V3 E} {p : V3 ℝ} (h : HasGrad f g p) :
    HasDerivAt (fun t : ℝ => f ⟨t, p.y, p.z⟩) g.x p.x ∧
    HasDerivAt (fun t : ℝ => f ⟨p.x, t, p.z⟩) g.y p.y ∧
    HasDerivAt (fun t : ℝ => f ⟨p.x, p.y, t⟩) g.z p.z := by
  refine ⟨?_, ?_, ?_⟩
  · have h1 := h ⟨1, 0, 0⟩
    have h2 : HasDerivAt (fun t : ℝ => t - p.x) 1 p.x := (hasDerivAt_id _).sub_const _
    have h4 := h1.scomp_of_eq p.x h2 (by simp)
    simp only [V3.app, one_smul, zero_smul, add_zero] at h4
    refine h4.congr_of_eventuallyEq (Filter.Eventually.of_forall fun t => ?_)
    simp only [Function.comp]
    congr 1
    ext <;> simp
  · have h1 := h ⟨0, 1, 0⟩
    have h2 : HasDerivAt (fun t : ℝ => t - p.y) 1 p.y := (hasDerivAt_id _).sub_const _
    have h4 := h1.scomp_of_eq p.y h2 (by simp)
    simp only [V3.app, one_smul, zero_smul, add_zero, zero_add] at h4
    refine h4.congr_of_eventuallyEq (Filter.Eventually.of_forall fun t => ?_)
    simp only [Function.comp]
    congr 1
    ext <;> simp
  · have h1 := h ⟨0, 0, 1⟩
    have h2 : HasDerivAt (fun t : ℝ => t - p.z) 1 p.z := (hasDerivAt_id _).sub_const _
    have h4 := h1.scomp_of_eq p.z h2 (by simp)
    simp only [V3.app, one_smul, zero_smul, zero_add] at h4
    refine h4.congr_of_eventuallyEq (Filter.Eventually.of_forall fun t => ?_)
    simp only [Function.comp]
    congr 1
    ext <;> simp

/-- The gradient is unique. -/
theorem HasGrad.unique {f : V3 ℝ → E} {g g' : V3 E} {p : V3 ℝ} (h : HasGrad f g p)
    (h' : HasGrad f g' p) : g = g' := by
  obtain ⟨a, b, c⟩ := h.partials
  obtain ⟨a', b', c'⟩ := h'.partials
  ext
  · exact a.unique a'
  · exact b.unique b'
  · exact c.unique c'

/-- The curl is unique. -/
theorem HasCurl.unique {F : V3 ℝ → V3 E} {c c' : V3 E} {p : V3 ℝ} (h : HasCurl F c p)
    (h' : HasCurl F c' p) : c = c' := by
  obtain ⟨J, ⟨hx, hy, hz⟩, rfl⟩ := h
  obtain ⟨J', ⟨hx', hy', hz'⟩, rfl⟩ := h'
  have e1 := hx.unique hx'
  have e2 := hy.unique hy'
  have e3 := hz.unique hz'
  have : J = J' := by ext1 <;> assumption
  rw [this]

/-- The divergence is unique. -/
theorem HasDiv.unique {F : V3 ℝ → V3 E} {d d' : E} {p : V3 ℝ} (h : HasDiv F d p)
    (h' : HasDiv F d' p) : d = d' := by
  obtain ⟨J, ⟨hx, hy, hz⟩, rfl⟩ := h
  obtain ⟨J', ⟨hx', hy', hz'⟩, rfl⟩ := h'
  have e1 := hx.unique hx'
  have e2 := hy.unique hy'
  have e3 := hz.unique hz'
  have : J = J' := by ext1 <;> assumption
  rw [this]

end Verif
