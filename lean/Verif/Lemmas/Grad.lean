import Verif.Spec.Calculus
import Mathlib.Analysis.Calculus.Deriv.Inv
import Mathlib.Analysis.Calculus.Deriv.Pow
import Mathlib.Analysis.Calculus.Deriv.ZPow
import Mathlib.Analysis.SpecialFunctions.Sqrt

/-! # Rules for computing gradients (helper lemmas) -/

namespace Verif

section general

variable {E : Type*} [NormedAddCommGroup E] [NormedSpace ℝ E]

theorem HasGrad.congr {f : V3 ℝ → E} {g g' : V3 E} {p : V3 ℝ} (h : HasGrad f g p) (e : g = g') :
    HasGrad f g' p := e ▸ h

theorem hasGrad_const (c : E) (p : V3 ℝ) : HasGrad (fun _ => c) 0 p := fun v => by
  simpa [V3.app] using hasDerivAt_const (0 : ℝ) c

theorem HasGrad.add {f g : V3 ℝ → E} {a b : V3 E} {p : V3 ℝ} (hf : HasGrad f a p)
    (hg : HasGrad g b p) : HasGrad (fun q => f q + g q) (a + b) p := fun v => by
  refine ((hf v).add (hg v)).congr_deriv ?_
  simp [V3.app]; abel

theorem HasGrad.sub {f g : V3 ℝ → E} {a b : V3 E} {p : V3 ℝ} (hf : HasGrad f a p)
    (hg : HasGrad g b p) : HasGrad (fun q => f q - g q) (a - b) p := fun v => by
  refine ((hf v).sub (hg v)).congr_deriv ?_
  simp [V3.app, smul_sub]; abel

theorem HasGrad.neg {f : V3 ℝ → E} {a : V3 E} {p : V3 ℝ} (hf : HasGrad f a p) :
    HasGrad (fun q => - f q) (-a) p := fun v => by
  refine ((hf v).neg).congr_deriv ?_
  simp [V3.app]; abel

/-- Only the values near the point (along lines) matter; enough: functions equal on a set that every line
through `p` meets in a neighbourhood. -/
theorem HasGrad.congr_of_lines {f g : V3 ℝ → E} {a : V3 E} {p : V3 ℝ} (hf : HasGrad f a p)
    (h : ∀ v : V3 ℝ, ∀ᶠ t : ℝ in nhds 0, g (p + t • v) = f (p + t • v)) : HasGrad g a p := fun v =>
  (hf v).congr_of_eventuallyEq (h v)

theorem HasGrad.comp {f : V3 ℝ → ℝ} {a : V3 ℝ} {p : V3 ℝ} {g : ℝ → E} {g' : E}
    (hg : HasDerivAt g g' (f p)) (hf : HasGrad f a p) :
    HasGrad (fun q => g (f q)) (a.map (fun c => c • g')) p := fun v => by
  have h := HasDerivAt.scomp_of_eq (h := fun t : ℝ => f (p + t • v)) (0 : ℝ) hg (hf v) (by simp)
  refine h.congr_deriv ?_
  simp [V3.app, add_smul, mul_smul]

theorem hasGrad_x (p : V3 ℝ) : HasGrad (fun q => q.x) ⟨1, 0, 0⟩ p := fun v => by
  have : HasDerivAt (fun t : ℝ => p.x + t * v.x) (1 * v.x) 0 :=
    ((hasDerivAt_id (0 : ℝ)).mul_const v.x).const_add p.x
  simpa [V3.app] using this

theorem hasGrad_y (p : V3 ℝ) : HasGrad (fun q => q.y) ⟨0, 1, 0⟩ p := fun v => by
  have : HasDerivAt (fun t : ℝ => p.y + t * v.y) (1 * v.y) 0 :=
    ((hasDerivAt_id (0 : ℝ)).mul_const v.y).const_add p.y
  simpa [V3.app] using this

theorem hasGrad_z (p : V3 ℝ) : HasGrad (fun q => q.z) ⟨0, 0, 1⟩ p := fun v => by
  have : HasDerivAt (fun t : ℝ => p.z + t * v.z) (1 * v.z) 0 :=
    ((hasDerivAt_id (0 : ℝ)).mul_const v.z).const_add p.z
  simpa [V3.app] using this

theorem hasGrad_sub_x (o p : V3 ℝ) : HasGrad (fun q => q.x - o.x) ⟨1, 0, 0⟩ p :=
  ((hasGrad_x p).sub (hasGrad_const o.x p)).congr (by ext <;> simp)

theorem hasGrad_sub_y (o p : V3 ℝ) : HasGrad (fun q => q.y - o.y) ⟨0, 1, 0⟩ p :=
  ((hasGrad_y p).sub (hasGrad_const o.y p)).congr (by ext <;> simp)

theorem hasGrad_sub_z (o p : V3 ℝ) : HasGrad (fun q => q.z - o.z) ⟨0, 0, 1⟩ p :=
  ((hasGrad_z p).sub (hasGrad_const o.z p)).congr (by ext <;> simp)

end general

section algebra

variable {A : Type*} [NormedCommRing A] [NormedAlgebra ℝ A]

theorem HasGrad.mul {f g : V3 ℝ → A} {a b : V3 A} {p : V3 ℝ} (hf : HasGrad f a p)
    (hg : HasGrad g b p) :
    HasGrad (fun q => f q * g q) (a.map (· * g p) + b.map (f p * ·)) p := fun v => by
  refine ((hf v).mul (hg v)).congr_deriv ?_
  simp [V3.app, Algebra.smul_def]; ring

theorem HasGrad.const_mul {f : V3 ℝ → A} {a : V3 A} {p : V3 ℝ} (c : A) (hf : HasGrad f a p) :
    HasGrad (fun q => c * f q) (a.map (c * ·)) p := fun v => by
  refine ((hf v).const_mul c).congr_deriv ?_
  simp [V3.app, Algebra.smul_def]; ring

theorem HasGrad.mul_const {f : V3 ℝ → A} {a : V3 A} {p : V3 ℝ} (c : A) (hf : HasGrad f a p) :
    HasGrad (fun q => f q * c) (a.map (· * c)) p := fun v => by
  refine ((hf v).mul_const c).congr_deriv ?_
  simp [V3.app, Algebra.smul_def]; ring

/-- Real-valued gradients are also complex-valued ones. -/
theorem HasGrad.ofReal {f : V3 ℝ → ℝ} {a : V3 ℝ} {p : V3 ℝ} (hf : HasGrad f a p) :
    HasGrad (fun q => algebraMap ℝ A (f q)) (a.map (algebraMap ℝ A)) p := fun v => by
  have h := ((hf v).smul_const (1 : A))
  simp only [Algebra.algebraMap_eq_smul_one]
  refine h.congr_deriv ?_
  simp [V3.app, add_smul, mul_smul, Algebra.algebraMap_eq_smul_one]

end algebra

/-- The distance from `o` has gradient `(p - o)/|p - o|`. -/
theorem hasGrad_len_sub (o p : V3 ℝ) (h : (p - o).len ≠ 0) :
    HasGrad (fun q => (q - o).len) ((p - o).map (· / (p - o).len)) p := fun v => by
  set R := p - o with hR
  have hq : HasDerivAt (fun t : ℝ => (R.x + t * v.x) ^ 2 + (R.y + t * v.y) ^ 2 + (R.z + t * v.z) ^ 2)
      (2 * (R.x * v.x + R.y * v.y + R.z * v.z)) 0 := by
    have hx : ∀ a b : ℝ, HasDerivAt (fun t : ℝ => (a + t * b) ^ 2) (2 * (a * b)) 0 := by
      intro a b
      have := (((hasDerivAt_id (0 : ℝ)).mul_const b).const_add a).pow 2
      refine this.congr_deriv ?_
      simp; ring
    refine (((hx R.x v.x).add (hx R.y v.y)).add (hx R.z v.z)).congr_deriv ?_
    ring
  have hpos : R.x ^ 2 + R.y ^ 2 + R.z ^ 2 ≠ 0 := by
    rw [← V3.len_sq]; positivity
  have hs := hq.sqrt (by simpa using hpos)
  have e : (fun t : ℝ => ((p + t • v) - o).len) =
      fun t : ℝ => Real.sqrt ((R.x + t * v.x) ^ 2 + (R.y + t * v.y) ^ 2 + (R.z + t * v.z) ^ 2) := by
    funext t
    simp only [V3.len, hR, V3.sub_x, V3.sub_y, V3.sub_z, V3.add_x, V3.add_y, V3.add_z, V3.smul_x,
      V3.smul_y, V3.smul_z, smul_eq_mul]
    congr 1; ring
  rw [e]
  refine hs.congr_deriv ?_
  have e2 : Real.sqrt ((R.x + 0 * v.x) ^ 2 + (R.y + 0 * v.y) ^ 2 + (R.z + 0 * v.z) ^ 2) = R.len := by
    simp [V3.len]
  rw [e2]
  simp only [V3.app, V3.map_x, V3.map_y, V3.map_z, smul_eq_mul]
  field_simp

/-- A function of the distance from `o`. -/
theorem hasGrad_radial {E : Type*} [NormedAddCommGroup E] [NormedSpace ℝ E] (o p : V3 ℝ)
    (h : (p - o).len ≠ 0) {g : ℝ → E} {g' : E} (hg : HasDerivAt g g' (p - o).len) :
    HasGrad (fun q => g (q - o).len) ((p - o).map (fun c => (c / (p - o).len) • g')) p :=
  (HasGrad.comp (f := fun q => (q - o).len) hg (hasGrad_len_sub o p h)).congr (by
    ext <;> simp)

/-- Along every line through `p`, points stay away from `o ≠ p`. -/
theorem eventually_line_ne (p o : V3 ℝ) (h : p ≠ o) (v : V3 ℝ) :
    ∀ᶠ t : ℝ in nhds 0, p + t • v ≠ o := by
  have hl := V3.len_sub_ne_zero h
  have hc := (hasGrad_len_sub o p hl v).continuousAt
  have : ∀ᶠ t : ℝ in nhds 0, (p + t • v - o).len ≠ 0 := hc.eventually_ne (by simpa using hl)
  filter_upwards [this] with t ht e
  exact ht (by rw [e]; simp [V3.len])

end Verif
