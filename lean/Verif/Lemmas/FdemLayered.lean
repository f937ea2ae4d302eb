import Verif.Lemmas.FdemHalfspace

/-! # The dipole over a layered earth (helper lemmas) -/

namespace Verif.Fdem

open Complex (I)
open Spatial

theorem transform_add (filter : List Tap) (f g : Tap → ℂ) : transform filter f + transform filter g = transform filter (fun t => f t + g t) := by
  simp [transform, List.sum_map_add]

theorem transform_mul (filter : List Tap) (f : Tap → ℂ) (c : ℂ) : transform filter f * c = transform filter (fun t => f t * c) := by
  simp [transform, List.sum_map_mul_right]

theorem transform_sub (filter : List Tap) (f g : Tap → ℂ) : transform filter f - transform filter g = transform filter (fun t => f t - g t) := by
  rw [sub_eq_add_neg, neg_eq_neg_one_mul, mul_comm, transform_mul, transform_add]
  congr 1
  funext t
  ring

theorem transform_div (filter : List Tap) (c : ℂ) (f : Tap → ℂ) : transform filter f / c = transform filter (fun t => f t / c) := by
  simp [transform, div_eq_mul_inv, List.sum_map_mul_right]

/-- The coefficients without the branches. -/
theorem coefficients_eq (src : V3 ℝ) (x y offset lambd : ℝ) :
    coefficients src x y offset lambd =
      (⟨(src.x * x + src.y * y) * x / offset ^ 2 * lambd ^ 2, (src.x * x + src.y * y) * y / offset ^ 2 * lambd ^ 2, src.z * lambd ^ 2⟩,
       ⟨(src.x / offset - 2 * (src.x * x + src.y * y) * x / offset ^ 3) * lambd + src.z * x / offset * lambd ^ 2,
        (src.y / offset - 2 * (src.x * x + src.y * y) * y / offset ^ 3) * lambd + src.z * y / offset * lambd ^ 2,
        -((src.x * x + src.y * y) / offset * lambd ^ 2)⟩) := by
  simp only [coefficients]
  by_cases hx : src.x = 0 <;> by_cases hy : src.y = 0 <;> by_cases hz : src.z = 0 <;>
    simp only [hx, hy, hz, ne_eq, not_true_eq_false, not_false_eq_true, if_true, if_false] <;>
    refine Prod.ext ?_ ?_ <;> ext <;>
    simp only [V3.add_x, V3.add_y, V3.add_z, V3.zero_x, V3.zero_y, V3.zero_z] <;> ring

/-- The reflected part of the field of a layered earth: with `d` the displacement and `m` the source's direction, the horizontal
field is `A (m·d) d + B m + C m_z d` and the vertical one is `D m_z - C m·d` (horizontal products), with coefficients
that depend on the horizontal distance and on the sum of the heights only. -/
theorem fieldAt_form (filter : List Tap) (rTE : ℝ → ℂ) (rho height : ℝ) :
    ∃ A B C D : ℂ, ∀ (mu0 : ℝ) (s : LayeredDipole) (p : V3 ℝ), s.rTE mu0 = rTE →
      Real.sqrt ((p.x - s.location.x) ^ 2 + (p.y - s.location.y) ^ 2) = rho → p.z + s.location.z = height →
      ∀ field : String,
      let x := p.x - s.location.x
      let y := p.y - s.location.y
      let z := p.z - s.location.z
      let m := s.orientation
      let r := (p - s.location).len
      s.fieldAt filter mu0 p field = ((s.moment / (4 * Real.pi) : ℝ) : ℂ) •
        ((⟨A * (m.x * x + m.y * y : ℝ) * x + B * m.x + C * m.z * x, A * (m.x * x + m.y * y : ℝ) * y + B * m.y + C * m.z * y,
          D * m.z - C * (m.x * x + m.y * y : ℝ)⟩ : V3 ℂ) +
        if field = "total" then (⟨3 * x * (m.x * x + m.y * y + m.z * z) / r ^ 5 - m.x / r ^ 3,
          3 * y * (m.x * x + m.y * y + m.z * z) / r ^ 5 - m.y / r ^ 3,
          3 * z * (m.x * x + m.y * y + m.z * z) / r ^ 5 - m.z / r ^ 3⟩ : V3 ℝ).map (fun c : ℝ => (c : ℂ)) else 0) := by
  let R : Tap → ℂ := fun t => rTE (t.base / rho) * Real.exp (-(t.base / rho) * height)
  refine ⟨transform filter (fun t => (((t.base / rho : ℝ) : ℂ) ^ 2 / rho ^ 2 * t.j0 - 2 * ((t.base / rho : ℝ) : ℂ) / rho ^ 3 * t.j1) * R t / rho),
    transform filter (fun t => ((t.base / rho : ℝ) : ℂ) / rho * t.j1 * R t / rho),
    transform filter (fun t => ((t.base / rho : ℝ) : ℂ) ^ 2 / rho * t.j1 * R t / rho),
    transform filter (fun t => ((t.base / rho : ℝ) : ℂ) ^ 2 * t.j0 * R t / rho), ?_⟩
  intro mu0 s p hR hrho hh field x y z m r
  have hrho' : Real.sqrt ((p - s.location).x ^ 2 + (p - s.location).y ^ 2) = rho := hrho
  simp only [LayeredDipole.fieldAt, hrho', hR, hh, coefficients_eq]
  have key : ∀ (a b : V3 ℂ) (c : ℂ), (if field = "total" then a + b else a) = a + if field = "total" then b else 0 := by
    intro a b c
    split <;> simp
  rw [key _ _ 0]
  congr 2
  ext
  · simp only [transform_add, transform_div, transform_mul]
    congr 1
    funext t
    simp only [R, m, x, y, V3.sub_x, V3.sub_y]
    push_cast
    ring
  · simp only [transform_add, transform_div, transform_mul]
    congr 1
    funext t
    simp only [R, m, x, y, V3.sub_x, V3.sub_y]
    push_cast
    ring
  · simp only [transform_add, transform_div, transform_mul, transform_sub]
    congr 1
    funext t
    simp only [R, m, x, y, V3.sub_x, V3.sub_y]
    push_cast
    ring

end Verif.Fdem
