import Verif.Py.ComplexOps
import Mathlib.Analysis.Complex.Norm

/-! # Specification: what the range of double precision leaves of a function of a complex argument -/

namespace Verif

/-- A library function `f` stands for the exact function `F` in the right half-plane: where the exact value is well inside the range of double
precision (about `1.8e308 = 2 ^ 1024`) the result is finite; a real or imaginary part beyond the range is not (it comes out as `inf` or
`nan`); a part below the smallest double (`2 ^ -1074`) by a factor of four comes out as zero.  Nothing is said about rounding. -/
structure InDoubles (f : PyComplex → PyComplex) (F : ℂ → ℂ) : Prop where
  inside : ∀ z : ℂ, 0 < z.re → ‖F z‖ ≤ 2 ^ 1000 → (f (.fin z)).Finite
  big_re : ∀ z : ℂ, 0 < z.re → 2 ^ 1024 ≤ |(F z).re| → ¬ (f (.fin z)).re.Finite
  big_im : ∀ z : ℂ, 0 < z.re → 2 ^ 1024 ≤ |(F z).im| → ¬ (f (.fin z)).im.Finite
  tiny_re : ∀ z : ℂ, 0 < z.re → |(F z).re| ≤ 1 / 2 ^ 1076 → (f (.fin z)).re = .fin 0
  tiny_im : ∀ z : ℂ, 0 < z.re → |(F z).im| ≤ 1 / 2 ^ 1076 → (f (.fin z)).im = .fin 0

end Verif
