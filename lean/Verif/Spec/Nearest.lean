import Verif.Spec.Rounding
import Mathlib.Data.Int.Log
import Mathlib.Algebra.Ring.Int.Parity

/-!
# Rounded operations

IEEE 754 requires that sums, differences, products, quotients and square roots are the exact results rounded.
-/

namespace Verif

/-- Sums, differences, products, quotients, square roots and constants are the exact ones rounded by `rnd`, which treats both signs alike and
keeps the order of numbers.  Rounding to nearest does, with or without gradual underflow. -/
structure Rounds (F : Ops) (rnd : ℝ → ℝ) : Prop where
  add : ∀ a b, F.add a b = rnd (a + b)
  sub : ∀ a b, F.sub a b = rnd (a - b)
  mul : ∀ a b, F.mul a b = rnd (a * b)
  div : ∀ a b, F.div a b = rnd (a / b)
  sqrt : ∀ a, F.sqrt a = rnd (Real.sqrt a)
  const : ∀ a, F.const a = rnd a
  pow_nonneg : ∀ a n, 0 ≤ a → 0 ≤ F.pow a n
  odd : ∀ a, rnd (-a) = -rnd a
  mono : Monotone rnd

/-- The nearest whole number; of two, the even one. -/
noncomputable def roundEven (y : ℝ) : ℤ :=
  if Int.fract y < 1 / 2 then ⌊y⌋ else if 1 / 2 < Int.fract y then ⌊y⌋ + 1 else if Even ⌊y⌋ then ⌊y⌋ else ⌊y⌋ + 1

/-- The distance of the numbers with 53 binary digits around `x`. -/
noncomputable def ulp (x : ℝ) : ℝ := 2 ^ (Int.log 2 |x| - 52)

/-- The nearest number with 53 binary digits (IEEE 754 double precision, round to nearest, ties to even), with any exponent. -/
noncomputable def nearest (x : ℝ) : ℝ := roundEven (x / ulp x) * ulp x

/-- Every operation is exact, then rounded to 53 digits. -/
noncomputable def Ops.nearest (order : Fin 3) : Ops where
  add a b := Verif.nearest (a + b)
  sub a b := Verif.nearest (a - b)
  mul a b := Verif.nearest (a * b)
  div a b := Verif.nearest (a / b)
  sqrt a := Verif.nearest (Real.sqrt a)
  exp a := Verif.nearest (Real.exp a)
  erf a := Verif.nearest (Verif.erf a)
  pow a n := Verif.nearest (a ^ n)
  const a := Verif.nearest a
  order := order

/-- Changes of sign of some coordinates. -/
structure Signs where
  x : ℤˣ
  y : ℤˣ
  z : ℤˣ

/-- The coordinates with changed signs. -/
def Signs.flip (e : Signs) (v : V3 ℝ) : V3 ℝ := ⟨((e.x : ℤ) : ℝ) * v.x, ((e.y : ℤ) : ℝ) * v.y, ((e.z : ℤ) : ℝ) * v.z⟩

/-- The entries of a tensor with changed signs. -/
def Signs.flipTensor (e : Signs) (m : M3 ℝ) : M3 ℝ :=
  ⟨((e.x : ℤ) : ℝ) • e.flip m.x, ((e.y : ℤ) : ℝ) • e.flip m.y, ((e.z : ℤ) : ℝ) • e.flip m.z⟩

end Verif
