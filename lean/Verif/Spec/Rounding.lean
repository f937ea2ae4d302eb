import Verif.Spec.Vec
import Verif.Spec.Erf

/-!
# Arithmetic with rounding

An `Arith u` is any way of carrying out the elementary operations such that each result differs from the exact one by at most
the fraction `u` of it.  Double precision numbers with `u = 2⁻⁵²` (one unit in the last place, so that library functions may
be off by one unit) are of this kind as long as no result overflows or is too small to be a normal number.  Nothing else is
known about the operations: they need not be commutative, and equal exact results may be rounded differently.
-/

namespace Verif

/-- A way of carrying out the elementary operations. -/
structure Ops where
  add : ℝ → ℝ → ℝ
  sub : ℝ → ℝ → ℝ
  mul : ℝ → ℝ → ℝ
  div : ℝ → ℝ → ℝ
  sqrt : ℝ → ℝ
  exp : ℝ → ℝ
  erf : ℝ → ℝ
  /-- `x ** n` with a small whole number `n` -/
  pow : ℝ → ℕ → ℝ
  /-- the stored value of a constant such as π or the gravitational constant -/
  const : ℝ → ℝ
  /-- the order in which numpy adds three numbers, which depends on the layout in memory -/
  order : Fin 3

/-- Elementary operations with relative error at most `u` each. -/
structure Arith (u : ℝ) extends Ops where
  add_err : ∀ a b, |add a b - (a + b)| ≤ u * |a + b|
  sub_err : ∀ a b, |sub a b - (a - b)| ≤ u * |a - b|
  mul_err : ∀ a b, |mul a b - a * b| ≤ u * |a * b|
  div_err : ∀ a b, b ≠ 0 → |div a b - a / b| ≤ u * |a / b|
  sqrt_err : ∀ a, 0 ≤ a → |sqrt a - Real.sqrt a| ≤ u * |Real.sqrt a|
  pow_err : ∀ a n, |pow a n - a ^ n| ≤ u * |a ^ n|
  exp_err : ∀ a, |exp a - Real.exp a| ≤ u * |Real.exp a|
  erf_err : ∀ a, |erf a - Verif.erf a| ≤ u * |Verif.erf a|
  const_err : ∀ a, |const a - a| ≤ u * |a|

instance {u : ℝ} : CoeOut (Arith u) Ops := ⟨Arith.toOps⟩

/-- Exact arithmetic. -/
noncomputable def Arith.exact : Arith 0 where
  add a b := a + b
  sub a b := a - b
  mul a b := a * b
  div a b := a / b
  sqrt := Real.sqrt
  exp := Real.exp
  erf := Verif.erf
  pow a n := a ^ n
  const a := a
  order := 0
  add_err := by simp
  sub_err := by simp
  mul_err := by simp
  div_err := by simp
  sqrt_err := by simp
  pow_err := by simp
  exp_err := by simp
  erf_err := by simp
  const_err := by simp

/-- `y` is `x` up to the relative error of `n` roundings: `|y - x| ≤ n u / (1 - n u) |x|`. -/
def Accurate (u n x y : ℝ) : Prop := |y - x| ≤ n * u / (1 - n * u) * |x|

/-- `y` is `x` up to the error of `n` roundings of a number of size `M`. -/
def AccurateTo (M u n x y : ℝ) : Prop := |y - x| ≤ n * u / (1 - n * u) * M

/-- Each component is accurate by itself. -/
def V3.Accurate (u n : ℝ) (x y : V3 ℝ) : Prop :=
  Verif.Accurate u n x.x y.x ∧ Verif.Accurate u n x.y y.y ∧ Verif.Accurate u n x.z y.z

/-- Each component is accurate to a common size. -/
def V3.AccurateTo (M u n : ℝ) (x y : V3 ℝ) : Prop :=
  Verif.AccurateTo M u n x.x y.x ∧ Verif.AccurateTo M u n x.y y.y ∧ Verif.AccurateTo M u n x.z y.z

end Verif
