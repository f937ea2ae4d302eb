import Verif.Model.Rounded
import Verif.Model.Prism

/-!
# The gravity of a prism in the order in which the code carries out the operations, each of them rounded

As in `Model/Rounded`; the logarithm and the arctangent are rounded too.  The kernels are the Python ones.
-/

namespace Verif

/-- Elementary operations, logarithm and arctangent with relative error at most `u` each. -/
structure ArithLog (u : ℝ) extends Arith u where
  log : ℝ → ℝ
  arctan : ℝ → ℝ
  log_err : ∀ a, |log a - Real.log a| ≤ u * |Real.log a|
  arctan_err : ∀ a, |arctan a - Real.arctan a| ≤ u * |Real.arctan a|

/-- Exact arithmetic. -/
noncomputable def ArithLog.exact : ArithLog 0 :=
  { Arith.exact with log := Real.log, arctan := Real.arctan, log_err := by simp, arctan_err := by simp }

namespace Rounded

open Classical Prism

variable {u : ℝ} (F : ArithLog u)

/-- `np.sqrt(x * x + y * y + z * z)`. -/
def nodeDistance (x y z : ℝ) : ℝ := F.sqrt (F.add (F.add (F.mul x x) (F.mul y y)) (F.mul z z))

/-- potential_field_prism.py:32-54. -/
noncomputable def prismF (x y z : ℝ) : ℝ :=
  let r := nodeDistance F x y z
  let out := 0
  let temp := F.add z r
  let out := if x ≠ 0 ∧ y ≠ 0 ∧ temp > 0 then F.sub out (F.mul (F.mul x y) (F.log temp)) else out
  let temp := F.add x r
  let out := if y ≠ 0 ∧ z ≠ 0 ∧ temp > 0 then F.sub out (F.mul (F.mul y z) (F.log temp)) else out
  let temp := F.add y r
  let out := if x ≠ 0 ∧ z ≠ 0 ∧ temp > 0 then F.sub out (F.mul (F.mul x z) (F.log temp)) else out
  let out := if x ≠ 0 then F.add out (F.mul (F.mul (F.mul 0.5 x) x) (F.arctan (F.div (F.mul y z) (F.mul x r)))) else out
  let out := if y ≠ 0 then F.add out (F.mul (F.mul (F.mul 0.5 y) y) (F.arctan (F.div (F.mul x z) (F.mul y r)))) else out
  let out := if z ≠ 0 then F.add out (F.mul (F.mul (F.mul 0.5 z) z) (F.arctan (F.div (F.mul x y) (F.mul z r)))) else out
  out

/-- potential_field_prism.py:76-90. -/
noncomputable def prismFz (x y z : ℝ) : ℝ :=
  let r := nodeDistance F x y z
  let out := 0
  let temp := F.add y r
  let out := if x ≠ 0 ∧ temp > 0 then F.add out (F.mul x (F.log temp)) else out
  let temp := F.add x r
  let out := if y ≠ 0 ∧ temp > 0 then F.add out (F.mul y (F.log temp)) else out
  let out := if z ≠ 0 then F.sub out (F.mul z (F.arctan (F.div (F.mul x y) (F.mul z r)))) else out
  out

/-- potential_field_prism.py:112-117. -/
noncomputable def prismFzz (x y z : ℝ) : ℝ :=
  let r := nodeDistance F x y z
  let out := 0
  if z ≠ 0 then F.arctan (F.div (F.mul x y) (F.mul z r)) else out

/-- potential_field_prism.py:139-149. -/
noncomputable def prismFzx (x y z : ℝ) : ℝ :=
  let r := nodeDistance F x y z
  let out := 0
  let v := F.add y r
  let out := if v = 0 ∧ y < 0 then F.log (F.mul (-2) y) else out
  let out := if v ≠ 0 then -F.log v else out
  out

/-- potential_field_prism.py:171-181. -/
noncomputable def prismFzy (x y z : ℝ) : ℝ :=
  let r := nodeDistance F x y z
  let out := 0
  let v := F.add x r
  let out := if v = 0 ∧ x < 0 then F.log (F.mul (-2) x) else out
  let out := if v ≠ 0 then -F.log v else out
  out

/-- `BasePrism._eval_def_int`, shapes.py:119-147. -/
noncomputable def evalDefInt (b : Box) (func : ℝ → ℝ → ℝ → ℝ) (xyz : V3 ℝ) (cycle : ℕ) : ℝ :=
  let mn := cycleN cycle ⟨F.sub b.min.x xyz.x, F.sub b.min.y xyz.y, F.sub b.min.z xyz.z⟩
  let mx := cycleN cycle ⟨F.sub b.max.x xyz.x, F.sub b.max.y xyz.y, F.sub b.max.z xyz.z⟩
  let v000 := func mn.x mn.y mn.z
  let v001 := func mn.x mn.y mx.z
  let v010 := func mn.x mx.y mn.z
  let v011 := func mn.x mx.y mx.z
  let v100 := func mx.x mn.y mn.z
  let v101 := func mx.x mn.y mx.z
  let v110 := func mx.x mx.y mn.z
  let v111 := func mx.x mx.y mx.z
  F.sub (F.add (F.add (F.sub (F.add (F.sub (F.sub v111 v110) v101) v100) v011) v010) v001) v000

/-- gravity.py:636-638. -/
noncomputable def GravPrism.gravitationalPotential (s : GravPrism) (xyz : V3 ℝ) : ℝ :=
  F.mul (F.mul (-F.const Gravity.G) s.rho) (evalDefInt F s.box (prismF F) xyz 0)

/-- gravity.py:655-660. -/
noncomputable def GravPrism.gravitationalField (s : GravPrism) (xyz : V3 ℝ) : V3 ℝ :=
  let gx := evalDefInt F s.box (prismFz F) xyz 1
  let gy := evalDefInt F s.box (prismFz F) xyz 2
  let gz := evalDefInt F s.box (prismFz F) xyz 0
  let k := F.mul (-F.const Gravity.G) s.rho
  ⟨F.mul k gx, F.mul k gy, F.mul k gz⟩

/-- gravity.py:676-694. -/
noncomputable def GravPrism.gravitationalGradient (s : GravPrism) (xyz : V3 ℝ) : M3 ℝ :=
  let gxx := evalDefInt F s.box (prismFzz F) xyz 1
  let gxy := evalDefInt F s.box (prismFzx F) xyz 1
  let gxz := evalDefInt F s.box (prismFzx F) xyz 0
  let gyy := evalDefInt F s.box (prismFzz F) xyz 2
  let gyz := evalDefInt F s.box (prismFzy F) xyz 0
  let gzz := evalDefInt F s.box (prismFzz F) xyz 0
  let first : V3 ℝ := ⟨gxx, gxy, gxz⟩
  let second : V3 ℝ := ⟨gxy, gyy, gyz⟩
  let third : V3 ℝ := ⟨gxz, gyz, gzz⟩
  let k := F.mul (-F.const Gravity.G) s.rho
  ⟨⟨F.mul k first.x, F.mul k second.x, F.mul k third.x⟩,
   ⟨F.mul k first.y, F.mul k second.y, F.mul k third.y⟩,
   ⟨F.mul k first.z, F.mul k second.z, F.mul k third.z⟩⟩

end Rounded

end Verif
