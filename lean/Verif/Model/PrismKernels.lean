import Verif.Spec.Vec
import Mathlib.Analysis.SpecialFunctions.Log.Basic
import Mathlib.Analysis.SpecialFunctions.Trigonometric.Arctan

/-!
# Model of the nine prism kernels

`Verif.Prism.Py.*` models `geoana/kernels/potential_field_prism.py` and `Verif.Prism.Cy.*` models
`geoana/kernels/_extensions/potential_field_prism.pyx`, both at one node `(x, y, z)` of exact reals.
In the Python version `out[nz] op= expr[nz]` with a boolean mask becomes, at one point,
`if nz then out op expr else out`, in program order.
-/

namespace Verif.Prism

open Real Classical

namespace Py

/-- potential_field_prism.py:32-54. -/
noncomputable def prismF (x y z : ℝ) : ℝ :=
  let r := √(x * x + y * y + z * z)
  let out := 0
  let temp := z + r
  let out := if x ≠ 0 ∧ y ≠ 0 ∧ temp > 0 then out - x * y * log temp else out
  let temp := x + r
  let out := if y ≠ 0 ∧ z ≠ 0 ∧ temp > 0 then out - y * z * log temp else out
  let temp := y + r
  let out := if x ≠ 0 ∧ z ≠ 0 ∧ temp > 0 then out - x * z * log temp else out
  let out := if x ≠ 0 then out + 0.5 * x * x * arctan (y * z / (x * r)) else out
  let out := if y ≠ 0 then out + 0.5 * y * y * arctan (x * z / (y * r)) else out
  let out := if z ≠ 0 then out + 0.5 * z * z * arctan (x * y / (z * r)) else out
  out

/-- potential_field_prism.py:76-90. -/
noncomputable def prismFz (x y z : ℝ) : ℝ :=
  let r := √(x * x + y * y + z * z)
  let out := 0
  let temp := y + r
  let out := if x ≠ 0 ∧ temp > 0 then out + x * log temp else out
  let temp := x + r
  let out := if y ≠ 0 ∧ temp > 0 then out + y * log temp else out
  let out := if z ≠ 0 then out - z * arctan (x * y / (z * r)) else out
  out

/-- potential_field_prism.py:112-117. -/
noncomputable def prismFzz (x y z : ℝ) : ℝ :=
  let r := √(x * x + y * y + z * z)
  let out := 0
  if z ≠ 0 then arctan (x * y / (z * r)) else out

/-- potential_field_prism.py:139-149. -/
noncomputable def prismFzx (x y z : ℝ) : ℝ :=
  let r := √(x * x + y * y + z * z)
  let out := 0
  let v := y + r
  let out := if v = 0 ∧ y < 0 then log (-2 * y) else out
  let out := if v ≠ 0 then -log v else out
  out

/-- potential_field_prism.py:171-181. -/
noncomputable def prismFzy (x y z : ℝ) : ℝ :=
  let r := √(x * x + y * y + z * z)
  let out := 0
  let v := x + r
  let out := if v = 0 ∧ x < 0 then log (-2 * x) else out
  let out := if v ≠ 0 then -log v else out
  out

/-- potential_field_prism.py:203-215. -/
noncomputable def prismFzzz (x y z : ℝ) : ℝ :=
  let r := √(x * x + y * y + z * z)
  let v2 := x * x + z * z
  let v3 := y * y + z * z
  let out := 0
  let out := if v2 ≠ 0 then 1 / v2 else out
  let out := if v3 ≠ 0 then out + 1 / v3 else out
  let out := if r ≠ 0 then out * (x * y / r) else out
  out

/-- potential_field_prism.py:237-246. -/
noncomputable def prismFxxy (x y z : ℝ) : ℝ :=
  let r := √(x * x + y * y + z * z)
  let v := x * x + y * y
  let out := 0
  let out := if v ≠ 0 then 1 / v else out
  let out := if r ≠ 0 then out * (-x * z / r) else out
  out

/-- potential_field_prism.py:268-277. -/
noncomputable def prismFxxz (x y z : ℝ) : ℝ :=
  let r := √(x * x + y * y + z * z)
  let v := x * x + z * z
  let out := 0
  let out := if v ≠ 0 then 1 / v else out
  let out := if r ≠ 0 then out * (-x * y / r) else out
  out

/-- potential_field_prism.py:299-304. -/
noncomputable def prismFxyz (x y z : ℝ) : ℝ :=
  let r := √(x * x + y * y + z * z)
  let out := 0
  let out := if r ≠ 0 then 1 / r else out
  out

end Py

namespace Cy

/-- potential_field_prism.pyx, `prism_f`: 25-44. -/
noncomputable def prismF (x y z : ℝ) : ℝ :=
  let v := 0
  let r := √(x * x + y * y + z * z)
  let v := if x ≠ 0 ∧ y ≠ 0 then
      let temp := z + r
      let v := if temp > 0 then v - x * y * log temp else v
      v + 0.5 * x * x * arctan (y * z / (x * r))
    else v
  let v := if y ≠ 0 ∧ z ≠ 0 then
      let temp := x + r
      let v := if temp > 0 then v - y * z * log temp else v
      v + 0.5 * y * y * arctan (z * x / (y * r))
    else v
  let v := if z ≠ 0 ∧ x ≠ 0 then
      let temp := y + r
      let v := if temp > 0 then v - z * x * log temp else v
      v + 0.5 * z * z * arctan (x * y / (z * r))
    else v
  v

/-- potential_field_prism.pyx, `prism_fz`: 67-81. -/
noncomputable def prismFz (x y z : ℝ) : ℝ :=
  let v := 0
  let r := √(x * x + y * y + z * z)
  let v := if x ≠ 0 then
      let temp := y + r
      if temp > 0 then v + x * log temp else v
    else v
  let v := if y ≠ 0 then
      let temp := x + r
      if temp > 0 then v + y * log temp else v
    else v
  let v := if z ≠ 0 then v - z * arctan (x * y / (z * r)) else v
  v

/-- potential_field_prism.pyx, `prism_fzz`: 105-111. -/
noncomputable def prismFzz (x y z : ℝ) : ℝ :=
  let v := 0
  if z ≠ 0 then
    let r := √(x * x + y * y + z * z)
    arctan (x * y / (z * r))
  else v

/-- potential_field_prism.pyx, `prism_fzx`: 134-144. -/
noncomputable def prismFzx (x y z : ℝ) : ℝ :=
  let r := √(x * x + y * y + z * z)
  let v := y + r
  if v = 0 then
    if y < 0 then log (-2 * y) else v
  else -log v

/-- potential_field_prism.pyx, `prism_fzy`: 167-177. -/
noncomputable def prismFzy (x y z : ℝ) : ℝ :=
  let r := √(x * x + y * y + z * z)
  let v := x + r
  if v = 0 then
    if x < 0 then log (-2 * x) else v
  else -log v

/-- potential_field_prism.pyx, `prism_fzzz`: 200-212. -/
noncomputable def prismFzzz (x y z : ℝ) : ℝ :=
  let v := 0
  let r := √(x * x + y * y + z * z)
  let v1 := x * x + z * z
  let v2 := y * y + z * z
  let v := if v1 ≠ 0 then v + 1.0 / v1 else v
  let v := if v2 ≠ 0 then v + 1.0 / v2 else v
  let v := if r ≠ 0 then v * (x * y / r) else v
  v

/-- potential_field_prism.pyx, `prism_fxxy`: 234-242. -/
noncomputable def prismFxxy (x y z : ℝ) : ℝ :=
  let v := 0
  if x ≠ 0 then
    let v := x * x + y * y
    let r := √(x * x + y * y + z * z)
    let v := -x * z / (v * r)
    v
  else v

/-- potential_field_prism.pyx, `prism_fxxz`: 264-272. -/
noncomputable def prismFxxz (x y z : ℝ) : ℝ :=
  let v := 0
  if x ≠ 0 then
    let v := x * x + z * z
    let r := √(x * x + y * y + z * z)
    let v := -x * y / (v * r)
    v
  else v

/-- potential_field_prism.pyx, `prism_fxyz`: 294-301. -/
noncomputable def prismFxyz (x y z : ℝ) : ℝ :=
  let v := 0
  let r := √(x * x + y * y + z * z)
  if r ≠ 0 then 1.0 / r else v

end Cy

end Verif.Prism
