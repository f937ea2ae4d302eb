import Verif.Model.PrismKernels
import Verif.Model.Gravity

/-!
# Model of `geoana/shapes.py` (`BasePrism`), `geoana/gravity.py` (`Prism`) and
`geoana/em/static/freespace.py` (`MagneticPrism`) at one observation point

The kernels are the Python ones; `Verif.Props.PrismParity` shows the compiled ones are equal to them.
-/

namespace Verif.Prism

open Classical

/-- `_min_location`, `_max_location` of a `BasePrism` (shapes.py:24-97), holding finite values. -/
structure Box where
  min : V3 ℝ
  max : V3 ℝ

/-- shapes.py:107. -/
def Box.volume (b : Box) : ℝ :=
  let d := b.max - b.min
  d.x * d.y * d.z

/-- shapes.py:117. -/
noncomputable def Box.location (b : Box) : V3 ℝ :=
  let s := b.min + b.max
  ⟨0.5 * s.x, 0.5 * s.y, 0.5 * s.z⟩

/-- The loop shapes.py:133-135: `x, y, z = y, z, x`, `n` times. -/
def cycleN : ℕ → V3 ℝ → V3 ℝ
  | 0, v => v
  | n + 1, v => cycleN n ⟨v.y, v.z, v.x⟩

/-- `BasePrism._eval_def_int`, shapes.py:119-147. -/
def Box.evalDefInt (b : Box) (func : ℝ → ℝ → ℝ → ℝ) (xyz : V3 ℝ) (cycle : ℕ) : ℝ :=
  let mn := cycleN cycle ⟨b.min.x - xyz.x, b.min.y - xyz.y, b.min.z - xyz.z⟩
  let mx := cycleN cycle ⟨b.max.x - xyz.x, b.max.y - xyz.y, b.max.z - xyz.z⟩
  let v000 := func mn.x mn.y mn.z
  let v001 := func mn.x mn.y mx.z
  let v010 := func mn.x mx.y mn.z
  let v011 := func mn.x mx.y mx.z
  let v100 := func mx.x mn.y mn.z
  let v101 := func mx.x mn.y mx.z
  let v110 := func mx.x mx.y mn.z
  let v111 := func mx.x mx.y mx.z
  v111 - v110 - v101 + v100 - v011 + v010 + v001 - v000

/-- A gravity `Prism` (gravity.py:570-608). -/
structure GravPrism where
  box : Box
  rho : ℝ

open Gravity (G)

/-- gravity.py:619. -/
def GravPrism.mass (s : GravPrism) : ℝ := s.box.volume * s.rho

/-- gravity.py:636-638. -/
noncomputable def GravPrism.gravitationalPotential (s : GravPrism) (xyz : V3 ℝ) : ℝ :=
  -G * s.rho * s.box.evalDefInt Py.prismF xyz 0

/-- gravity.py:655-660. -/
noncomputable def GravPrism.gravitationalField (s : GravPrism) (xyz : V3 ℝ) : V3 ℝ :=
  let gx := s.box.evalDefInt Py.prismFz xyz 1
  let gy := s.box.evalDefInt Py.prismFz xyz 2
  let gz := s.box.evalDefInt Py.prismFz xyz 0
  ⟨-G * s.rho * gx, -G * s.rho * gy, -G * s.rho * gz⟩

/-- gravity.py:676-694.  The rows are stacked on the last axis (`axis=-1`) twice, so entry `(i, j)` of the
result is component `i` of the `j`-th of `first, second, third`. -/
noncomputable def GravPrism.gravitationalGradient (s : GravPrism) (xyz : V3 ℝ) : M3 ℝ :=
  let gxx := s.box.evalDefInt Py.prismFzz xyz 1
  let gxy := s.box.evalDefInt Py.prismFzx xyz 1
  let gxz := s.box.evalDefInt Py.prismFzx xyz 0
  let gyy := s.box.evalDefInt Py.prismFzz xyz 2
  let gyz := s.box.evalDefInt Py.prismFzy xyz 0
  let gzz := s.box.evalDefInt Py.prismFzz xyz 0
  let first : V3 ℝ := ⟨gxx, gxy, gxz⟩
  let second : V3 ℝ := ⟨gxy, gyy, gyz⟩
  let third : V3 ℝ := ⟨gxz, gyz, gzz⟩
  let k := -G * s.rho
  ⟨⟨k * first.x, k * second.x, k * third.x⟩,
   ⟨k * first.y, k * second.y, k * third.y⟩,
   ⟨k * first.z, k * second.z, k * third.z⟩⟩

/-- `scipy.constants.mu_0` (freespace.py:2); CODATA 2018 value. -/
noncomputable def mu0 : ℝ := 1.25663706212e-6

/-- A `MagneticPrism` (freespace.py:22-63). -/
structure MagPrism where
  box : Box
  magnetization : V3 ℝ

/-- freespace.py:67. -/
def MagPrism.moment (s : MagPrism) : V3 ℝ := s.magnetization.map (s.box.volume * ·)

/-- freespace.py:85-92. -/
noncomputable def MagPrism.scalarPotential (s : MagPrism) (xyz : V3 ℝ) : ℝ :=
  let m := s.magnetization
  let gx := s.box.evalDefInt Py.prismFz xyz 1
  let gy := s.box.evalDefInt Py.prismFz xyz 2
  let gz := s.box.evalDefInt Py.prismFz xyz 0
  let k := -1.0 / (4 * Real.pi)
  k * (gx * m.x + gy * m.y + gz * m.z)

/-- freespace.py:109-132. -/
noncomputable def MagPrism.magneticField (s : MagPrism) (xyz : V3 ℝ) : V3 ℝ :=
  let m := s.magnetization
  let gxx := s.box.evalDefInt Py.prismFzz xyz 1
  let gxy := s.box.evalDefInt Py.prismFzx xyz 1
  let gxz := s.box.evalDefInt Py.prismFzx xyz 0
  let gyy := s.box.evalDefInt Py.prismFzz xyz 2
  let gyz := s.box.evalDefInt Py.prismFzy xyz 0
  let gzz := s.box.evalDefInt Py.prismFzz xyz 0
  let k := -1.0 / (4 * Real.pi)
  ⟨k * (gxx * m.x + gxy * m.y + gxz * m.z),
   k * (gxy * m.x + gyy * m.y + gyz * m.z),
   k * (gxz * m.x + gyz * m.y + gzz * m.z)⟩

/-- The mask freespace.py:150-153, one point. -/
def MagPrism.isInside (s : MagPrism) (xyz : V3 ℝ) : Prop :=
  (xyz.x ≥ s.box.min.x ∧ xyz.y ≥ s.box.min.y ∧ xyz.z ≥ s.box.min.z) ∧
  (xyz.x ≤ s.box.max.x ∧ xyz.y ≤ s.box.max.y ∧ xyz.z ≤ s.box.max.z)

/-- freespace.py:148-156. -/
noncomputable def MagPrism.magneticFluxDensity (s : MagPrism) (xyz : V3 ℝ) : V3 ℝ :=
  let H := s.magneticField xyz
  let H := if s.isInside xyz then H + s.magnetization else H
  H.map (mu0 * ·)

/-- freespace.py:173-200. -/
noncomputable def MagPrism.magneticFieldGradient (s : MagPrism) (xyz : V3 ℝ) : M3 ℝ :=
  let m := s.magnetization
  let gxxx := s.box.evalDefInt Py.prismFzzz xyz 1
  let gxxy := s.box.evalDefInt Py.prismFxxy xyz 0
  let gxxz := s.box.evalDefInt Py.prismFxxz xyz 0
  let gyyx := s.box.evalDefInt Py.prismFxxz xyz 1
  let gxyz := s.box.evalDefInt Py.prismFxyz xyz 0
  let gzzx := s.box.evalDefInt Py.prismFxxy xyz 2
  let gyyy := s.box.evalDefInt Py.prismFzzz xyz 2
  let gyyz := s.box.evalDefInt Py.prismFxxy xyz 1
  let gzzy := s.box.evalDefInt Py.prismFxxz xyz 2
  let gzzz := s.box.evalDefInt Py.prismFzzz xyz 0
  let Hxx := gxxx * m.x + gxxy * m.y + gxxz * m.z
  let Hxy := gxxy * m.x + gyyx * m.y + gxyz * m.z
  let Hxz := gxxz * m.x + gxyz * m.y + gzzx * m.z
  let Hyy := gyyx * m.x + gyyy * m.y + gyyz * m.z
  let Hyz := gxyz * m.x + gyyz * m.y + gzzy * m.z
  let Hzz := gzzx * m.x + gzzy * m.y + gzzz * m.z
  let first : V3 ℝ := ⟨Hxx, Hxy, Hxz⟩
  let second : V3 ℝ := ⟨Hxy, Hyy, Hyz⟩
  let third : V3 ℝ := ⟨Hxz, Hyz, Hzz⟩
  let k := -1.0 / (4 * Real.pi)
  ⟨⟨k * first.x, k * second.x, k * third.x⟩,
   ⟨k * first.y, k * second.y, k * third.y⟩,
   ⟨k * first.z, k * second.z, k * third.z⟩⟩

end Verif.Prism
