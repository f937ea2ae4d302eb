import Verif.Model.Rounded
import Verif.Model.Fdem
import Verif.Model.Tdem
import Verif.Model.Prism

/-!
# Scales and totals in the order in which the code carries out the operations, each of them rounded
-/

namespace Verif.Rounded

variable (F : Ops)

/-- `omega`: em/fdem/base.py:39, `2*np.pi*frequency`. -/
noncomputable def omega (frequency : ℝ) : ℝ := F.mul (F.mul 2 (F.const Real.pi)) frequency

/-- `skin_depth`: em/fdem/base.py:127-130. -/
noncomputable def skinDepth (frequency sigma mu epsilon : ℝ) (quasistatic : Flag) : ℝ :=
  let w := omega F frequency
  if quasistatic.truthy then F.sqrt (F.div 2 (F.mul (F.mul w sigma) mu))
  else F.div (F.sqrt (F.mul (F.div (F.mul mu epsilon) 2)
    (F.sub (F.sqrt (F.add 1 (F.div (F.pow sigma 2) (F.pow (F.mul w epsilon) 2)))) 1))) w

/-- `peak_time`: em/tdem/base.py:59. -/
def peakTime (z sigma mu : ℝ) : ℝ := F.div (F.mul (F.mul mu sigma) (F.pow z 2)) 6

/-- `diffusion_distance`: em/tdem/base.py:102. -/
def diffusionDistance (time sigma mu : ℝ) : ℝ := F.sqrt (F.div (F.mul 2 time) (F.mul mu sigma))

/-- `BasePrism.volume`: shapes.py:107.  `np.prod` multiplies from the first entry to the last. -/
def Box.volume (b : Prism.Box) : ℝ :=
  let d := diff F b.max b.min
  F.mul (F.mul d.x d.y) d.z

/-- `BasePrism.location`: shapes.py:117. -/
noncomputable def Box.location (b : Prism.Box) : V3 ℝ :=
  ⟨F.mul 0.5 (F.add b.min.x b.max.x), F.mul 0.5 (F.add b.min.y b.max.y), F.mul 0.5 (F.add b.min.z b.max.z)⟩

/-- `Prism.mass`: gravity.py:619. -/
def GravPrism.mass (s : Prism.GravPrism) : ℝ := F.mul (Box.volume F s.box) s.rho

/-- `MagneticPrism.moment`: em/static/freespace.py:67. -/
def MagPrism.moment (s : Prism.MagPrism) : V3 ℝ := s.magnetization.map (F.mul (Box.volume F s.box) ·)

end Verif.Rounded
