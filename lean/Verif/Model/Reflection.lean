import Mathlib.Analysis.RCLike.Sqrt
import Mathlib.Analysis.Complex.Trigonometric
import Mathlib.Analysis.SpecialFunctions.Trigonometric.Basic

/-!
# Model of `geoana/kernels/tranverse_electric_reflections.py` (the pure Python kernels)

The numpy expressions are elementwise in the frequency and filter axes, so the model is one column: one frequency, one
filter, and the layer axis kept as an index.  Exact complex arithmetic; `np.sqrt` is the principal root.  Layer arrays are
functions of the index, of which the entries `0 … n` (layers) and `0 … n-1` (thicknesses) are meaningful, with
`n = len(thicknesses)`.
-/

namespace Verif.RTE

open Complex

/-- The column data: `omega = 2 π frequency`, the filter abscissa, `scipy.constants.mu_0`, and the layer arrays. -/
structure Col where
  omega : ℝ
  lamb : ℝ
  mu0 : ℝ
  n : ℕ
  sigma : ℕ → ℂ
  mu : ℕ → ℂ
  h : ℕ → ℝ

/-- `omega = 2*np.pi*frequencies`: tranverse_electric_reflections.py:36, 88. -/
noncomputable def omegaOf (frequency : ℝ) : ℝ := 2 * Real.pi * frequency

/-- `k2 = -1j * omega * mu * sigma`: lines 39, 91. -/
noncomputable def k2 (omega : ℝ) (mu sigma : ℂ) : ℂ := -I * omega * mu * sigma

/-- `u = np.sqrt(l2 - k2)`: lines 40, 92. -/
noncomputable def uOf (omega lamb : ℝ) (mu sigma : ℂ) : ℂ := Complex.sqrt ((lamb ^ 2 : ℝ) - k2 omega mu sigma)

/-- `Y = u/(1j*omega*mu)`: lines 41, 93. -/
noncomputable def yOf (omega lamb : ℝ) (mu sigma : ℂ) : ℂ := uOf omega lamb mu sigma / (I * omega * mu)

/-- `tanh = np.tanh(u[:-1]*thicknesses)`: lines 42, 94. -/
noncomputable def tanhOf (u : ℂ) (h : ℝ) : ℂ := Complex.tanh (u * h)

/-- One pass of the upward recursion: lines 45, 98. -/
noncomputable def stepOf (Y t Yh : ℂ) : ℂ := Y * (Yh + Y * t) / (Y + Yh * t)

namespace Col

variable (c : Col)

/-- Row `k` of `u`: lines 40, 92. -/
noncomputable def u (k : ℕ) : ℂ := uOf c.omega c.lamb (c.mu k) (c.sigma k)
/-- Row `k` of `Y`: lines 41, 93. -/
noncomputable def Y (k : ℕ) : ℂ := yOf c.omega c.lamb (c.mu k) (c.sigma k)
/-- Row `k` of `tanh`: lines 42, 94. -/
noncomputable def t (k : ℕ) : ℂ := tanhOf (c.u k) (c.h k)

end Col

/-- `for k in range(m-1, -1, -1): s = body(k, s)`. -/
def downLoop {α : Type*} : ℕ → (ℕ → α → α) → α → α
  | 0, _, s => s
  | m + 1, body, s => downLoop m body (body m s)

/-- `for k in range(m): s = body(k, s)`. -/
def upLoop {α : Type*} : ℕ → (ℕ → α → α) → α → α
  | 0, _, s => s
  | m + 1, body, s => body m (upLoop m body s)

/-- `Y0 = lamb/(1j*omega*mu_0)`: lines 47, 99. -/
noncomputable def Col.Y0 (c : Col) : ℂ := (c.lamb : ℂ) / (I * c.omega * c.mu0)

/-- `_rTE_forward`: lines 34-50. -/
noncomputable def forward (c : Col) : ℂ :=
  let Yh := c.Y c.n
  let Yh := downLoop c.n (fun k Yh => stepOf (c.Y k) (c.t k) Yh) Yh
  let Y0 := c.Y0
  (Y0 - Yh) / (Y0 + Yh)

/-- The loop state of `_rTE_gradient`: `gyh0` and the three output arrays. -/
structure GState where
  gyh0 : ℂ
  dsigma : ℕ → ℂ
  dh : ℕ → ℂ
  dmu : ℕ → ℂ

/-- The array `Yh` of `_rTE_gradient`: lines 95-98; `junk` is what `np.empty` left. -/
noncomputable def yhArray (c : Col) (junk : ℕ → ℂ) : ℕ → ℂ :=
  downLoop c.n (fun k Yh => Function.update Yh k (stepOf (c.Y k) (c.t k) (Yh (k + 1))))
    (Function.update junk c.n (c.Y c.n))

/-- The body of the reverse loop: lines 107-124. -/
noncomputable def gradBody (c : Col) (Yh : ℕ → ℂ) (k : ℕ) (s : GState) : GState :=
  let Y := c.Y k
  let t := c.t k
  let bot := (Y + Yh (k + 1) * t) * (Y + Yh (k + 1) * t)
  let gy := s.gyh0 * t * (2 * t * Y * Yh (k + 1) + Y * Y + Yh (k + 1) * Yh (k + 1)) / bot
  let gtanh := s.gyh0 * (Y * Y * Y - Y * Yh (k + 1) * Yh (k + 1)) / bot
  let gyh0 := s.gyh0 * (-(t * t - 1)) * Y * Y / bot
  let dh := gtanh * c.u k * (1 - t * t)
  let gu := gtanh * c.h k * (1 - t * t)
  let gu := gu + gy / (I * c.omega * c.mu k)
  let gmu := gy * (-Y / c.mu k)
  let gk2 := gu * (-0.5) / c.u k
  let gmu := gmu - gk2 * (I * c.omega * c.sigma k)
  ⟨gyh0, Function.update s.dsigma k (gk2 * (-I * c.omega * c.mu k)), Function.update s.dh k dh,
    Function.update s.dmu k gmu⟩

/-- `_rTE_gradient`: lines 84-132.  `junk`, `js`, `jh` and `jm` are what `np.empty` left in the four arrays. -/
noncomputable def gradient (c : Col) (junk js jh jm : ℕ → ℂ) : GState :=
  let Yh := yhArray c junk
  let Y0 := c.Y0
  let gyh0 := -2 * Y0 / ((Y0 + Yh 0) * (Y0 + Yh 0))
  let s := upLoop c.n (gradBody c Yh) ⟨gyh0, js, jh, jm⟩
  let gu := s.gyh0 / (I * c.omega * c.mu c.n)
  let gmu := s.gyh0 * (-Yh c.n / c.mu c.n)
  let gk2 := gu * (-0.5) / c.u c.n
  let gmu := gmu + gk2 * (-I * c.omega * c.sigma c.n)
  ⟨s.gyh0, Function.update s.dsigma c.n (gk2 * (-I * c.omega * c.mu c.n)), s.dh,
    Function.update s.dmu c.n gmu⟩

end Verif.RTE
