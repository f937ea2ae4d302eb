import Verif.Py.Float
import Verif.Py.Flag
import Verif.Py.Broadcast
import Mathlib.Analysis.SpecialFunctions.Trigonometric.Basic

/-!
# Model of the properties of `MagneticDipoleLayeredHalfSpace`: what assignments do to the stored arrays

Source: em/fdem/layered.py:47-290.  Finite complex numbers are exact; infinities and NaN are kept, as in `Verif.Py.Float`.
-/

namespace Verif.LayeredState

open Classical

variable [FloatGrammar]

/-- A Python/numpy `complex`. -/
structure CFloat where
  re : PyFloat
  im : PyFloat

/-- `a * b` as numpy multiplies complex numbers. -/
noncomputable def CFloat.mul (a b : CFloat) : CFloat := ⟨a.re * b.re - a.im * b.im, a.re * b.im + a.im * b.re⟩

/-- `a + b` -/
noncomputable def CFloat.add (a b : CFloat) : CFloat := ⟨a.re + b.re, a.im + b.im⟩

/-- The Python objects assigned to `sigma`, `mu` and `epsilon`: an object `complex()` converts, a list, tuple or `ndarray` that numpy converts
to a complex array, or anything else. -/
inductive CObj where
  | scalar (z : CFloat)
  | array (a : NArr CFloat)
  | other

/-- Attributes: layered.py:47-52, base.py:189-193. -/
structure Layered where
  thickness : NArr PyFloat
  frequency : NArr PyFloat
  quasistatic : Flag
  sigma : NArr CFloat
  mu : NArr CFloat
  epsilon : NArr CFloat

/-- `n_layer = len(self.thickness) + 1` -/
def Layered.nLayer (s : Layered) : ℕ := s.thickness.shape.headD 0 + 1

/-- `n_frequency = len(self.frequency)` -/
def Layered.nFrequency (s : Layered) : ℕ := s.frequency.shape.headD 0

/-- `(predicate on the array).any()` -/
def anyEntry {α : Type} (a : NArr α) (P : α → Prop) : Prop := ∃ i, InShape a.shape i ∧ P (a.get i)

/-- The `frequency` setter: layered.py:69-84. -/
noncomputable def Layered.setFrequency (s : Layered) (v : Obj) : SetResult Layered :=
  match v.atleast1dFloat with
  | .error _ => (s, some .typeError)
  | .ok a =>
    if anyEntry a (· < .fin 0) then (s, some .valueError)
    else if a.ndim > 1 then (s, some .typeError)
    else ({ s with frequency := a }, none)

/-- The `thickness` setter: layered.py:97-115. -/
noncomputable def Layered.setThickness (s : Layered) (v : Obj) : SetResult Layered :=
  match (match v with | .none => .ok ⟨[0], fun _ => .nan⟩ | v => v.atleast1dFloat : Py (NArr PyFloat)) with
  | .error _ => (s, some .typeError)
  | .ok a =>
    if a.shape.headD 0 > 0 ∧ anyEntry a (· < .fin 0) then (s, some .valueError)
    else if a.ndim > 1 then (s, some .typeError)
    else ({ s with thickness := a }, none)

/-- The conversion of a physical property: layered.py:131-137, 173-179, 215-221. -/
noncomputable def CObj.convert (v : CObj) (nLayer : ℕ) : Py (NArr CFloat) :=
  match v with
  | .array a => .ok (if a.shape = [] then ⟨[1], fun _ => a.get []⟩ else a)
  | .scalar z => .ok ⟨[nLayer], fun _ => z.mul ⟨.fin 1, .fin 0⟩⟩
  | .other => .error .typeError

/-- The checks of a physical property, in order: sign of the imaginary part, bound on the real part, dimensions: layered.py:139-151,
181-193, 223-235. -/
noncomputable def checkProperty (tooSmall : PyFloat → Prop) (nLayer nFrequency : ℕ) (a : NArr CFloat) : Option PyErr :=
  if anyEntry a (fun z => z.im < .fin 0) then some .valueError
  else if anyEntry a (fun z => tooSmall z.re) then some .valueError
  else if a.ndim = 1 ∧ a.shape.headD 0 ≠ nLayer then some .typeError
  else if a.ndim = 2 ∧ a.shape ≠ [nLayer, nFrequency] then some .typeError
  else if a.ndim > 2 then some .typeError
  else none

/-- The `sigma` setter: layered.py:126-153. -/
noncomputable def Layered.setSigma (s : Layered) (v : CObj) : SetResult Layered :=
  match v.convert s.nLayer with
  | .error e => (s, some e)
  | .ok a =>
    match checkProperty (· ≤ .fin 0) s.nLayer s.nFrequency a with
    | some e => (s, some e)
    | none => ({ s with sigma := a }, none)

/-- The `mu` setter: layered.py:168-195. -/
noncomputable def Layered.setMu (mu0 : ℝ) (s : Layered) (v : CObj) : SetResult Layered :=
  match v.convert s.nLayer with
  | .error e => (s, some e)
  | .ok a =>
    match checkProperty (· < .fin mu0) s.nLayer s.nFrequency a with
    | some e => (s, some e)
    | none => ({ s with mu := a }, none)

/-- The `epsilon` setter: layered.py:210-237. -/
noncomputable def Layered.setEpsilon (eps0 : ℝ) (s : Layered) (v : CObj) : SetResult Layered :=
  match v.convert s.nLayer with
  | .error e => (s, some e)
  | .ok a =>
    match checkProperty (· < .fin eps0) s.nLayer s.nFrequency a with
    | some e => (s, some e)
    | none => ({ s with epsilon := a }, none)

/-- An assignment. -/
inductive Op where
  | frequency (v : Obj)
  | thickness (v : Obj)
  | sigma (v : CObj)
  | mu (v : CObj)
  | epsilon (v : CObj)
  | quasistatic (v : Flag)

/-- One assignment. -/
noncomputable def step (mu0 eps0 : ℝ) (s : Layered) : Op → SetResult Layered
  | .frequency v => s.setFrequency v
  | .thickness v => s.setThickness v
  | .sigma v => s.setSigma v
  | .mu v => s.setMu mu0 v
  | .epsilon v => s.setEpsilon eps0 v
  | .quasistatic v => ({ s with quasistatic := v }, none)

/-- The object before its first assignment. -/
noncomputable def Layered.blank : Layered :=
  ⟨⟨[0], fun _ => .nan⟩, ⟨[0], fun _ => .nan⟩, .bool false, ⟨[0], fun _ => ⟨.nan, .nan⟩⟩, ⟨[0], fun _ => ⟨.nan, .nan⟩⟩,
    ⟨[0], fun _ => ⟨.nan, .nan⟩⟩⟩

/-- The constructor, as far as these attributes are concerned: layered.py:47-50, em/fdem/base.py:189-193, em/base.py:36-40. -/
noncomputable def Layered.new (mu0 eps0 : ℝ) (frequency thickness : Obj) (quasistatic : Flag) (sigma mu epsilon : CObj) : Py Layered :=
  let r : SetResult Layered := ((((Layered.blank.setThickness thickness).andThen (·.setFrequency frequency)).andThen
    (fun s => ({ s with quasistatic := quasistatic }, none))).andThen (·.setSigma sigma)).andThen (·.setMu mu0 mu) |>.andThen
    (·.setEpsilon eps0 epsilon)
  match r with
  | (s, none) => .ok s
  | (_, some e) => .error e

/-- `p.reshape((n_layer, 1))` tiled `(1, n_frequency)` if one-dimensional: layered.py:263-271. -/
def tileProperty (nLayer nFrequency : ℕ) (p : NArr CFloat) : Py (NArr CFloat) :=
  if p.ndim = 1 then
    if p.size = nLayer then .ok ⟨[nLayer, nFrequency], fun i => p.get [i.headD 0]⟩ else .error .valueError
  else .ok p

/-- `_get_valid_properties_array` (without the thicknesses): layered.py:258-273. -/
def Layered.validProperties (s : Layered) : Py (NArr CFloat × NArr CFloat × NArr CFloat) := do
  let sigma ← tileProperty s.nLayer s.nFrequency s.sigma
  let mu ← tileProperty s.nLayer s.nFrequency s.mu
  let epsilon ← tileProperty s.nLayer s.nFrequency s.epsilon
  pure (sigma, epsilon, mu)

/-- `sigma_hat(frequency, sigma, epsilon, quasistatic)` on arrays: em/fdem/base.py:161-163. -/
noncomputable def sigmaHat (frequency : NArr PyFloat) (sigma epsilon : NArr CFloat) (quasistatic : Flag) : Py (NArr CFloat) :=
  if quasistatic.isTrue then .ok sigma
  else do
    let iw : NArr CFloat := ⟨frequency.shape, fun i => CFloat.mul ⟨.fin 0, .fin 1⟩ ⟨.fin (2 * Real.pi) * frequency.get i, .fin 0⟩⟩
    let d ← NArr.zipWith CFloat.mul iw epsilon
    NArr.zipWith CFloat.add sigma d

/-- `a.T` -/
def transpose {α : Type} (a : NArr α) : NArr α := ⟨a.shape.reverse, fun i => a.get i.reverse⟩

/-- The `sigma_hat` property: layered.py:275-281. -/
noncomputable def Layered.sigmaHat (s : Layered) : Py (NArr CFloat) := do
  let (sigma, epsilon, _) ← s.validProperties
  let h ← LayeredState.sigmaHat s.frequency.newLast sigma epsilon s.quasistatic
  pure (transpose h)

/-- `sigh` and `mu` as `magnetic_field` computes them: layered.py:412-428. -/
noncomputable def Layered.fieldProperties (s : Layered) : Py (NArr CFloat × NArr CFloat) := do
  let (sigma, epsilon, mu) ← s.validProperties
  let f : NArr PyFloat := ⟨[s.nLayer, s.nFrequency], fun i => s.frequency.get [i.getD 1 0]⟩
  let sigh ← LayeredState.sigmaHat f sigma epsilon s.quasistatic
  pure (sigh, mu)

end Verif.LayeredState
