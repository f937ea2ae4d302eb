import Verif.Model.CppLoops
import Verif.Model.Reflection

/-!
# Model of `geoana/kernels/_extensions/_rTE.cpp` and its wrapper `rTE.pyx`

Exact complex arithmetic for `std::complex<double>`; `std::sqrt` is the principal root.  `mu0` is the local constant `mu_0`
(`4.0E-7*M_PI`).  `fuel` bounds every loop (see `Verif.Model.CppLoops`).  Pointers `p + off` followed by `[k]` are accesses at
`off + k`; the offset is a `size_t` product and wraps, the address does not.
-/

namespace Verif.RTE.Cpp

open Complex Verif.Cpp

/-- The body of the layer loop of `rTE`: _rTE.cpp:39-44. -/
noncomputable def layerBody (sigmas mus : Buf ℂ) (h : Option (Buf ℝ)) (off : Size) (omega l2 : ℝ) (k : Size) (Yh : ℂ) :
    Except Fault ℂ := do
  let mu_c ← mus.get (off.toNat + k.toNat)
  let s ← sigmas.get (off.toNat + k.toNat)
  let k2 := -I * omega * mu_c * s
  let u := Complex.sqrt (l2 - k2)
  let Y := u / (I * omega * mu_c)
  let hk ← getPtr h k.toNat
  let tanhuh := Complex.tanh (u * hk)
  return Y * (Yh + Y * tanhuh) / (Y + Yh * tanhuh)

/-- The body of the frequency loop of `rTE`, with the counter `i`: _rTE.cpp:30-47. -/
noncomputable def freqBody (mu0 : ℝ) (frequencies : Buf ℝ) (sigmas mus : Buf ℂ) (h : Option (Buf ℝ))
    (n_layers : Size) (fuel : ℕ) (lam l2 : ℝ) (i_freq : Size) (st : Buf ℂ × Size) : Except Fault (Buf ℂ × Size) := do
  let off := i_freq * n_layers
  let f ← frequencies.get i_freq.toNat
  let omega := 2 * Real.pi * f
  let mu_c ← mus.get (off.toNat + (n_layers - 1).toNat)
  let s ← sigmas.get (off.toNat + (n_layers - 1).toNat)
  let k2 := -I * omega * mu_c * s
  let u := Complex.sqrt (l2 - k2)
  let Yh := u / (I * omega * mu_c)
  let Yh ← cfor (fun k => k < n_layers - 1) (fun k => k - 1) (layerBody sigmas mus h off omega l2) fuel (n_layers - 2) Yh
  let Y0 := lam / (I * omega * mu0)
  let TE ← st.1.set st.2.toNat ((Y0 - Yh) / (Y0 + Yh))
  return (TE, st.2 + 1)

/-- `funcs::rTE`: _rTE.cpp:7-50. -/
noncomputable def rTE (mu0 : ℝ) (TE : Buf ℂ) (frequencies lambdas : Buf ℝ) (sigmas mus : Buf ℂ) (h : Option (Buf ℝ))
    (n_frequency n_filter n_layers : Size) (fuel : ℕ) : Except Fault (Buf ℂ) := do
  let st ← cfor (fun i => i < n_filter) (fun i => i + 1)
    (fun i_filt st => do
      let lam ← lambdas.get i_filt.toNat
      let l2 := lam * lam
      cfor (fun i => i < n_frequency) (fun i => i + 1)
        (freqBody mu0 frequencies sigmas mus h n_layers fuel lam l2) fuel 0 st)
    fuel 0 (TE, 0)
  return st.1

/-- The scratch vectors of `rTEgrad`: _rTE.cpp:75-76. -/
structure Scratch where
  k2s : Buf ℂ
  us : Buf ℂ
  Yhs : Buf ℂ
  Ys : Buf ℂ
  tanhs : Buf ℂ

/-- A `std::vector<complex_t> v(n)`: `n` zeros. -/
def newVec (n : Size) : Buf ℂ := ⟨n.toNat, fun _ => 0, fun _ => 0⟩

/-- Body of the upward loop of `rTEgrad`: _rTE.cpp:100-104. -/
noncomputable def gradDown (sigmas mus : Buf ℂ) (h : Option (Buf ℝ)) (off : Size) (omega l2 : ℝ) (k : Size)
    (v : Scratch) : Except Fault Scratch := do
  let m ← mus.get (off.toNat + k.toNat)
  let s ← sigmas.get (off.toNat + k.toNat)
  let k2s ← v.k2s.set k.toNat (-I * omega * m * s)
  let a ← k2s.get k.toNat
  let us ← v.us.set k.toNat (Complex.sqrt (l2 - a))
  let u ← us.get k.toNat
  let Ys ← v.Ys.set k.toNat (u / (I * omega * m))
  let hk ← getPtr h k.toNat
  let tanhs ← v.tanhs.set k.toNat (Complex.tanh (u * hk))
  let Y ← Ys.get k.toNat
  let t ← tanhs.get k.toNat
  let y ← v.Yhs.get (k + 1).toNat
  let Yhs ← v.Yhs.set k.toNat (Y * (y + Y * t) / (Y + y * t))
  return ⟨k2s, us, Yhs, Ys, tanhs⟩

/-- `gyh0` and the three output blocks. -/
structure GradOut where
  gyh0 : ℂ
  dsigma : Buf ℂ
  dmu : Buf ℂ
  dh : Option (Buf ℂ)

/-- Body of the reverse loop of `rTEgrad`: _rTE.cpp:120-135. `offh` is the offset of `TE_dhi`. -/
noncomputable def gradUp (sigmas mus : Buf ℂ) (h : Option (Buf ℝ)) (off offo offh : Size) (omega : ℝ) (v : Scratch)
    (k : Size) (g : GradOut) : Except Fault GradOut := do
  let Y ← v.Ys.get k.toNat
  let y ← v.Yhs.get (k + 1).toNat
  let t ← v.tanhs.get k.toNat
  let u ← v.us.get k.toNat
  let hk ← getPtr h k.toNat
  let m ← mus.get (off.toNat + k.toNat)
  let s ← sigmas.get (off.toNat + k.toNat)
  let bot := (Y + y * t) * (Y + y * t)
  let gy := g.gyh0 * t * (2 * t * Y * y + Y * Y + y * y) / bot
  let gtanh := g.gyh0 * (Y * Y * Y - Y * y * y) / bot
  let gyh0 := g.gyh0 * (-(t * t - 1)) * Y * Y / bot
  let dh ← setPtr g.dh (offh.toNat + k.toNat) (gtanh * u * (1 - t * t))
  let gu := gtanh * hk * (1 - t * t)
  let gu := gu + gy / (I * omega * m)
  let gmu := gy * (-Y / m)
  let gk2 := gu * (-0.5) / u
  let gmu := gmu - gk2 * (I * omega * s)
  let dsigma ← g.dsigma.set (offo.toNat + k.toNat) (gk2 * (-I * omega * m))
  let dmu ← g.dmu.set (offo.toNat + k.toNat) gmu
  return ⟨gyh0, dsigma, dmu, dh⟩

/-- State of the outer loops of `rTEgrad`. -/
structure GradState where
  v : Scratch
  dsigma : Buf ℂ
  dmu : Buf ℂ
  dh : Option (Buf ℂ)
  i : Size

/-- The body of the frequency loop of `rTEgrad`: _rTE.cpp:86-143. -/
noncomputable def gradFreq (mu0 : ℝ) (frequencies : Buf ℝ) (sigmas mus : Buf ℂ) (h : Option (Buf ℝ))
    (n_layers : Size) (fuel : ℕ) (lam l2 : ℝ) (i_freq : Size) (st : GradState) : Except Fault GradState := do
  let off := i_freq * n_layers
  let offh := st.i * (n_layers - 1)
  let offo := st.i * n_layers
  let f ← frequencies.get i_freq.toNat
  let omega := 2 * Real.pi * f
  let b := (n_layers - 1).toNat
  let m ← mus.get (off.toNat + b)
  let s ← sigmas.get (off.toNat + b)
  let k2s ← st.v.k2s.set b (-I * omega * m * s)
  let a ← k2s.get b
  let us ← st.v.us.set b (Complex.sqrt (l2 - a))
  let ub ← us.get b
  let Yhs ← st.v.Yhs.set b (ub / (I * omega * m))
  let v ← cfor (fun k => k < n_layers - 1) (fun k => k - 1) (gradDown sigmas mus h off omega l2) fuel (n_layers - 2)
    ⟨k2s, us, Yhs, st.v.Ys, st.v.tanhs⟩
  let Y0 := lam / (I * omega * mu0)
  let y0 ← v.Yhs.get 0
  let gyh0 := -2 * Y0 / ((Y0 + y0) * (Y0 + y0))
  let g ← cfor (fun k => k < n_layers - 1) (fun k => k + 1) (gradUp sigmas mus h off offo offh omega v) fuel 0
    ⟨gyh0, st.dsigma, st.dmu, st.dh⟩
  let yb ← v.Yhs.get b
  let ub ← v.us.get b
  let gu := g.gyh0 / (I * omega * m)
  let gmu := g.gyh0 * (-yb / m)
  let gk2 := gu * (-0.5) / ub
  let gmu := gmu + gk2 * (-I) * omega * s
  let dsigma ← g.dsigma.set (offo.toNat + b) (gk2 * (-I) * omega * m)
  let dmu ← g.dmu.set (offo.toNat + b) gmu
  return ⟨v, dsigma, dmu, g.dh, st.i + 1⟩

/-- `funcs::rTEgrad`: _rTE.cpp:52-146.  Returns `TE_dsigma`, `TE_dmu`, `TE_dh`. -/
noncomputable def rTEgrad (mu0 : ℝ) (TE_dsigma TE_dmu : Buf ℂ) (TE_dh : Option (Buf ℂ)) (frequencies lambdas : Buf ℝ)
    (sigmas mus : Buf ℂ) (h : Option (Buf ℝ)) (n_frequency n_filter n_layers : Size) (fuel : ℕ) :
    Except Fault (Buf ℂ × Buf ℂ × Option (Buf ℂ)) := do
  let v : Scratch := ⟨newVec n_layers, newVec n_layers, newVec n_layers, newVec (n_layers - 1), newVec (n_layers - 1)⟩
  let st ← cfor (fun i => i < n_filter) (fun i => i + 1)
    (fun i_filt st => do
      let lam ← lambdas.get i_filt.toNat
      let l2 := lam * lam
      cfor (fun i => i < n_frequency) (fun i => i + 1)
        (gradFreq mu0 frequencies sigmas mus h n_layers fuel lam l2) fuel 0 st)
    fuel 0 ⟨v, TE_dsigma, TE_dmu, TE_dh, 0⟩
  return (st.dsigma, st.dmu, st.dh)

/-! ## The wrapper -/

/-- Exceptions of the wrapper. -/
inductive WrapErr
  | valueError
  | indexError
  | fault (f : Fault)

/-- A 2-d array: shape and entries. -/
structure Mat (α : Type) where
  rows : ℕ
  cols : ℕ
  entry : ℕ → ℕ → α

/-- The flat block of a Fortran-ordered array. -/
def Mat.flat {α : Type} (m : Mat α) : Buf α :=
  ⟨m.rows * m.cols, fun j => m.entry (j % m.rows) (j / m.rows), fun _ => 0⟩

/-- A 1-d array. -/
structure Vec1 (α : Type) where
  len : ℕ
  entry : ℕ → α

/-- Its block. -/
def Vec1.flat {α : Type} (v : Vec1 α) : Buf α := ⟨v.len, v.entry, fun _ => 0⟩

/-- The dimension checks: rTE.pyx:78-90, 163-175. -/
def checkDims (frequencies : Vec1 ℝ) (sigma mu : Mat ℂ) (thicknesses : Vec1 ℝ) : Except WrapErr Unit :=
  if frequencies.len ≠ sigma.cols then .error .valueError
  else if sigma.rows ≠ thicknesses.len + 1 then .error .valueError
  else if (mu.rows, mu.cols) ≠ (sigma.rows, sigma.cols) then .error .valueError
  else .ok ()

/-- Turn a kernel fault into the wrapper's result type. -/
def lift {α : Type} : Except Fault α → Except WrapErr α
  | .ok a => .ok a
  | .error f => .error (.fault f)

/-- `rTE_forward`: rTE.pyx:69-121.  `junk` is what `np.empty` left.  Taking the address of the first element of an empty
array raises `IndexError` (Cython bounds checks are on). -/
noncomputable def rTE_forward (mu0 : ℝ) (frequencies lamb : Vec1 ℝ) (sigma mu : Mat ℂ) (thicknesses : Vec1 ℝ)
    (junk : ℕ → ℂ) (fuel : ℕ) : Except WrapErr (Mat ℂ) := do
  checkDims frequencies sigma mu thicknesses
  let n_frequency := frequencies.len
  let n_filter := lamb.len
  let n_layers := sigma.rows
  if n_frequency = 0 ∨ n_filter = 0 then .error .indexError
  else
    let out : Buf ℂ := ⟨n_frequency * n_filter, junk, fun _ => 0⟩
    let h_p := if 1 < n_layers then some thicknesses.flat else none
    let out ← lift (rTE mu0 out frequencies.flat lamb.flat sigma.flat mu.flat h_p (BitVec.ofNat 64 n_frequency)
      (BitVec.ofNat 64 n_filter) (BitVec.ofNat 64 n_layers) fuel)
    return ⟨n_frequency, n_filter, fun f l => out.data (f + n_frequency * l)⟩

/-- A 3-d array. -/
structure Arr3 (α : Type) where
  shape : ℕ × ℕ × ℕ
  entry : ℕ → ℕ → ℕ → α

/-- `rTE_gradient`: rTE.pyx:156-211.  Returns `rTE_dsigma`, `rTE_dh`, `rTE_dmu`. -/
noncomputable def rTE_gradient (mu0 : ℝ) (frequencies lamb : Vec1 ℝ) (sigma mu : Mat ℂ) (thicknesses : Vec1 ℝ)
    (js jh jm : ℕ → ℂ) (fuel : ℕ) : Except WrapErr (Arr3 ℂ × Arr3 ℂ × Arr3 ℂ) := do
  checkDims frequencies sigma mu thicknesses
  let n_frequency := frequencies.len
  let n_filter := lamb.len
  let n_layers := sigma.rows
  if n_frequency = 0 ∨ n_filter = 0 then .error .indexError
  else
    let gsig : Buf ℂ := ⟨n_layers * n_frequency * n_filter, js, fun _ => 0⟩
    let gh : Buf ℂ := ⟨(n_layers - 1) * n_frequency * n_filter, jh, fun _ => 0⟩
    let gmu : Buf ℂ := ⟨n_layers * n_frequency * n_filter, jm, fun _ => 0⟩
    let h_p := if 1 < n_layers then some thicknesses.flat else none
    let gh_p := if 1 < n_layers then some gh else none
    let r ← lift (rTEgrad mu0 gsig gmu gh_p frequencies.flat lamb.flat sigma.flat mu.flat h_p
      (BitVec.ofNat 64 n_frequency) (BitVec.ofNat 64 n_filter) (BitVec.ofNat 64 n_layers) fuel)
    return (⟨(n_layers, n_frequency, n_filter), fun l f w => r.1.data (l + n_layers * (f + n_frequency * w))⟩,
      ⟨(n_layers - 1, n_frequency, n_filter), fun l f w =>
        (r.2.2.getD gh).data (l + (n_layers - 1) * (f + n_frequency * w))⟩,
      ⟨(n_layers, n_frequency, n_filter), fun l f w => r.2.1.data (l + n_layers * (f + n_frequency * w))⟩)

end Verif.RTE.Cpp
