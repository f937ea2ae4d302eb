import Verif.Py.Broadcast

/-!
# Model of `geoana/utils.py`

`α` is the element type; all functions here only move elements around.
-/

namespace Verif.Utils

open NArr

variable {α : Type}

/-- What a caller may pass where an array is expected. -/
inductive Arg (α : Type) where
  | ndarray (a : NArr α)
  /-- `np.matrix` (two-dimensional) -/
  | matrix (a : NArr α)
  | other

/-- `mkvc(x, n_dims)`: utils.py:80-90.  `None` (no branch taken) is `none`. -/
def mkvc (x : Arg α) (nDims : ℤ) : Py (Option (NArr α)) :=
  match x with
  | .other => .error .assertionError
  | .ndarray a | .matrix a =>
    if nDims = 1 then .ok (some a.flattenF)
    else if nDims = 2 then .ok (some a.flattenF.newLast)
    else if nDims = 3 then .ok (some a.flattenF.newLast.newLast)
    else .ok none

/-- `np.c_[c, cs...]` of one-dimensional arrays of the same length: one column per array. -/
def stackColumns (c : NArr α) (cs : List (NArr α)) : NArr α :=
  ⟨[c.size, cs.length + 1], fun i => ((c :: cs).getD (i.getD 1 0) c).get [i.getD 0 0]⟩

/-- Results of `ndgrid`. -/
inductive GridOut (α : Type) where
  | none
  | array (a : NArr α)
  | tuple (l : List (NArr α))

/-- The positional arguments of `ndgrid`: `args[0]` is a `list` (then the remaining arguments are ignored), or
the arguments are the vectors.  utils.py:133-137. -/
inductive GridArgs (α : Type) where
  | list (xs : List (Arg α)) (ignored : List (Arg α))
  | args (xs : List (Arg α))

/-- The vectors of `ndgrid`; `args[0]` with no arguments raises `IndexError`.  utils.py:134-137. -/
def GridArgs.vectors : GridArgs α → Py (List (Arg α))
  | .list xs _ => .ok xs
  | .args [] => .error .indexError
  | .args (x :: xs) => .ok (x :: xs)

/-- `isinstance(x, np.ndarray)`; `np.matrix` is a subclass. -/
def Arg.isArray : Arg α → Bool
  | .ndarray _ => true
  | .matrix _ => true
  | .other => false

/-- `mkvc` of something known to be an array with `n_dims` in {1,2,3}. -/
def mkvc! (x : Arg α) (n : ℤ) : Py (NArr α) := do
  match ← mkvc x n with
  | some a => pure a
  | none => .error .typeError

/-- `ndgrid(*args, vector=...)` once the keywords have been checked (`ndgridCall`): utils.py:133-161. -/
def ndgrid (a : GridArgs α) (vector : Bool) : Py (GridOut α) := do
  let xin ← a.vectors
  if ¬ xin.all Arg.isArray then .error .assertionError
  else match xin with
    | [.ndarray x] | [.matrix x] => pure (.array x)
    | [x1, x2] => do
      let XY ← broadcast2 (← mkvc! x2 1) (← mkvc! x1 2)
      if vector then
        let X2 := XY.1.flattenF
        let X1 := XY.2.flattenF
        pure (.array (stackColumns X1 [X2]))
      else pure (.tuple [XY.2, XY.1])
    | [x1, x2, x3] => do
      let XYZ ← broadcast3 (← mkvc! x3 1) (← mkvc! x2 2) (← mkvc! x1 3)
      if vector then
        let X3 := XYZ.1.flattenF
        let X2 := XYZ.2.1.flattenF
        let X1 := XYZ.2.2.flattenF
        pure (.array (stackColumns X1 [X2, X3]))
      else pure (.tuple [XYZ.2.2, XYZ.2.1, XYZ.1])
    | _ => pure .none

/-- The value of a keyword argument: a `bool`, or anything else. -/
inductive KwVal where
  | bool (b : Bool)
  | other

/-- `ndgrid(*args, **kwargs)`: utils.py:128-161, with the keyword checks (129-131).  `kwargs` has each name once. -/
def ndgridCall (a : GridArgs α) (kwargs : List (String × KwVal)) : Py (GridOut α) :=
  let vector := (kwargs.lookup "vector").getD (.bool true)
  let kwargs := kwargs.filter fun kv => kv.1 ≠ "vector"
  match vector with
  | .other => .error .assertionError
  | .bool vector =>
    if kwargs.length ≠ 0 then .error .assertionError
    else ndgrid a vector

/-- What `check_xyz_dim` may be given: an array (or anything `np.asarray` turns into one), or a tuple. -/
inductive XyzArg (α : Type) where
  | array (a : NArr α)
  | tuple (l : List (NArr α))

open Classical in
/-- `np.stack(arrays, axis=-1)` -/
noncomputable def stackLast (l : List (NArr α)) : Py (NArr α) :=
  match l with
  | [] => .error .valueError
  | a :: as =>
    if ∀ b ∈ as, b.shape = a.shape then
      .ok ⟨a.shape ++ [as.length + 1], fun i => ((a :: as).getD (i.getLastD 0) a).get i.dropLast⟩
    else .error .valueError

/-- `check_xyz_dim(xyz, dim)`: utils.py:184-191.  The dtype conversion is modelled in `Verif.Model.Stations`. -/
noncomputable def checkXyzDim (xyz : XyzArg α) (dim : ℕ) : Py (NArr α) := do
  let a ← match xyz with
    | .tuple l => stackLast l
    | .array a => pure a
  match a.shape.getLast? with
  | none => .error .indexError
  | some n => if n ≠ dim then .error .valueError else pure a

/-- `append_ndim(arr, ndim)`: utils.py:207-210. -/
def appendNdim (a : NArr α) : ℕ → NArr α
  | 0 => a
  | n + 1 => appendNdim a.newLast n

/-- A dependency: the object `False`, or anything else (a module, `True`, `None`, `0`, ...).  utils.py:237 tests
`item is False`. -/
inductive Dep where
  | pyFalse
  | other (repr : String)
  deriving DecidableEq

/-- A printed line: utils.py:247 and 248. -/
inductive Line where
  | missing (keys : List String)
  | notRunning (name : String)
  | text (s : String)
  deriving DecidableEq

/-- A Python function: from its arguments to what it prints and what it returns (`none` for `None`). -/
abbrev Fn (A R : Type) := A → List Line × Option R

/-- utils.py:235-238. -/
def missing : List (String × Dep) → List String
  | [] => []
  | (k, d) :: m => if d = .pyFalse then k :: missing m else missing m

/-- `requires(modules)(function)`: utils.py:240-252. -/
def requires {A R : Type} (modules : List (String × Dep)) (name : String) (f : Fn A R) : Fn A R :=
  if missing modules = [] then f
  else fun _ => ([.missing (missing modules), .notRunning name], none)

end Verif.Utils
