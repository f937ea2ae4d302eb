import Verif.Model.Utils
import Verif.Py.ComplexOps

/-!
# Model of `check_xyz_dim` with the kinds of numbers it is given

`Verif.Model.Utils.checkXyzDim` starts from arrays; here the conversion `np.asarray(xyz, dtype=float)` and the common type of `np.stack` are modelled.
Integers are converted exactly; warnings are not modelled.  numpy scalars and arrays inside lists are not modelled.
-/

namespace Verif.Stations

open Verif.Utils (stackLast checkXyzDim)

/-- A Python object standing for one coordinate. -/
inductive Atom where
  | bool (b : Bool)
  | int (n : ℤ)
  | float (v : PyFloat)
  | complex (z : PyComplex)
  | str (s : String)
  | none

/-- Kinds of numpy types. -/
inductive Kind where
  | bool | int | float | complex | str | object
  deriving DecidableEq

/-- Order in which numpy promotes: the common type of two arrays is the later one. -/
def Kind.rank : Kind → ℕ
  | .bool => 0
  | .int => 1
  | .float => 2
  | .complex => 3
  | .str => 4
  | .object => 5

/-- Common type of two arrays. -/
def Kind.join (a b : Kind) : Kind := if a.rank ≤ b.rank then b else a

/-- Common type of several arrays: nothing at all becomes an array of floats. -/
def commonKind : List Kind → Kind
  | [] => .float
  | k :: ks => ks.foldl Kind.join k

/-- Type of `np.asarray(x)`. -/
def Atom.kind : Atom → Kind
  | .bool _ => .bool
  | .int _ => .int
  | .float _ => .float
  | .complex _ => .complex
  | .str _ => .str
  | .none => .object

variable [FloatGrammar]

/-- `float(x)`, but numpy turns `None` into NaN: utils.py:186. -/
noncomputable def Atom.toFloat : Atom → Py PyFloat
  | .bool b => .ok (.fin (if b then 1 else 0))
  | .int n => .ok (.fin n)
  | .float v => .ok v
  | .complex _ => .error .typeError
  | .str s => match FloatGrammar.parse s with
    | some v => .ok v
    | Option.none => .error .valueError
  | .none => .ok .nan

omit [FloatGrammar] in
/-- A Python number stored in an array of numbers of type `k`. -/
noncomputable def Atom.promote (k : Kind) (x : Atom) : Atom :=
  match k, x with
  | .int, .bool b => .int (if b then 1 else 0)
  | .float, .bool b => .float (.fin (if b then 1 else 0))
  | .float, .int n => .float (.fin n)
  | .complex, .bool b => .complex (.ofFloat (.fin (if b then 1 else 0)))
  | .complex, .int n => .complex (.ofFloat (.fin n))
  | .complex, .float v => .complex (.ofFloat v)
  | _, x => x

/-- An object stored in an array of type `k` and converted to a float from there.  Converting a complex array drops the imaginary parts (with
a warning).  Text: `str(1.5)` reads back, `"True"` and `"1j"` do not. -/
noncomputable def Atom.castVia (k : Kind) (x : Atom) : Py PyFloat :=
  match k, x with
  | .complex, .complex z => .ok z.re
  | .str, .bool _ => .error .valueError
  | .str, .complex _ => .error .valueError
  | _, x => x.toFloat

/-- An object stored in an array of type `k₀`, which is then stacked with others into an array of type `k` and converted to floats.  What has become text stays text. -/
noncomputable def Atom.through (k₀ k : Kind) (x : Atom) : Py PyFloat :=
  if k₀ = .str then x.castVia .str else (x.promote k₀).castVia k

omit [FloatGrammar] in
/-- All multi-indices of a shape, in row-major order. -/
def indices : List ℕ → List (List ℕ)
  | [] => [[]]
  | n :: s => (List.range n).flatMap fun k => (indices s).map (k :: ·)

omit [FloatGrammar] in
/-- The exception raised, if any. -/
def raised : Py PyFloat → Option PyErr
  | .error e => some e
  | .ok _ => none

omit [FloatGrammar] in
/-- Conversion of an array entry by entry in row-major order; the first entry that cannot be converted raises. -/
def convert {α : Type} (f : α → Py PyFloat) (a : NArr α) : Py (NArr PyFloat) :=
  match (indices a.shape).findSome? fun i => raised (f (a.get i)) with
  | some e => .error e
  | none => .ok ⟨a.shape, fun i => match f (a.get i) with
    | .ok v => v
    | .error _ => .nan⟩

/-- What is passed for an array: a numpy array with its type, nested lists (or a number) of one shape, or nested lists that do not fit together. -/
inductive Coords where
  | array (k : Kind) (a : NArr Atom)
  | list (a : NArr Atom)
  | ragged

/-- What `check_xyz_dim` is passed. -/
inductive Xyz where
  | one (c : Coords)
  | tuple (l : List Coords)

omit [FloatGrammar] in
/-- The array `np.asarray(c)` before it has a type. -/
def Coords.entries : Coords → Py (NArr Atom)
  | .array _ a => .ok a
  | .list a => .ok a
  | .ragged => .error .valueError

omit [FloatGrammar] in
/-- Type of `np.asarray(c)`: empty lists become arrays of floats. -/
def Coords.kind : Coords → Kind
  | .array k _ => k
  | .list a => commonKind ((indices a.shape).map fun i => (a.get i).kind)
  | .ragged => .float

/-- `np.asarray(c, dtype=float)`: utils.py:186. -/
noncomputable def Coords.asFloat : Coords → Py (NArr PyFloat)
  | .array k a => convert (Atom.castVia k) a
  | .list a => convert Atom.toFloat a
  | .ragged => .error .valueError

/-- `np.asarray(np.stack(xyz, axis=-1), dtype=float)`: utils.py:184-186. -/
noncomputable def stackFloat (l : List Coords) : Py (NArr PyFloat) := do
  let parts ← l.mapM fun c => do
    let a ← c.entries
    pure (⟨a.shape, fun i => (c.kind, a.get i)⟩ : NArr (Kind × Atom))
  let all ← stackLast parts
  convert (fun x => x.2.through x.1 (commonKind (l.map Coords.kind))) all

/-- The array of floats the argument becomes: utils.py:184-186. -/
noncomputable def Xyz.asFloat : Xyz → Py (NArr PyFloat)
  | .tuple l => stackFloat l
  | .one c => c.asFloat

/-- `check_xyz_dim(xyz, dim)`: utils.py:164-191. -/
noncomputable def check (xyz : Xyz) (dim : ℕ) : Py (NArr PyFloat) := do
  let a ← xyz.asFloat
  checkXyzDim (.array a) dim

end Verif.Stations
