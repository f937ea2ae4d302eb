import Verif.Model.Setters

/-!
# Model of the memory behind point currents and wires

`BaseLineCurrent.nodes` keeps whatever `np.atleast_2d(np.asarray(xyz, dtype=np.float64))` returns (em/base.py:475-488).  For a float array
that is a view of the caller's memory, and `PointCurrentWholeSpace.location` writes into it (`self.nodes[0] = vec`,
em/static/wholespace.py:1125).  Memory is explicit here: a heap of arrays of rows, arrays owned by the caller, and sources that hold an
address.  A `(3,)` array is one row.
-/

namespace Verif.PointAliasing

open Verif.Setters

/-- A heap of `(n, 3)` float arrays. -/
structure Heap where
  cell : ℕ → List Vec3
  next : ℕ

/-- Allocate a new array. -/
def Heap.alloc (h : Heap) (v : List Vec3) : ℕ × Heap := (h.next, ⟨fun a => if a = h.next then v else h.cell a, h.next + 1⟩)

/-- Overwrite an array in place. -/
def Heap.write (h : Heap) (a : ℕ) (v : List Vec3) : Heap := ⟨fun b => if b = a then v else h.cell b, h.next⟩

/-- What the caller passes: one of its own float arrays, or anything numpy has to convert, which yields new memory. -/
inductive Arg where
  | array (k : ℕ)
  | fresh (rows : List Vec3)

/-- The caller's float arrays, and the address of the nodes of every source built so far. -/
structure World where
  heap : Heap
  arrays : List ℕ
  sources : List ℕ

/-- The world before anything happened. -/
def World.init : World := ⟨⟨fun _ => [], 0⟩, [], []⟩

/-- `np.atleast_2d(np.asarray(xyz, dtype=np.float64))`: em/base.py:478-481. `none` if the caller has no such array. -/
def asarray (w : World) : Arg → Option (ℕ × Heap)
  | .array k => (w.arrays[k]?).map fun a => (a, w.heap)
  | .fresh v => some (w.heap.alloc v)

/-- What a caller can do. -/
inductive Op where
  /-- create a float array -/
  | array (rows : List Vec3)
  /-- overwrite one of its arrays -/
  | write (k : ℕ) (rows : List Vec3)
  /-- `PointCurrentWholeSpace(rho, current, location)`; without a location a new array is made: wholespace.py:1097-1100 -/
  | build (location : Option Arg)
  /-- `sources[i].nodes = x`: em/base.py:475-488 -/
  | setNodes (i : ℕ) (x : Arg)
  /-- `sources[i].location = v`, which copies its argument and writes row 0 of the nodes: wholespace.py:1113-1125. Without rows this is an
  `IndexError` and nothing happens. -/
  | setLocation (i : ℕ) (v : Vec3)

/-- One operation; operations on arrays or sources that do not exist do nothing. -/
noncomputable def step (w : World) : Op → World
  | .array v =>
    let (a, h) := w.heap.alloc v
    { w with heap := h, arrays := w.arrays ++ [a] }
  | .write k v =>
    match w.arrays[k]? with
    | some a => { w with heap := w.heap.write a v }
    | none => w
  | .build loc =>
    match asarray w (loc.getD (.fresh [⟨.fin 0, .fin 0, .fin 0⟩])) with
    | none => w
    | some (a, h) => { w with heap := h, sources := w.sources ++ [a] }
  | .setNodes i x =>
    match w.sources[i]? with
    | none => w
    | some _ =>
      match asarray w x with
      | none => w
      | some (a, h) => { w with heap := h, sources := w.sources.set i a }
  | .setLocation i v =>
    match w.sources[i]? with
    | none => w
    | some a =>
      match w.heap.cell a with
      | [] => w
      | _ :: rest => { w with heap := w.heap.write a (v :: rest) }

/-- A history. -/
noncomputable def run (w : World) (ops : List Op) : World := ops.foldl step w

/-- Reading `sources[i].location`, which is `nodes[0]`: wholespace.py:1111. -/
def World.location (w : World) (i : ℕ) : Option Vec3 := (w.sources[i]?).bind fun a => (w.heap.cell a).head?

/-- Reading one of the caller's arrays. -/
def World.array (w : World) (k : ℕ) : Option (List Vec3) := (w.arrays[k]?).map w.heap.cell

end Verif.PointAliasing
