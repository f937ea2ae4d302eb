import Verif.Model.Setters

/-!
# Model of the dipole location and orientation arrays as shared memory

`np.asarray(x, dtype=float)` returns `x` itself when `x` is already a float array, and `np.squeeze` returns a view, so
the setters of `BaseDipole` keep a reference to the caller's memory.  Here memory is explicit: a heap of `(3,)` float
arrays (the shape checks are modelled in `Verif.Model.Setters`), arrays owned by the caller, and dipoles that hold
addresses.
-/

namespace Verif.Aliasing

open Verif.Setters

/-- A heap of three-component float arrays. -/
structure Heap where
  cell : ℕ → Vec3
  next : ℕ

/-- Allocate a new array. -/
def Heap.alloc (h : Heap) (v : Vec3) : ℕ × Heap :=
  (h.next, ⟨fun a => if a = h.next then v else h.cell a, h.next + 1⟩)

/-- Overwrite an array in place. -/
def Heap.write (h : Heap) (a : ℕ) (v : Vec3) : Heap := ⟨fun b => if b = a then v else h.cell b, h.next⟩

/-- What the caller passes to a setter: one of its own float arrays, or anything that numpy has to convert, such as a list,
a tuple or an integer array, which yields new memory. -/
inductive Arg where
  | array (k : ℕ)
  | fresh (v : Vec3)

/-- A dipole holds the addresses of its two arrays: em/base.py:183 and 224. -/
structure Dipole where
  location : ℕ
  orientation : ℕ

/-- The caller's float arrays and the dipoles built so far. Address `0` is the default value of the `location` parameter,
created once when the class is defined: em/base.py:153. -/
structure World where
  heap : Heap
  arrays : List ℕ
  dipoles : List Dipole

/-- The world before anything happened. -/
noncomputable def World.init : World := ⟨⟨fun _ => ⟨.fin 0, .fin 0, .fin 0⟩, 1⟩, [], []⟩

/-- `np.squeeze(np.asarray(arg, dtype=float))`: em/base.py:174-177 and 210-215; an address, and the heap afterwards. `none` if the
caller has no such array. -/
def asarray (w : World) : Arg → Option (ℕ × Heap)
  | .array k => (w.arrays[k]?).map fun a => (a, w.heap)
  | .fresh v => some (w.heap.alloc v)

/-- The location setter keeps the address: em/base.py:174-183. -/
def locationSetter (w : World) (d : Dipole) (x : Arg) : Option (Dipole × Heap) :=
  (asarray w x).map fun (a, h) => ({ d with location := a }, h)

/-- The orientation setter normalises in place (`var /= norm`) and keeps the address: em/base.py:209-224. -/
noncomputable def orientationSetter (w : World) (d : Dipole) (x : Arg) : Option (Dipole × Heap) :=
  (asarray w x).map fun (a, h) => ({ d with orientation := a }, h.write a (h.cell a).normalized)

/-- What a caller can do. -/
inductive Op where
  /-- create a float array -/
  | array (v : Vec3)
  /-- overwrite one of its arrays -/
  | write (k : ℕ) (v : Vec3)
  /-- build a dipole, with the default location if none is given -/
  | build (location : Option Arg) (orientation : Arg)
  | setLocation (i : ℕ) (x : Arg)
  | setOrientation (i : ℕ) (x : Arg)
  /-- `dipoles[i].location[:] = v` -/
  | writeLocation (i : ℕ) (v : Vec3)

/-- One operation; operations on arrays or dipoles that do not exist do nothing. -/
noncomputable def step (w : World) : Op → World
  | .array v =>
    let (a, h) := w.heap.alloc v
    { w with heap := h, arrays := w.arrays ++ [a] }
  | .write k v =>
    match w.arrays[k]? with
    | some a => { w with heap := w.heap.write a v }
    | none => w
  | .build loc ori =>
    match (match loc with
      | none => some ((⟨0, 0⟩ : Dipole), w.heap)
      | some x => locationSetter w ⟨0, 0⟩ x) with
    | none => w
    | some (d, h) =>
      match orientationSetter { w with heap := h } d ori with
      | none => w
      | some (d, h) => { w with heap := h, dipoles := w.dipoles ++ [d] }
  | .setLocation i x =>
    match w.dipoles[i]? with
    | none => w
    | some d =>
      match locationSetter w d x with
      | none => w
      | some (d, h) => { w with heap := h, dipoles := w.dipoles.set i d }
  | .setOrientation i x =>
    match w.dipoles[i]? with
    | none => w
    | some d =>
      match orientationSetter w d x with
      | none => w
      | some (d, h) => { w with heap := h, dipoles := w.dipoles.set i d }
  | .writeLocation i v =>
    match w.dipoles[i]? with
    | none => w
    | some d => { w with heap := w.heap.write d.location v }

/-- A history. -/
noncomputable def run (w : World) (ops : List Op) : World := ops.foldl step w

/-- Reading `dipoles[i].location`. -/
def World.location (w : World) (i : ℕ) : Option Vec3 := (w.dipoles[i]?).map fun d => w.heap.cell d.location

/-- Reading `dipoles[i].orientation`. -/
def World.orientation (w : World) (i : ℕ) : Option Vec3 := (w.dipoles[i]?).map fun d => w.heap.cell d.orientation

/-- Reading one of the caller's arrays. -/
def World.array (w : World) (k : ℕ) : Option Vec3 := (w.arrays[k]?).map w.heap.cell

end Verif.Aliasing
