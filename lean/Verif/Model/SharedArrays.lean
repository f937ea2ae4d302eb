import Verif.Py.Float

/-!
# Model of array attributes as shared memory

Two idioms convert an array argument in the attribute setters.  `np.asarray(x, dtype=float)` returns `x` itself when `x`
is already a float array, so the object keeps the caller's memory.  `np.atleast_1d(x).astype(float)` always makes a copy.
All getters return the stored array itself.  Here memory is explicit: a heap of one-dimensional float arrays, arrays that
the caller holds, and objects that hold addresses.

The arrays of the dipoles and line currents are in `Verif.Model.Aliasing` and `Verif.Model.PointAliasing`; the conversion
of arguments that are not float arrays is in `Verif.Model.Setters`.  Arrays with more than one dimension, and scalar
frequencies and times, are left out.
-/

namespace Verif.SharedArrays

/-- The contents of a one-dimensional float array. -/
abbrev Data := List PyFloat

/-- A heap of float arrays. -/
structure Heap where
  cell : ℕ → Data
  next : ℕ

/-- Allocate a new array. -/
def Heap.alloc (h : Heap) (v : Data) : ℕ × Heap :=
  (h.next, ⟨fun a => if a = h.next then v else h.cell a, h.next + 1⟩)

/-- Overwrite an array in place. -/
def Heap.write (h : Heap) (a : ℕ) (v : Data) : Heap := ⟨fun b => if b = a then v else h.cell b, h.next⟩

/-- The array attributes. -/
inductive Attr where
  /-- `PointMass.location`, `Sphere.location`: gravity.py:86-100 -/
  | massLocation
  /-- `BasePrism.min_location`: shapes.py:56-69 -/
  | minLocation
  /-- `BasePrism.max_location`: shapes.py:83-96 -/
  | maxLocation
  /-- `MagneticPrism.magnetization`: em/static/freespace.py:50-64 -/
  | magnetization
  /-- `BaseFDEM.frequency`: em/fdem/base.py:206-220 -/
  | frequency
  /-- `BaseTDEM.time`: em/tdem/base.py:164-178 -/
  | time
  /-- `PointCurrentHalfSpace.location`: em/static/halfspace.py:102-125 -/
  | electrode
  /-- `ElectrostaticSphere.primary_field`, `MagnetostaticSphere.primary_field`: em/static/sphere.py:108-123, 619-634 -/
  | primaryField
  /-- `ElectrostaticSphere.location`, `MagnetostaticSphere.location`: em/static/sphere.py:134-149, 645-660 -/
  | sphereLocation
  /-- `MagneticDipoleLayeredHalfSpace.frequency`: em/fdem/layered.py:66-81 -/
  | layeredFrequency
  /-- `MagneticDipoleLayeredHalfSpace.thickness`: em/fdem/layered.py:94-112 -/
  | thickness
  deriving DecidableEq

/-- Whether the setter copies (`np.atleast_1d(x).astype(float)`) or keeps a float array (`np.asarray(x, dtype=float)`): the
lines cited at the constructors of `Attr`. -/
def Attr.copies : Attr → Bool
  | .massLocation => false
  | .minLocation => false
  | .maxLocation => false
  | .magnetization => false
  | .frequency => false
  | .time => false
  | .electrode => true
  | .primaryField => true
  | .sphereLocation => true
  | .layeredFrequency => true
  | .thickness => true

/-- What the setter checks, for a one-dimensional array: the lines cited at the constructors of `Attr`. -/
def Attr.Accepts : Attr → Data → Prop
  | .massLocation, v => v.length = 3
  | .minLocation, v => v.length = 3
  | .maxLocation, v => v.length = 3
  | .magnetization, v => v.length = 3
  | .frequency, v => ∀ x ∈ v, ¬ x < 0
  | .time, v => ∀ x ∈ v, ¬ x < 0
  | .electrode, v => v.length = 3 ∧ ∀ x ∈ v.getLast?, ¬ 0 < x
  | .primaryField, v => v.length = 3
  | .sphereLocation, v => v.length = 3
  | .layeredFrequency, v => ∀ x ∈ v, ¬ x < 0
  | .thickness, v => ∀ x ∈ v, ¬ x < 0

/-- Classes with array attributes; scalar attributes are left out. -/
inductive Cls where
  | pointMass
  | prism
  | magneticPrism
  | harmonic
  | transient
  | pointCurrentHalfSpace
  | staticSphere
  | layered
  deriving DecidableEq

/-- The attributes in the order in which the constructors assign them: gravity.py:46-51, shapes.py:38-41,
em/static/freespace.py:38-44, em/fdem/base.py:188-192, em/tdem/base.py:147-150, em/static/halfspace.py:29-41,
em/static/sphere.py:30-43, em/fdem/layered.py:45-49. -/
def Cls.attrs : Cls → List Attr
  | .pointMass => [.massLocation]
  | .prism => [.minLocation, .maxLocation]
  | .magneticPrism => [.magnetization, .minLocation, .maxLocation]
  | .harmonic => [.frequency]
  | .transient => [.time]
  | .pointCurrentHalfSpace => [.electrode]
  | .staticSphere => [.primaryField, .sphereLocation]
  | .layered => [.thickness, .layeredFrequency]

/-- An object holds the addresses of its arrays. A point current in a half-space also owns the positions of its source and
of its image, which nobody else can reach: em/static/halfspace.py:120-125. -/
structure Object where
  cls : Cls
  slot : Attr → Option ℕ
  source : Data
  image : Data

/-- What the caller passes: one of the float arrays it holds, or anything that numpy has to convert, such as a list, a
tuple or an integer array, which yields new memory. -/
inductive Arg where
  | array (k : ℕ)
  | fresh (v : Data)

/-- The contents of an argument. -/
def Arg.content (h : Heap) (arrays : List ℕ) : Arg → Option Data
  | .array k => (arrays[k]?).map h.cell
  | .fresh v => some v

/-- `vec[-1] *= -1` on a copy: em/static/halfspace.py:123-124. -/
noncomputable def flipLast : Data → Data
  | [] => []
  | [x] => [x * .fin (-1)]
  | x :: y :: l => x :: flipLast (y :: l)

/-- The conversion at the start of a setter: the address of the array that the object will hold. -/
def convert (h : Heap) (arrays : List ℕ) (a : Attr) : Arg → Option (ℕ × Heap)
  | .array k =>
    match arrays[k]? with
    | none => none
    | some p => if a.copies then some (h.alloc (h.cell p)) else some (p, h)
  | .fresh v => some (h.alloc v)

open Classical in
/-- A setter: convert, check, store. `none` if it raises or if the caller has no such array. The lines cited at the
constructors of `Attr`. -/
noncomputable def store (arrays : List ℕ) (h : Heap) (o : Object) (a : Attr) (x : Arg) : Option (Heap × Object) :=
  match convert h arrays a x with
  | none => none
  | some (p, h) =>
    if a.Accepts (h.cell p) then
      let o := { o with slot := fun b => if b = a then some p else o.slot b }
      if a = .electrode then some (h, { o with source := h.cell p, image := flipLast (h.cell p) }) else some (h, o)
    else none

/-- The assignments of a constructor. -/
noncomputable def storeAll (arrays : List ℕ) (args : Attr → Arg) : List Attr → Heap → Object → Option (Heap × Object)
  | [], h, o => some (h, o)
  | a :: l, h, o =>
    match store arrays h o a (args a) with
    | none => none
    | some (h, o) => storeAll arrays args l h o

/-- `not np.any(self.max_location <= self.min_location)` for the classes derived from `BasePrism`: shapes.py:42-43. -/
def Complete (h : Heap) (o : Object) : Prop :=
  match o.slot .minLocation, o.slot .maxLocation with
  | some p, some q => ∀ xy ∈ (h.cell q).zip (h.cell p), ¬ xy.1 ≤ xy.2
  | _, _ => True

/-- The arrays that the caller holds and the objects built so far. -/
structure World where
  heap : Heap
  arrays : List ℕ
  objects : List Object

/-- The world before anything happened. -/
def World.init : World := ⟨⟨fun _ => [], 0⟩, [], []⟩

/-- What a caller can do. -/
inductive Op where
  /-- create a float array -/
  | array (v : Data)
  /-- `arrays[k][:] = v` -/
  | write (k : ℕ) (v : Data)
  /-- build an object -/
  | build (c : Cls) (args : Attr → Arg)
  /-- `objects[i].a = x` -/
  | assign (i : ℕ) (a : Attr) (x : Arg)
  /-- `arrays.append(objects[i].a)` -/
  | get (i : ℕ) (a : Attr)

open Classical in
/-- One operation. An operation that raises, or that refers to something that does not exist, changes nothing that can be
observed. -/
noncomputable def step (w : World) : Op → World
  | .array v =>
    let (p, h) := w.heap.alloc v
    { w with heap := h, arrays := w.arrays ++ [p] }
  | .write k v =>
    match w.arrays[k]? with
    | some p => if v.length = (w.heap.cell p).length then { w with heap := w.heap.write p v } else w
    | none => w
  | .build c args =>
    match storeAll w.arrays args c.attrs w.heap ⟨c, fun _ => none, [], []⟩ with
    | none => w
    | some (h, o) => if Complete h o then { w with heap := h, objects := w.objects ++ [o] } else w
  | .assign i a x =>
    match w.objects[i]? with
    | none => w
    | some o =>
      if a ∈ o.cls.attrs then
        match store w.arrays w.heap o a x with
        | none => w
        | some (h, o) => { w with heap := h, objects := w.objects.set i o }
      else w
  | .get i a =>
    match (w.objects[i]?).bind fun o => o.slot a with
    | some p => { w with arrays := w.arrays ++ [p] }
    | none => w

/-- A history. -/
noncomputable def run (w : World) (ops : List Op) : World := ops.foldl step w

/-- Reading `objects[i].a`. -/
def World.read (w : World) (i : ℕ) (a : Attr) : Option Data :=
  (w.objects[i]?).bind fun o => (o.slot a).map w.heap.cell

/-- Reading one of the arrays that the caller holds. -/
def World.array (w : World) (k : ℕ) : Option Data := (w.arrays[k]?).map w.heap.cell

end Verif.SharedArrays
