/-!
# A small semantics for the C++ kernels: flat buffers, `size_t` loops

`size_t` is 64 bits with wrap-around.  A buffer is a block of memory with a size; every access is checked against it and an
access outside is a fault, as is an access through a null pointer.  A `for` loop is run with fuel; running out of fuel is a
fault, so a theorem that concludes with a result for all large enough fuel says that the loop terminates.  Each buffer counts
the writes to every cell.
-/

namespace Verif.Cpp

/-- What can go wrong. -/
inductive Fault
  | outOfBounds
  | nullPointer
  | diverges

/-- `size_t`. -/
abbrev Size := BitVec 64

/-- A block of memory and the number of times each cell was written. -/
structure Buf (α : Type) where
  size : Nat
  data : Nat → α
  writes : Nat → Nat

/-- `p[i]`, read. -/
def Buf.get {α : Type} (b : Buf α) (i : Nat) : Except Fault α :=
  if i < b.size then .ok (b.data i) else .error .outOfBounds

/-- `p[i] = x`. -/
def Buf.set {α : Type} (b : Buf α) (i : Nat) (x : α) : Except Fault (Buf α) :=
  if i < b.size then
    .ok ⟨b.size, fun j => if j = i then x else b.data j, fun j => if j = i then b.writes j + 1 else b.writes j⟩
  else .error .outOfBounds

/-- `p[i]` through a pointer that may be null. -/
def getPtr {α : Type} (p : Option (Buf α)) (i : Nat) : Except Fault α :=
  match p with
  | none => .error .nullPointer
  | some b => b.get i

/-- `p[i] = x` through a pointer that may be null. -/
def setPtr {α : Type} (p : Option (Buf α)) (i : Nat) (x : α) : Except Fault (Option (Buf α)) :=
  match p with
  | none => .error .nullPointer
  | some b => (b.set i x).map some

/-- `for (size_t k = k0; cond(k); k = next(k)) s = body(k, s)`. -/
def cfor {σ : Type} (cond : Size → Bool) (next : Size → Size) (body : Size → σ → Except Fault σ) :
    Nat → Size → σ → Except Fault σ
  | 0, _, _ => .error .diverges
  | fuel + 1, k, s => if cond k then (body k s).bind (cfor cond next body fuel (next k)) else .ok s

end Verif.Cpp
