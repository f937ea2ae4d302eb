import Verif.Py.NArr
import Verif.Py.Err

/-!
# numpy reshaping and broadcasting rules
-/

namespace Verif.NArr

variable {α : Type}

/-- Multi-index of flat position `k` in column-major (Fortran) order: the first axis varies fastest. -/
def unravelF : List ℕ → ℕ → List ℕ
  | [], _ => []
  | n :: s, k => (k % n) :: unravelF s (k / n)

/-- `x.flatten(order='F')` -/
def flattenF (a : NArr α) : NArr α := ⟨[a.size], fun i => a.get (unravelF a.shape (i.headD 0))⟩

/-- `arr[..., None]`: a new last axis of length one. -/
def newLast (a : NArr α) : NArr α := ⟨a.shape ++ [1], fun i => a.get i.dropLast⟩

/-- Broadcasting of two shapes, both given last axis first. -/
def bcastRev : List ℕ → List ℕ → Option (List ℕ)
  | [], t => some t
  | s, [] => some s
  | a :: s, b :: t =>
    if a = b then (bcastRev s t).map (a :: ·)
    else if a = 1 then (bcastRev s t).map (b :: ·)
    else if b = 1 then (bcastRev s t).map (a :: ·)
    else none

/-- The broadcast shape, or `ValueError`. -/
def bcastShape (s t : List ℕ) : Py (List ℕ) :=
  match bcastRev s.reverse t.reverse with
  | some r => .ok r.reverse
  | none => .error .valueError

/-- Index into an array of shape `s` (given last axis first) for an index into the broadcast array (last axis
first): axes of length one are read at `0`, leading extra axes are dropped. -/
def bcastIndexRev : List ℕ → List ℕ → List ℕ
  | [], _ => []
  | _ :: s, [] => 0 :: bcastIndexRev s []
  | n :: s, k :: i => (if n = 1 then 0 else k) :: bcastIndexRev s i

/-- The array seen after broadcasting to shape `t`. -/
def broadcastTo (a : NArr α) (t : List ℕ) : NArr α :=
  ⟨t, fun i => a.get (bcastIndexRev a.shape.reverse i.reverse).reverse⟩

/-- `np.broadcast_arrays(a, b)` -/
def broadcast2 (a b : NArr α) : Py (NArr α × NArr α) := do
  let t ← bcastShape a.shape b.shape
  pure (a.broadcastTo t, b.broadcastTo t)

/-- `np.broadcast_arrays(a, b, c)` -/
def broadcast3 (a b c : NArr α) : Py (NArr α × NArr α × NArr α) := do
  let t ← bcastShape a.shape b.shape
  let t ← bcastShape t c.shape
  pure (a.broadcastTo t, b.broadcastTo t, c.broadcastTo t)

/-- Elementwise binary operation with broadcasting. -/
def zipWith {β γ : Type} (f : α → β → γ) (a : NArr α) (b : NArr β) : Py (NArr γ) := do
  let t ← bcastShape a.shape b.shape
  pure ⟨t, fun i => f ((a.broadcastTo t).get i) ((b.broadcastTo t).get i)⟩

end Verif.NArr
