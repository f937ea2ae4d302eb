import Mathlib.Data.List.Basic
import Mathlib.Algebra.BigOperators.Group.List.Basic

/-!
# numpy arrays: a shape and a value at every multi-index

Only the values at in-range multi-indices are meaningful.
-/

namespace Verif

/-- An `ndarray`: `shape` lists the axis lengths, `get` the element at a multi-index. -/
structure NArr (α : Type) where
  shape : List ℕ
  get : List ℕ → α

/-- The multi-index `i` is in range for the shape `s`. -/
def InShape (s i : List ℕ) : Prop := List.Forall₂ (fun k n => k < n) i s

namespace NArr

variable {α : Type}

/-- `arr.ndim` -/
def ndim (a : NArr α) : ℕ := a.shape.length

/-- `arr.size` -/
def size (a : NArr α) : ℕ := a.shape.prod

/-- Equality as arrays: same shape, same element at every in-range multi-index. -/
def Same (a b : NArr α) : Prop := a.shape = b.shape ∧ ∀ i, InShape a.shape i → a.get i = b.get i

/-- The multi-index of the unsqueezed array that corresponds to a multi-index of the squeezed one: `0` on every
axis of length one. -/
def unsqueezeIndex : List ℕ → List ℕ → List ℕ
  | [], _ => []
  | 1 :: s, i => 0 :: unsqueezeIndex s i
  | _ :: s, [] => 0 :: unsqueezeIndex s []
  | _ :: s, k :: i => k :: unsqueezeIndex s i

/-- `np.squeeze` -/
def squeeze (a : NArr α) : NArr α :=
  ⟨a.shape.filter (· ≠ 1), fun i => a.get (unsqueezeIndex a.shape i)⟩

/-- A one-dimensional array holding a list (`d` fills out-of-range positions, never read). -/
def ofList (l : List α) (d : α) : NArr α := ⟨[l.length], fun i => l.getD (i.headD 0) d⟩

end NArr

end Verif
