import Verif.Model.Utils
import Verif.Py.Broadcast
import Verif.Spec.Vec

/-!
# Arrays of vectors

An array whose last axis holds three components, read as an array of vectors; and what it means for such an array to
hold the values of a function at every pair of a parameter (a frequency, a time) and a point.
-/

namespace Verif

variable {α : Type}

/-- The vector at position `i` of an array whose last axis holds the three components. -/
def vecAt (a : NArr α) (i : List ℕ) : V3 α := ⟨a.get (i ++ [0]), a.get (i ++ [1]), a.get (i ++ [2])⟩

/-- The array `r` holds the vectors `f q x` for all parameters `q` of an array of parameters and all points `x` of an array of
points (of shape `sh` apart from the axis of the components): the axes of the parameters come first, then those of the
points, then the components. -/
def HoldsPairs (q : NArr ℝ) (sh : List ℕ) (x : List ℕ → V3 ℝ) (f : ℝ → V3 ℝ → V3 α) (r : NArr α) : Prop :=
  r.shape = q.shape ++ sh ++ [3] ∧
    ∀ p, InShape q.shape p → ∀ i, InShape sh i → vecAt r (p ++ i) = f (q.get p) (x i)

/-- The points given to a method: an array of shape `sh ++ [3]`, or a tuple of three arrays of shape `sh`; `x i` is the point
at position `i`. -/
def IsPoints (xyz : Utils.XyzArg ℝ) (sh : List ℕ) (x : List ℕ → V3 ℝ) : Prop :=
  (∃ a, xyz = .array a ∧ a.shape = sh ++ [3] ∧ ∀ i, x i = vecAt a i) ∨
  (∃ a b c, xyz = .tuple [a, b, c] ∧ a.shape = sh ∧ b.shape = sh ∧ c.shape = sh ∧ ∀ i, x i = ⟨a.get i, b.get i, c.get i⟩)

/-- The array `r` holds the number `f x` for every point `x` of an array of points. -/
def HoldsScalars (sh : List ℕ) (x : List ℕ → V3 ℝ) (f : V3 ℝ → α) (r : NArr α) : Prop :=
  r.shape = sh ∧ ∀ i, InShape sh i → r.get i = f (x i)

/-- The array `r` holds the vector `f x` for every point `x` of an array of points: the axes of the points come first, then
the components. -/
def HoldsVectors (sh : List ℕ) (x : List ℕ → V3 ℝ) (f : V3 ℝ → V3 α) (r : NArr α) : Prop :=
  r.shape = sh ++ [3] ∧ ∀ i, InShape sh i → vecAt r i = f (x i)

/-- The array `r` holds the tensor `f x` for every point `x` of an array of points: the axes of the points come first, then
the rows, then the columns. -/
def HoldsTensors (sh : List ℕ) (x : List ℕ → V3 ℝ) (f : V3 ℝ → M3 α) (r : NArr α) : Prop :=
  r.shape = sh ++ [3, 3] ∧
    ∀ i, InShape sh i → (⟨vecAt r (i ++ [0]), vecAt r (i ++ [1]), vecAt r (i ++ [2])⟩ : M3 α) = f (x i)

/-- The computation `m` does for the whole array of points what `f` does for each of them: its result holds all the numbers,
or `f` raises the same exception for every point and so does `m`. -/
def EachScalar (sh : List ℕ) (x : List ℕ → V3 ℝ) (f : V3 ℝ → Py α) (m : Py (NArr α)) : Prop :=
  (∃ h : V3 ℝ → α, (∀ p, f p = .ok (h p)) ∧ ∃ r, m = .ok r ∧ HoldsScalars sh x h r) ∨
    ∃ e, (∀ p, f p = .error e) ∧ m = .error e

/-- The same for vectors. -/
def EachVector (sh : List ℕ) (x : List ℕ → V3 ℝ) (f : V3 ℝ → Py (V3 α)) (m : Py (NArr α)) : Prop :=
  (∃ h : V3 ℝ → V3 α, (∀ p, f p = .ok (h p)) ∧ ∃ r, m = .ok r ∧ HoldsVectors sh x h r) ∨
    ∃ e, (∀ p, f p = .error e) ∧ m = .error e

/-- As `EachScalar`, for methods that refuse some points: the result holds all the numbers, or one of the points is refused and
the method raises that exception. -/
def AllScalars (sh : List ℕ) (x : List ℕ → V3 ℝ) (f : V3 ℝ → Py α) (m : Py (NArr α)) : Prop :=
  (∃ r, m = .ok r ∧ r.shape = sh ∧ ∀ i, InShape sh i → f (x i) = .ok (r.get i)) ∨
    ∃ e i, InShape sh i ∧ f (x i) = .error e ∧ m = .error e

/-- The same for vectors. -/
def AllVectors (sh : List ℕ) (x : List ℕ → V3 ℝ) (f : V3 ℝ → Py (V3 α)) (m : Py (NArr α)) : Prop :=
  (∃ r, m = .ok r ∧ r.shape = sh ++ [3] ∧ ∀ i, InShape sh i → f (x i) = .ok (vecAt r i)) ∨
    ∃ e i, InShape sh i ∧ f (x i) = .error e ∧ m = .error e

/-- The position of an array of shape `sh` that is read for the position `i` of an array it is broadcast with. -/
def through (sh i : List ℕ) : List ℕ := (NArr.bcastIndexRev sh.reverse i.reverse).reverse

/-- The computation `m` on two arrays of points does what `f` does for each pair of points that broadcasting brings together. -/
def PairScalars (sh : List ℕ) (x : List ℕ → V3 ℝ) (sh' : List ℕ) (y : List ℕ → V3 ℝ) (f : V3 ℝ → V3 ℝ → Py α)
    (m : Py (NArr α)) : Prop :=
  (∀ e, NArr.bcastShape sh sh' = .error e → m = .error e) ∧
  ∀ u, NArr.bcastShape sh sh' = .ok u → ∃ r, m = .ok r ∧ r.shape = u ∧
    ∀ i, InShape u i → f (x (through sh i)) (y (through sh' i)) = .ok (r.get i)

/-- The same for vectors. -/
def PairVectors (sh : List ℕ) (x : List ℕ → V3 ℝ) (sh' : List ℕ) (y : List ℕ → V3 ℝ) (f : V3 ℝ → V3 ℝ → Py (V3 α))
    (m : Py (NArr α)) : Prop :=
  (∀ e, NArr.bcastShape sh sh' = .error e → m = .error e) ∧
  ∀ u, NArr.bcastShape sh sh' = .ok u → ∃ r, m = .ok r ∧ r.shape = u ++ [3] ∧
    ∀ i, InShape u i → f (x (through sh i)) (y (through sh' i)) = .ok (vecAt r i)

end Verif
