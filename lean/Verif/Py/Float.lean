import Mathlib.Data.Real.Basic
import Mathlib.Analysis.Real.Sqrt
import Verif.Py.Err
import Verif.Py.NArr

/-!
# Python floats with their special values

Finite floats are exact real numbers: rounding, overflow, underflow and the sign of zero are not modelled.
Infinities and NaN are, because they pass through comparisons in a way that matters to the validation code.
-/

namespace Verif

/-- A Python/numpy `float`. -/
inductive PyFloat where
  | fin (x : ℝ)
  | pinf
  | ninf
  | nan

namespace PyFloat

/-- `a < b`; false as soon as one side is NaN. -/
def lt : PyFloat → PyFloat → Prop
  | nan, _ => False
  | _, nan => False
  | fin a, fin b => a < b
  | fin _, pinf => True
  | fin _, ninf => False
  | pinf, _ => False
  | ninf, ninf => False
  | ninf, _ => True

/-- `a <= b`; false as soon as one side is NaN. -/
def le : PyFloat → PyFloat → Prop
  | nan, _ => False
  | _, nan => False
  | fin a, fin b => a ≤ b
  | fin _, pinf => True
  | fin _, ninf => False
  | pinf, pinf => True
  | pinf, _ => False
  | ninf, _ => True

instance : LT PyFloat := ⟨lt⟩
instance : LE PyFloat := ⟨le⟩
instance : Zero PyFloat := ⟨fin 0⟩
instance : One PyFloat := ⟨fin 1⟩
noncomputable instance : Inhabited PyFloat := ⟨nan⟩

open Classical in
/-- `a * b` -/
noncomputable def mul : PyFloat → PyFloat → PyFloat
  | nan, _ => nan
  | _, nan => nan
  | fin a, fin b => fin (a * b)
  | pinf, pinf => pinf
  | ninf, ninf => pinf
  | pinf, ninf => ninf
  | ninf, pinf => ninf
  | fin a, pinf => if 0 < a then pinf else if a < 0 then ninf else nan
  | pinf, fin a => if 0 < a then pinf else if a < 0 then ninf else nan
  | fin a, ninf => if 0 < a then ninf else if a < 0 then pinf else nan
  | ninf, fin a => if 0 < a then ninf else if a < 0 then pinf else nan

/-- `a + b` -/
noncomputable def add : PyFloat → PyFloat → PyFloat
  | nan, _ => nan
  | _, nan => nan
  | fin a, fin b => fin (a + b)
  | pinf, ninf => nan
  | ninf, pinf => nan
  | pinf, _ => pinf
  | _, pinf => pinf
  | ninf, _ => ninf
  | _, ninf => ninf

/-- `-a` -/
noncomputable def neg : PyFloat → PyFloat
  | nan => nan
  | fin a => fin (-a)
  | pinf => ninf
  | ninf => pinf

noncomputable instance : Mul PyFloat := ⟨mul⟩
noncomputable instance : Add PyFloat := ⟨add⟩
noncomputable instance : Neg PyFloat := ⟨neg⟩
noncomputable instance : Sub PyFloat := ⟨fun a b => a + -b⟩

/-- `a ** n` for a literal non-negative integer exponent. -/
noncomputable def npow (a : PyFloat) : ℕ → PyFloat
  | 0 => fin 1
  | n + 1 => npow a n * a

noncomputable instance : Pow PyFloat ℕ := ⟨npow⟩

open Classical in
/-- numpy's `a / b`: dividing by zero gives an infinity (the sign of zero is not modelled: zero counts as `+0`) or
NaN, with a warning. -/
noncomputable def npDiv : PyFloat → PyFloat → PyFloat
  | nan, _ => nan
  | _, nan => nan
  | fin a, fin b =>
      if b = 0 then (if 0 < a then pinf else if a < 0 then ninf else nan) else fin (a / b)
  | fin _, pinf => fin 0
  | fin _, ninf => fin 0
  | pinf, fin b => if b < 0 then ninf else pinf
  | ninf, fin b => if b < 0 then pinf else ninf
  | pinf, pinf => nan
  | pinf, ninf => nan
  | ninf, pinf => nan
  | ninf, ninf => nan

open Classical in
/-- Python's `a / b` on `float`s: a zero divisor raises whatever the numerator. -/
noncomputable def pyDiv (a b : PyFloat) : Py PyFloat :=
  if b = fin 0 then .error .zeroDivisionError else .ok (npDiv a b)

/-- `np.sqrt(a)`; NaN below zero. -/
noncomputable def sqrt : PyFloat → PyFloat
  | nan => nan
  | pinf => pinf
  | ninf => nan
  | fin a => open Classical in if a < 0 then nan else fin (Real.sqrt a)

/-- `np.abs(a)` -/
noncomputable def abs : PyFloat → PyFloat
  | nan => nan
  | pinf => pinf
  | ninf => pinf
  | fin a => fin |a|

/-! ## Simplification lemmas -/

variable {a b : ℝ} {x y : PyFloat}

@[simp] theorem zero_def : (0 : PyFloat) = fin 0 := rfl
@[simp] theorem one_def : (1 : PyFloat) = fin 1 := rfl
@[simp] theorem fin_lt_fin : (fin a < fin b) ↔ a < b := Iff.rfl
@[simp] theorem fin_le_fin : (fin a ≤ fin b) ↔ a ≤ b := Iff.rfl
@[simp] theorem fin_lt_pinf : fin a < pinf := trivial
@[simp] theorem fin_le_pinf : fin a ≤ pinf := trivial
@[simp] theorem not_fin_lt_ninf : ¬ fin a < ninf := id
@[simp] theorem not_fin_le_ninf : ¬ fin a ≤ ninf := id
@[simp] theorem not_pinf_lt_fin : ¬ pinf < fin a := id
@[simp] theorem not_pinf_le_fin : ¬ pinf ≤ fin a := id
@[simp] theorem ninf_lt_fin : ninf < fin a := trivial
@[simp] theorem ninf_le_fin : ninf ≤ fin a := trivial
@[simp] theorem ninf_le : x ≠ nan → ninf ≤ x := by cases x <;> simp [LE.le, le]
@[simp] theorem not_nan_lt : ¬ nan < x := by cases x <;> exact id
@[simp] theorem not_nan_le : ¬ nan ≤ x := by cases x <;> exact id
@[simp] theorem not_lt_nan : ¬ x < nan := by cases x <;> exact id
@[simp] theorem not_le_nan : ¬ x ≤ nan := by cases x <;> exact id

theorem fin_mul_fin : fin a * fin b = fin (a * b) := rfl
theorem fin_add_fin : fin a + fin b = fin (a + b) := rfl
theorem neg_fin : -fin a = fin (-a) := rfl
theorem fin_sub_fin : fin a - fin b = fin (a - b) := by
  rw [sub_eq_add_neg]; rfl
theorem fin_pow (n : ℕ) : fin a ^ n = fin (a ^ n) := by
  induction n with
  | zero => simp only [pow_zero]; rfl
  | succ n ih =>
    change npow (fin a) n * fin a = _
    have : npow (fin a) n = fin a ^ n := rfl
    rw [this, ih, fin_mul_fin, pow_succ]
theorem npDiv_fin (h : b ≠ 0) : npDiv (fin a) (fin b) = fin (a / b) := by simp [npDiv, h]

theorem lt_iff : x < y ↔ lt x y := Iff.rfl
theorem le_iff : x ≤ y ↔ le x y := Iff.rfl

/-- Away from NaN, "not less" is "greater or equal", as in ordinary arithmetic. -/
theorem le_of_not_lt (hx : x ≠ nan) (hy : y ≠ nan) (h : ¬ x < y) : y ≤ x := by
  cases x <;> cases y <;> simp_all [lt_iff, le_iff, lt, le]

theorem lt_of_not_le (hx : x ≠ nan) (hy : y ≠ nan) (h : ¬ x ≤ y) : y < x := by
  cases x <;> cases y <;> simp_all [lt_iff, le_iff, lt, le]

/-- Below every comparison, NaN is the only exception to totality. -/
theorem not_lt_iff : ¬ x < y ↔ x = nan ∨ y = nan ∨ y ≤ x := by
  cases x <;> cases y <;> simp [lt_iff, le_iff, lt, le]

theorem not_le_iff : ¬ x ≤ y ↔ x = nan ∨ y = nan ∨ y < x := by
  cases x <;> cases y <;> simp [lt_iff, le_iff, lt, le]

end PyFloat

/-! ## Python objects handed to a setter -/

/-- The Python objects a caller may assign: a number, a string, a numeric `ndarray`, a regular (nested) sequence of
numbers, `None`, or anything else (numpy and `float` both refuse it). -/
inductive Obj where
  | num (v : PyFloat)
  | str (s : String)
  | ndarray (a : NArr PyFloat)
  | seq (a : NArr PyFloat)
  | none
  | other

/-- Python's grammar of float literals, used when a string is converted. Which strings parse is irrelevant to every
theorem, so it is left open. -/
class FloatGrammar where
  parse : String → Option PyFloat

variable [FloatGrammar]

/-- `float(value)`: a one-element `ndarray` converts, a list does not, a string is parsed. -/
def Obj.toFloat : Obj → Py PyFloat
  | .num v => .ok v
  | .str s => match FloatGrammar.parse s with
    | some v => .ok v
    | Option.none => .error .valueError
  | .ndarray a => if a.size = 1 then .ok (a.get (a.shape.map fun _ => 0)) else .error .typeError
  | .seq _ => .error .typeError
  | .none => .error .typeError
  | .other => .error .typeError

/-- `np.asarray(value, dtype=float)`: numbers become 0-d arrays, `None` becomes NaN. -/
def Obj.asFloatArray : Obj → Py (NArr PyFloat)
  | .num v => .ok ⟨[], fun _ => v⟩
  | .str s => match FloatGrammar.parse s with
    | some v => .ok ⟨[], fun _ => v⟩
    | Option.none => .error .valueError
  | .ndarray a => .ok a
  | .seq a => .ok a
  | .none => .ok ⟨[], fun _ => .nan⟩
  | .other => .error .typeError

/-- `np.atleast_1d(value).astype(float)` -/
def Obj.atleast1dFloat (o : Obj) : Py (NArr PyFloat) :=
  match o.asFloatArray with
  | .error e => .error e
  | .ok a => .ok (if a.shape = [] then ⟨[1], fun _ => a.get []⟩ else a)

/-- A setter call: the object afterwards, and the exception it raised, if any. -/
abbrev SetResult (σ : Type) := σ × Option PyErr

/-- One statement after another: the second runs only if the first did not raise. -/
def SetResult.andThen {σ : Type} (r : SetResult σ) (f : σ → SetResult σ) : SetResult σ :=
  match r with
  | (s, Option.none) => f s
  | (s, some e) => (s, some e)

/-- A history of operations on an object, errors swallowed by the caller. -/
def runOps {σ op : Type} (step : σ → op → SetResult σ) (s : σ) (ops : List op) : σ :=
  ops.foldl (fun s o => (step s o).1) s

omit [FloatGrammar] in
/-- What holds at first and is kept by every operation holds after every history. -/
theorem runOps_invariant {σ op : Type} {step : σ → op → SetResult σ} {I : σ → Prop}
    (hstep : ∀ s o, I s → I (step s o).1) (s : σ) (h : I s) (ops : List op) : I (runOps step s ops) := by
  induction ops generalizing s with
  | nil => exact h
  | cons o ops ih => exact ih _ (hstep s o h)

omit [FloatGrammar] in
/-- The same for two statements in sequence. -/
theorem andThen_invariant {σ : Type} {I : σ → Prop} {r : SetResult σ} {f : σ → SetResult σ} (hr : I r.1)
    (hf : ∀ s, I s → I (f s).1) : I (r.andThen f).1 := by
  rcases r with ⟨s, _ | e⟩
  · exact hf s hr
  · exact hr

end Verif
