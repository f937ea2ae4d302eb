import Mathlib.Analysis.SpecialFunctions.Sqrt
import Mathlib.Algebra.Module.Basic
import Mathlib.Tactic.Ring
import Mathlib.Tactic.FieldSimp
import Mathlib.Tactic.LinearCombination
import Mathlib.Tactic.Linarith
import Mathlib.Tactic.Positivity

/-!
# Three-component vectors and 3×3 matrices

A specification-level vocabulary.  Nothing in this file depends on the modelled code.
-/

namespace Verif

/-- A triple of components. -/
@[ext] structure V3 (α : Type*) where
  x : α
  y : α
  z : α

namespace V3

variable {α β : Type*}

/-- Apply a function to the three components. -/
def map (f : α → β) (v : V3 α) : V3 β := ⟨f v.x, f v.y, f v.z⟩

@[simp] theorem map_x (f : α → β) (v : V3 α) : (v.map f).x = f v.x := rfl
@[simp] theorem map_y (f : α → β) (v : V3 α) : (v.map f).y = f v.y := rfl
@[simp] theorem map_z (f : α → β) (v : V3 α) : (v.map f).z = f v.z := rfl

instance [Zero α] : Zero (V3 α) := ⟨⟨0, 0, 0⟩⟩
instance [Add α] : Add (V3 α) := ⟨fun a b => ⟨a.x + b.x, a.y + b.y, a.z + b.z⟩⟩
instance [Sub α] : Sub (V3 α) := ⟨fun a b => ⟨a.x - b.x, a.y - b.y, a.z - b.z⟩⟩
instance [Neg α] : Neg (V3 α) := ⟨fun a => ⟨-a.x, -a.y, -a.z⟩⟩
instance {R : Type*} [SMul R α] : SMul R (V3 α) := ⟨fun c a => ⟨c • a.x, c • a.y, c • a.z⟩⟩

@[simp] theorem zero_x [Zero α] : (0 : V3 α).x = 0 := rfl
@[simp] theorem zero_y [Zero α] : (0 : V3 α).y = 0 := rfl
@[simp] theorem zero_z [Zero α] : (0 : V3 α).z = 0 := rfl
@[simp] theorem add_x [Add α] (a b : V3 α) : (a + b).x = a.x + b.x := rfl
@[simp] theorem add_y [Add α] (a b : V3 α) : (a + b).y = a.y + b.y := rfl
@[simp] theorem add_z [Add α] (a b : V3 α) : (a + b).z = a.z + b.z := rfl
@[simp] theorem sub_x [Sub α] (a b : V3 α) : (a - b).x = a.x - b.x := rfl
@[simp] theorem sub_y [Sub α] (a b : V3 α) : (a - b).y = a.y - b.y := rfl
@[simp] theorem sub_z [Sub α] (a b : V3 α) : (a - b).z = a.z - b.z := rfl
@[simp] theorem neg_x [Neg α] (a : V3 α) : (-a).x = -a.x := rfl
@[simp] theorem neg_y [Neg α] (a : V3 α) : (-a).y = -a.y := rfl
@[simp] theorem neg_z [Neg α] (a : V3 α) : (-a).z = -a.z := rfl
@[simp] theorem smul_x {R : Type*} [SMul R α] (c : R) (a : V3 α) : (c • a).x = c • a.x := rfl
@[simp] theorem smul_y {R : Type*} [SMul R α] (c : R) (a : V3 α) : (c • a).y = c • a.y := rfl
@[simp] theorem smul_z {R : Type*} [SMul R α] (c : R) (a : V3 α) : (c • a).z = c • a.z := rfl

instance [AddCommGroup α] : AddCommGroup (V3 α) where
  add_assoc a b c := by ext <;> simp [add_assoc]
  zero_add a := by ext <;> simp
  add_zero a := by ext <;> simp
  add_comm a b := by ext <;> simp [add_comm]
  neg_add_cancel a := by ext <;> simp
  sub_eq_add_neg a b := by ext <;> simp [sub_eq_add_neg]
  nsmul := nsmulRec
  zsmul := zsmulRec

instance {R : Type*} [Semiring R] [AddCommGroup α] [Module R α] : Module R (V3 α) where
  one_smul a := by ext <;> simp
  mul_smul c d a := by ext <;> simp [mul_smul]
  smul_zero c := by ext <;> simp
  smul_add c a b := by ext <;> simp
  add_smul c d a := by ext <;> simp [add_smul]
  zero_smul a := by ext <;> simp

/-- Scalar (bilinear, unconjugated) product. -/
def dot [Mul α] [Add α] (a b : V3 α) : α := a.x * b.x + a.y * b.y + a.z * b.z

/-- Vector product. -/
def cross [Mul α] [Sub α] (a b : V3 α) : V3 α :=
  ⟨a.y * b.z - a.z * b.y, a.z * b.x - a.x * b.z, a.x * b.y - a.y * b.x⟩

@[simp] theorem cross_x [Mul α] [Sub α] (a b : V3 α) :
    (cross a b).x = a.y * b.z - a.z * b.y := rfl
@[simp] theorem cross_y [Mul α] [Sub α] (a b : V3 α) :
    (cross a b).y = a.z * b.x - a.x * b.z := rfl
@[simp] theorem cross_z [Mul α] [Sub α] (a b : V3 α) :
    (cross a b).z = a.x * b.y - a.y * b.x := rfl

/-- Euclidean length. -/
noncomputable def len (v : V3 ℝ) : ℝ := Real.sqrt (v.x ^ 2 + v.y ^ 2 + v.z ^ 2)

theorem len_nonneg (v : V3 ℝ) : 0 ≤ v.len := Real.sqrt_nonneg _

theorem len_sq (v : V3 ℝ) : v.len ^ 2 = v.x ^ 2 + v.y ^ 2 + v.z ^ 2 :=
  Real.sq_sqrt (by positivity)

theorem len_eq_zero {v : V3 ℝ} : v.len = 0 ↔ v = 0 := by
  constructor
  · intro h
    have h2 := len_sq v
    rw [h] at h2
    ext
    · simp; nlinarith [sq_nonneg v.x, sq_nonneg v.y, sq_nonneg v.z]
    · simp; nlinarith [sq_nonneg v.x, sq_nonneg v.y, sq_nonneg v.z]
    · simp; nlinarith [sq_nonneg v.x, sq_nonneg v.y, sq_nonneg v.z]
  · rintro rfl; simp [len]

theorem len_pos {v : V3 ℝ} (h : v ≠ 0) : 0 < v.len :=
  lt_of_le_of_ne (len_nonneg v) (fun e => h (len_eq_zero.1 e.symm))

theorem len_sub_ne_zero {p q : V3 ℝ} (h : p ≠ q) : (p - q).len ≠ 0 := fun e =>
  h (sub_eq_zero.1 (len_eq_zero.1 e))

theorem len_sub_pos {p q : V3 ℝ} (h : p ≠ q) : 0 < (p - q).len :=
  len_pos (fun e => h (sub_eq_zero.1 e))

end V3

/-- A 3×3 matrix as three rows: `J.x.y` is row `x`, column `y`. -/
abbrev M3 (α : Type*) := V3 (V3 α)

namespace M3

variable {α : Type*}

/-- Matrix times column vector. -/
def mulVec [Mul α] [Add α] (m : M3 α) (v : V3 α) : V3 α :=
  ⟨m.x.dot v, m.y.dot v, m.z.dot v⟩

/-- Transpose. -/
def transpose (m : M3 α) : M3 α :=
  ⟨⟨m.x.x, m.y.x, m.z.x⟩, ⟨m.x.y, m.y.y, m.z.y⟩, ⟨m.x.z, m.y.z, m.z.z⟩⟩

/-- Sum of the diagonal. -/
def trace [Add α] (m : M3 α) : α := m.x.x + m.y.y + m.z.z

/-- Matrix product. -/
def mul [Mul α] [Add α] (a b : M3 α) : M3 α :=
  ⟨mulVec (transpose b) a.x, mulVec (transpose b) a.y, mulVec (transpose b) a.z⟩

/-- Determinant. -/
def det [Mul α] [Add α] [Sub α] (m : M3 α) : α := m.x.dot (m.y.cross m.z)

/-- The identity matrix. -/
def one [Zero α] [One α] : M3 α := ⟨⟨1, 0, 0⟩, ⟨0, 1, 0⟩, ⟨0, 0, 1⟩⟩

/-- A matrix is symmetric. -/
def IsSymm (m : M3 α) : Prop := m.transpose = m

/-- A proper rotation: orthogonal with determinant one. -/
def IsRotation [Mul α] [Add α] [Sub α] [Zero α] [One α] (m : M3 α) : Prop :=
  mul (transpose m) m = one ∧ det m = 1

end M3

end Verif
