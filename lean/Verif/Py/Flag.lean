import Mathlib.Data.Int.Notation

/-! # Python values used as flags -/

namespace Verif

/-- The Python objects that callers pass as a flag: the two `bool` singletons, an `int`, a numpy `bool_`, `None`. -/
inductive Flag where
  | bool (b : Bool)
  | int (n : ℤ)
  | npBool (b : Bool)
  | none
  deriving DecidableEq

/-- `flag is True`: identity with the singleton, so only the `bool` itself. -/
def Flag.isTrue : Flag → Bool
  | .bool b => b
  | _ => false

/-- `bool(flag)`, used by `if flag:`. -/
def Flag.truthy : Flag → Bool
  | .bool b => b
  | .int n => n != 0
  | .npBool b => b
  | .none => false

end Verif
