import Verif.Model.SharedArrays

/-!
# What it means that an object changes only by assignment
-/

namespace Verif.SharedArrays

/-- The attributes that keep the memory of a float array they are assigned; all others copy it. -/
def Attr.Keeps (a : Attr) : Prop :=
  a = .massLocation ∨ a = .minLocation ∨ a = .maxLocation ∨ a = .magnetization ∨ a = .frequency ∨ a = .time

/-- The operations after which somebody else may hold the array of attribute `a` of object `i`. -/
def Op.Exposes (i : ℕ) (a : Attr) : Op → Prop
  | .get j b => j = i ∧ b = a
  | .assign j b (.array _) => j = i ∧ b = a ∧ a.Keeps
  | _ => False

open Classical in
/-- The contents of attribute `a` of object `i` after an operation, if only assignments to it can change it. -/
noncomputable def assigned (i : ℕ) (a : Attr) (w : World) (v : Data) : Op → Data
  | .assign j b x =>
    match x.content w.heap w.arrays with
    | some u => if j = i ∧ b = a ∧ a.Accepts u then u else v
    | none => v
  | _ => v

/-- The contents of attribute `a` of object `i` after a history, if only assignments to it can change it. -/
noncomputable def expected (i : ℕ) (a : Attr) : World → Data → List Op → Data
  | _, v, [] => v
  | w, v, o :: ops => expected i a (step w o) (assigned i a w v o) ops

/-- **The property.** From the moment an object is built, each of its array attributes holds the last value assigned to it
(the constructor's argument to begin with), whatever else happens. -/
def ChangesOnlyByAssignment (a : Attr) : Prop :=
  ∀ (before : List Op) (c : Cls) (args : Attr → Arg) (after : List Op) (v : Data), a ∈ c.attrs →
    (args a).content (run World.init before).heap (run World.init before).arrays = some v →
    let i := (run World.init before).objects.length
    let w := run World.init (before ++ [.build c args])
    w.objects.length = i + 1 →
    (run w after).read i a = some (expected i a w v after)

end Verif.SharedArrays
