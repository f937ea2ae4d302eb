import Verif.Spec.Coil

/-! # Specification: the integral of a field along a path made of straight pieces -/

namespace Verif

variable {E : Type*} [NormedAddCommGroup E] [NormedSpace ℝ E]

/-- The integral of `F` along the path from the first node over the others, in their order, to the last. -/
noncomputable def work (F : V3 ℝ → V3 E) : List (V3 ℝ) → E
  | a :: b :: rest => along F a (b - a) + work F (b :: rest)
  | _ => 0

/-- The points of the path. -/
def path : List (V3 ℝ) → Set (V3 ℝ)
  | a :: b :: rest => {p | ∃ t ∈ Set.Icc (0 : ℝ) 1, p = a + t • (b - a)} ∪ path (b :: rest)
  | [a] => {a}
  | [] => ∅

end Verif
