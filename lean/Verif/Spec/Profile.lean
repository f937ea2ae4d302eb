import Verif.Spec.Vec

/-! # A survey line above a buried body; independent of the model -/

namespace Verif

/-- The point of a horizontal line that runs at the height `h` above `centre`, in the direction of the angle with cosine `c` and sine `s`, at the distance `x` from
the point above the centre. -/
def profile (centre : V3 ℝ) (c s h x : ℝ) : V3 ℝ := ⟨centre.x + x * c, centre.y + x * s, centre.z + h⟩

end Verif
