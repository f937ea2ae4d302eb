import Verif.Spec.Coil

/-! # Specification: how often a wire runs through a coil -/

namespace Verif

/-- The straight way from `a` to `b` runs through the inside of the coil with the corner `o` and the sides `u` and `v`, from the side that
`u × v` points away from to the side it points to. -/
structure Rises (o u v a b : V3 ℝ) : Prop where
  below : (a - o).dot (u.cross v) < 0
  above : 0 < (b - o).dot (u.cross v)
  through : ∃ t s r : ℝ, 0 < s ∧ s < 1 ∧ 0 < r ∧ r < 1 ∧ a + t • (b - a) = o + s • u + r • v

/-- How often the straight way from `a` to `b` runs upwards through the coil: `1`, `-1` for a way downwards, or `0` if it misses the coil. -/
inductive Crosses (o u v a b : V3 ℝ) : ℤ → Prop
  | past (h : ∀ t ∈ Set.Icc (0 : ℝ) 1, a + t • (b - a) ∉ coil o u v) : Crosses o u v a b 0
  | up (h : Rises o u v a b) : Crosses o u v a b 1
  | down (h : Rises o u v b a) : Crosses o u v a b (-1)

/-- How often the way through the nodes runs upwards through the coil, downwards counting `-1`. -/
inductive Crossings (o u v : V3 ℝ) : List (V3 ℝ) → ℤ → Prop
  | nil : Crossings o u v [] 0
  | one (a : V3 ℝ) : Crossings o u v [a] 0
  | step {a b : V3 ℝ} {rest : List (V3 ℝ)} {k n : ℤ} (h : Crosses o u v a b k) (hs : Crossings o u v (b :: rest) n) :
      Crossings o u v (a :: b :: rest) (k + n)

/-- The points of the wire of a coil. -/
def rim (o u v : V3 ℝ) : Set (V3 ℝ) :=
  {p | ∃ s ∈ Set.Icc (0 : ℝ) 1, ∃ t ∈ Set.Icc (0 : ℝ) 1, (s = 0 ∨ s = 1 ∨ t = 0 ∨ t = 1) ∧ p = o + s • u + t • v}

end Verif
