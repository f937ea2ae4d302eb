import Verif.Spec.Motion

/-!
# Mirror images (specification)

Every isometry of space that is not a rigid motion is a reflection in the plane `y = 0` followed by a rigid motion.  Displacements,
forces, currents and electric fields are reflected with the points (*polar* vectors); the directions of magnetic moments and magnetic
fields, which stand for senses of rotation, are reflected and reversed (*axial* vectors).
-/

namespace Verif

namespace V3

/-- Reflected in the plane `y = 0`. -/
def flip {α : Type*} [Neg α] (v : V3 α) : V3 α := ⟨v.x, -v.y, v.z⟩

/-- Reflected and reversed. -/
def antiflip {α : Type*} [Neg α] (v : V3 α) : V3 α := ⟨-v.x, v.y, -v.z⟩

end V3

namespace Motion

variable (g : Motion)

/-- The mirror image of a point. -/
def mirror (p : V3 ℝ) : V3 ℝ := g.act p.flip

/-- The mirror image of a polar vector. -/
def polar (v : V3 ℝ) : V3 ℝ := g.turn v.flip

/-- The mirror image of an axial vector. -/
def axial (v : V3 ℝ) : V3 ℝ := g.turn v.antiflip

/-- The same for complex amplitudes. -/
noncomputable def polarC (v : V3 ℂ) : V3 ℂ := g.turnC v.flip

/-- The same for complex amplitudes. -/
noncomputable def axialC (v : V3 ℂ) : V3 ℂ := g.turnC v.antiflip

/-- The mirror image of a tensor of polar vectors. -/
def mirrorT (T : M3 ℝ) : M3 ℝ := g.turnT ⟨⟨T.x.x, -T.x.y, T.x.z⟩, ⟨-T.y.x, T.y.y, -T.y.z⟩, ⟨T.z.x, -T.z.y, T.z.z⟩⟩

end Motion

end Verif
