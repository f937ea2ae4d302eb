import Verif.Spec.Motion
import Verif.Lemmas.LineSegment

/-! # Rigid motions (helper lemmas) -/

namespace Verif

namespace M3

/-- The rows of a rotation are orthonormal. -/
theorem IsRotation.rows {m : M3 ℝ} (h : m.IsRotation) :
    m.x.x ^ 2 + m.x.y ^ 2 + m.x.z ^ 2 = 1 ∧ m.y.x ^ 2 + m.y.y ^ 2 + m.y.z ^ 2 = 1 ∧
    m.z.x ^ 2 + m.z.y ^ 2 + m.z.z ^ 2 = 1 ∧ m.x.x * m.y.x + m.x.y * m.y.y + m.x.z * m.y.z = 0 ∧
    m.x.x * m.z.x + m.x.y * m.z.y + m.x.z * m.z.z = 0 ∧
    m.y.x * m.z.x + m.y.y * m.z.y + m.y.z * m.z.z = 0 := by
  obtain ⟨h1, h2, h3, h4, h5, h6⟩ := h.cols
  have hd := h.2
  simp only [det, V3.dot, V3.cross] at hd
  have key : ∀ a b c d e f p q r : ℝ, a ^ 2 + d ^ 2 + p ^ 2 = 1 → b ^ 2 + e ^ 2 + q ^ 2 = 1 → c ^ 2 + f ^ 2 + r ^ 2 = 1 →
      a * b + d * e + p * q = 0 → a * c + d * f + p * r = 0 → b * c + e * f + q * r = 0 →
      a * (e * r - f * q) + b * (f * p - d * r) + c * (d * q - e * p) = 1 →
      (a = e * r - f * q ∧ b = f * p - d * r ∧ c = d * q - e * p) := by
    intro a b c d e f p q r g1 g2 g3 g4 g5 g6 g7
    refine ⟨?_, ?_, ?_⟩ <;> grind
  have k1 := key _ _ _ _ _ _ _ _ _ h1 h2 h3 h4 h5 h6 hd
  have k2 := key m.y.x m.y.y m.y.z m.z.x m.z.y m.z.z m.x.x m.x.y m.x.z (by linarith) (by linarith) (by linarith) (by linarith)
    (by linarith) (by linarith) (by linarith)
  have k3 := key m.z.x m.z.y m.z.z m.x.x m.x.y m.x.z m.y.x m.y.y m.y.z (by linarith) (by linarith) (by linarith) (by linarith)
    (by linarith) (by linarith) (by linarith)
  obtain ⟨a1, a2, a3⟩ := k1
  obtain ⟨b1, b2, b3⟩ := k2
  obtain ⟨c1, c2, c3⟩ := k3
  refine ⟨?_, ?_, ?_, ?_, ?_, ?_⟩
  · linear_combination hd + m.x.x * a1 + m.x.y * a2 + m.x.z * a3
  · linear_combination hd + m.y.x * b1 + m.y.y * b2 + m.y.z * b3
  · linear_combination hd + m.z.x * c1 + m.z.y * c2 + m.z.z * c3
  · linear_combination m.y.x * a1 + m.y.y * a2 + m.y.z * a3
  · linear_combination m.z.x * a1 + m.z.y * a2 + m.z.z * a3
  · linear_combination m.z.x * b1 + m.z.y * b2 + m.z.z * b3

theorem IsRotation.mulVec_transpose {m : M3 ℝ} (h : m.IsRotation) (v : V3 ℝ) :
    m.mulVec (m.transpose.mulVec v) = v := by
  obtain ⟨h1, h2, h3, h4, h5, h6⟩ := h.rows
  ext <;> simp only [mulVec, transpose, V3.dot]
  · linear_combination v.x * h1 + v.y * h4 + v.z * h5
  · linear_combination v.x * h4 + v.y * h2 + v.z * h6
  · linear_combination v.x * h5 + v.y * h6 + v.z * h3

end M3

namespace Motion

variable (g : Motion)

theorem turn_sub (a b : V3 ℝ) : g.turn (a - b) = g.turn a - g.turn b := M3.mulVec_sub _ _ _
theorem turn_add (a b : V3 ℝ) : g.turn (a + b) = g.turn a + g.turn b := M3.mulVec_add _ _ _
theorem turn_smul (c : ℝ) (a : V3 ℝ) : g.turn (c • a) = c • g.turn a := M3.mulVec_smul _ _ _

theorem act_sub (p q : V3 ℝ) : g.act p - g.act q = g.turn (p - q) := by
  rw [turn_sub, act, act, turn, turn]; abel

theorem turn_len (v : V3 ℝ) : (g.turn v).len = v.len := g.isRot.len v
theorem turn_dot (v w : V3 ℝ) : (g.turn v).dot (g.turn w) = v.dot w := g.isRot.dot v w

theorem turn_cross (v w : V3 ℝ) : (g.turn v).cross (g.turn w) = g.turn (v.cross w) := by
  have := congrArg g.rot.mulVec (M3.transpose_cross g.rot v w)
  rw [g.isRot.mulVec_transpose, g.isRot.2, one_smul] at this
  exact this

theorem turn_zero : g.turn 0 = 0 := by ext <;> simp [turn, M3.mulVec, V3.dot]

/-- Multiplying every component by the same number. -/
theorem turn_map (v : V3 ℝ) (f : ℝ → ℝ) (k : ℝ) (hf : ∀ c, f c = k * c) : g.turn (v.map f) = (g.turn v).map f := by
  ext <;> simp only [turn, M3.mulVec, V3.dot, V3.map, hf] <;> ring

theorem turnC_map (v : V3 ℝ) (f : ℝ → ℂ) (k : ℂ) (hf : ∀ c, f c = k * c) : g.turnC (v.map f) = (g.turn v).map f := by
  ext <;> simp only [turn, turnC, M3.mulVec, V3.dot, V3.map, hf] <;> push_cast <;> ring

theorem turnC_mapC (v : V3 ℂ) (f : ℂ → ℂ) (k : ℂ) (hf : ∀ c, f c = k * c) : g.turnC (v.map f) = (g.turnC v).map f := by
  ext <;> simp only [turnC, M3.mulVec, V3.dot, V3.map, hf] <;> ring

theorem turnC_add (v w : V3 ℂ) : g.turnC (v + w) = g.turnC v + g.turnC w := by
  ext <;> simp only [turnC, M3.mulVec, V3.dot, V3.map, V3.add_x, V3.add_y, V3.add_z] <;> ring

theorem turnC_sub (v w : V3 ℂ) : g.turnC (v - w) = g.turnC v - g.turnC w := by
  ext <;> simp only [turnC, M3.mulVec, V3.dot, V3.map, V3.sub_x, V3.sub_y, V3.sub_z] <;> ring

theorem turnC_smul (c : ℂ) (v : V3 ℂ) : g.turnC (c • v) = c • g.turnC v := by
  ext <;> simp only [turnC, M3.mulVec, V3.dot, V3.map, V3.smul_x, V3.smul_y, V3.smul_z, smul_eq_mul] <;> ring

theorem act_injective {p q : V3 ℝ} : g.act p = g.act q ↔ p = q := by
  constructor
  · intro h
    have : (p - q).len = 0 := by
      rw [← g.turn_len, ← act_sub, h, sub_self]; simp [V3.len]
    exact sub_eq_zero.1 (V3.len_eq_zero.1 this)
  · rintro rfl; rfl

/-- The entries of a rotation about the vertical. -/
theorem Horizontal.entries {g : Motion} (h : g.Horizontal) :
    g.rot.x.z = 0 ∧ g.rot.y.z = 0 ∧ g.rot.z.x = 0 ∧ g.rot.z.y = 0 ∧ g.rot.z.z = 1 := by
  obtain ⟨h1, -⟩ := h
  have hx := congrArg V3.x h1
  have hy := congrArg V3.y h1
  have hz := congrArg V3.z h1
  simp only [M3.mulVec, V3.dot] at hx hy hz
  obtain ⟨-, -, r3, -⟩ := g.isRot.rows
  have hz' : g.rot.z.z = 1 := by linarith
  rw [hz'] at r3
  refine ⟨by linarith, by linarith, ?_, ?_, hz'⟩ <;> nlinarith [sq_nonneg g.rot.z.x, sq_nonneg g.rot.z.y]

theorem Horizontal.act_z {g : Motion} (h : g.Horizontal) (p : V3 ℝ) : (g.act p).z = p.z := by
  obtain ⟨-, -, h1, h2, h3⟩ := h.entries
  simp only [act, M3.mulVec, V3.dot, V3.add_z, h.2, h1, h2, h3]; ring

theorem Horizontal.turn_z {g : Motion} (h : g.Horizontal) (p : V3 ℝ) : (g.turn p).z = p.z := by
  obtain ⟨-, -, h1, h2, h3⟩ := h.entries
  simp only [turn, M3.mulVec, V3.dot, h1, h2, h3]; ring

/-- A rotation about the vertical in terms of a cosine and a sine. -/
theorem Horizontal.plane {g : Motion} (h : g.Horizontal) :
    g.rot.y.y = g.rot.x.x ∧ g.rot.x.y = -g.rot.y.x ∧ g.rot.x.x ^ 2 + g.rot.y.x ^ 2 = 1 := by
  obtain ⟨h1, h2, h3, h4, h5⟩ := h.entries
  obtain ⟨c1, c2, -, c4, -, -⟩ := g.isRot.cols
  have hd := g.isRot.2
  simp only [M3.det, V3.dot, V3.cross, h1, h2, h3, h4, h5] at hd
  rw [h3] at c1 c4
  rw [h4] at c2
  refine ⟨?_, ?_, by linarith⟩ <;> grind

end Motion

end Verif
