import Verif.Spec.Mirror
import Verif.Lemmas.Motion

/-! # Mirror images (helper lemmas) -/

namespace Verif

namespace V3

theorem flip_len (v : V3 ℝ) : v.flip.len = v.len := by simp [flip, len]
theorem antiflip_len (v : V3 ℝ) : v.antiflip.len = v.len := by simp [antiflip, len]
theorem flip_dot (v w : V3 ℝ) : v.flip.dot w.flip = v.dot w := by simp [flip, dot]
theorem antiflip_dot (v w : V3 ℝ) : v.antiflip.dot w.antiflip = v.dot w := by simp [antiflip, dot]
theorem antiflip_dot_flip (v w : V3 ℝ) : v.antiflip.dot w.flip = -v.dot w := by simp [antiflip, flip, dot]; ring
theorem flip_cross (v w : V3 ℝ) : v.flip.cross w.flip = (v.cross w).antiflip := by ext <;> simp [antiflip, flip] <;> ring
theorem antiflip_cross (v w : V3 ℝ) : v.antiflip.cross w.antiflip = (v.cross w).antiflip := by ext <;> simp [antiflip] <;> ring
theorem antiflip_cross_flip (v w : V3 ℝ) : v.antiflip.cross w.flip = (v.cross w).flip := by ext <;> simp [antiflip, flip] <;> ring
theorem flip_cross_antiflip (v w : V3 ℝ) : v.flip.cross w.antiflip = (v.cross w).flip := by ext <;> simp [antiflip, flip] <;> ring
theorem flip_flip (v : V3 ℝ) : v.flip.flip = v := by simp [flip]
theorem antiflip_eq (v : V3 ℝ) : v.antiflip = -v.flip := by ext <;> simp [antiflip, flip]

end V3

namespace Motion

variable (g : Motion)

theorem mirror_sub (p q : V3 ℝ) : g.mirror p - g.mirror q = g.polar (p - q) := by
  rw [mirror, mirror, act_sub, polar]
  congr 1
  ext <;> simp [V3.flip]
  ring

theorem polar_len (v : V3 ℝ) : (g.polar v).len = v.len := by rw [polar, turn_len, V3.flip_len]
theorem axial_len (v : V3 ℝ) : (g.axial v).len = v.len := by rw [axial, turn_len, V3.antiflip_len]
theorem polar_dot (v w : V3 ℝ) : (g.polar v).dot (g.polar w) = v.dot w := by rw [polar, polar, turn_dot, V3.flip_dot]
theorem axial_dot (v w : V3 ℝ) : (g.axial v).dot (g.axial w) = v.dot w := by rw [axial, axial, turn_dot, V3.antiflip_dot]
theorem axial_dot_polar (v w : V3 ℝ) : (g.axial v).dot (g.polar w) = -v.dot w := by rw [axial, polar, turn_dot, V3.antiflip_dot_flip]
theorem polar_dot_axial (v w : V3 ℝ) : (g.polar v).dot (g.axial w) = -v.dot w := by
  rw [axial, polar, turn_dot, V3.antiflip_eq]; simp [V3.dot, V3.flip]; ring
theorem polar_cross (v w : V3 ℝ) : (g.polar v).cross (g.polar w) = g.axial (v.cross w) := by
  rw [polar, polar, turn_cross, V3.flip_cross, axial]
theorem axial_cross (v w : V3 ℝ) : (g.axial v).cross (g.axial w) = g.axial (v.cross w) := by
  rw [axial, axial, turn_cross, V3.antiflip_cross, axial]
theorem axial_cross_polar (v w : V3 ℝ) : (g.axial v).cross (g.polar w) = g.polar (v.cross w) := by
  rw [axial, polar, turn_cross, V3.antiflip_cross_flip, polar]
theorem polar_cross_axial (v w : V3 ℝ) : (g.polar v).cross (g.axial w) = g.polar (v.cross w) := by
  rw [axial, polar, turn_cross, V3.flip_cross_antiflip, polar]
theorem axial_eq (v : V3 ℝ) : g.axial v = -g.polar v := by
  rw [axial, polar, V3.antiflip_eq]; ext <;> simp [turn, M3.mulVec, V3.dot] <;> ring

theorem polar_sub (a b : V3 ℝ) : g.polar (a - b) = g.polar a - g.polar b := by
  rw [polar, polar, polar, ← turn_sub]; congr 1; ext <;> simp [V3.flip]; ring
theorem polar_add (a b : V3 ℝ) : g.polar (a + b) = g.polar a + g.polar b := by
  rw [polar, polar, polar, ← turn_add]; congr 1; ext <;> simp [V3.flip]; ring
theorem polar_smul (c : ℝ) (a : V3 ℝ) : g.polar (c • a) = c • g.polar a := by
  rw [polar, polar, ← turn_smul]; congr 1; ext <;> simp [V3.flip]
theorem polar_zero : g.polar 0 = 0 := by rw [polar, show (0 : V3 ℝ).flip = 0 by ext <;> simp [V3.flip], turn_zero]
theorem axial_sub (a b : V3 ℝ) : g.axial (a - b) = g.axial a - g.axial b := by
  simp only [axial_eq, polar_sub]; abel
theorem axial_add (a b : V3 ℝ) : g.axial (a + b) = g.axial a + g.axial b := by
  simp only [axial_eq, polar_add]; abel
theorem axial_smul (c : ℝ) (a : V3 ℝ) : g.axial (c • a) = c • g.axial a := by
  simp only [axial_eq, polar_smul, smul_neg]
theorem axial_zero : g.axial 0 = 0 := by rw [axial_eq, polar_zero, neg_zero]

theorem polar_map (v : V3 ℝ) (f : ℝ → ℝ) (k : ℝ) (hf : ∀ c, f c = k * c) : g.polar (v.map f) = (g.polar v).map f := by
  have h : ∀ v : V3 ℝ, v.map f = k • v := fun v => by ext <;> simp [hf]
  rw [h, h, polar_smul]

theorem axial_map (v : V3 ℝ) (f : ℝ → ℝ) (k : ℝ) (hf : ∀ c, f c = k * c) : g.axial (v.map f) = (g.axial v).map f := by
  have h : ∀ v : V3 ℝ, v.map f = k • v := fun v => by ext <;> simp [hf]
  rw [h, h, axial_smul]

theorem polarC_map (v : V3 ℝ) (f : ℝ → ℂ) (k : ℂ) (hf : ∀ c, f c = k * c) : g.polarC (v.map f) = (g.polar v).map f := by
  rw [polar, ← turnC_map g _ f k hf, polarC]
  congr 1
  ext <;> simp [V3.flip, hf]

theorem axialC_map (v : V3 ℝ) (f : ℝ → ℂ) (k : ℂ) (hf : ∀ c, f c = k * c) : g.axialC (v.map f) = (g.axial v).map f := by
  rw [axial, ← turnC_map g _ f k hf, axialC]
  congr 1
  ext <;> simp [V3.antiflip, hf]

theorem polarC_mapC (v : V3 ℂ) (f : ℂ → ℂ) (k : ℂ) (hf : ∀ c, f c = k * c) : g.polarC (v.map f) = (g.polarC v).map f := by
  rw [polarC, polarC, ← turnC_mapC g _ f k hf]
  congr 1
  ext <;> simp [V3.flip, hf]

theorem axialC_mapC (v : V3 ℂ) (f : ℂ → ℂ) (k : ℂ) (hf : ∀ c, f c = k * c) : g.axialC (v.map f) = (g.axialC v).map f := by
  rw [axialC, axialC, ← turnC_mapC g _ f k hf]
  congr 1
  ext <;> simp [V3.antiflip, hf]

theorem polarC_add (v w : V3 ℂ) : g.polarC (v + w) = g.polarC v + g.polarC w := by
  rw [polarC, polarC, polarC, ← turnC_add]; congr 1; ext <;> simp [V3.flip]; ring

theorem axialC_add (v w : V3 ℂ) : g.axialC (v + w) = g.axialC v + g.axialC w := by
  rw [axialC, axialC, axialC, ← turnC_add]; congr 1; ext <;> simp [V3.antiflip] <;> ring

theorem mirror_injective {p q : V3 ℝ} : g.mirror p = g.mirror q ↔ p = q := by
  rw [mirror, mirror, act_injective]
  constructor
  · intro h
    rw [← V3.flip_flip p, h, V3.flip_flip]
  · rintro rfl; rfl

theorem Horizontal.mirror_z {g : Motion} (h : g.Horizontal) (p : V3 ℝ) : (g.mirror p).z = p.z := by
  rw [mirror, h.act_z]; rfl

/-- A reflection in the plane through `a` with the unit normal `n` is of this kind. -/
theorem plane_mirror (a n : V3 ℝ) (hn : n.len = 1) : ∃ g : Motion, ∀ p, g.mirror p = p - (2 * n.dot (p - a)) • n := by
  have h : n.x ^ 2 + n.y ^ 2 + n.z ^ 2 = 1 := by rw [← V3.len_sq, hn, one_pow]
  refine ⟨⟨⟨⟨1 - 2 * n.x ^ 2, 2 * n.x * n.y, -2 * n.x * n.z⟩, ⟨-2 * n.x * n.y, -(1 - 2 * n.y ^ 2), -2 * n.y * n.z⟩,
    ⟨-2 * n.x * n.z, 2 * n.y * n.z, 1 - 2 * n.z ^ 2⟩⟩, (2 * n.dot a) • n, ?_, ?_⟩, fun p => ?_⟩
  · simp only [M3.mul, M3.transpose, M3.one, M3.mulVec, V3.dot, V3.mk.injEq]
    refine ⟨⟨?_, ?_, ?_⟩, ⟨?_, ?_, ?_⟩, ?_, ?_, ?_⟩ <;> grind
  · simp only [M3.det, V3.dot, V3.cross]
    grind
  · ext <;> simp only [mirror, act, M3.mulVec, V3.flip, V3.dot, V3.add_x, V3.add_y, V3.add_z, V3.sub_x, V3.sub_y, V3.sub_z, V3.smul_x,
      V3.smul_y, V3.smul_z, smul_eq_mul] <;> ring

end Motion

end Verif
