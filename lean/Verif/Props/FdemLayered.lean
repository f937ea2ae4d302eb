import Verif.Lemmas.FdemLayered
import Verif.Props.FdemHalfspace
import Verif.Props.Reflection

/-! # Magnetic dipole over a layered earth (C53) -/

namespace Verif.Fdem

open Complex (I)
open Spatial

variable (filter : List Tap) (mu0 : ℝ) (s : LayeredDipole)

/-- **C53.** The field is refused if any of the points is below the surface, and otherwise is the field at each point by itself. -/
theorem layered_points (points : List (V3 ℝ)) (field : String) :
    ((∃ p ∈ points, p.z < 0) → s.magneticField filter mu0 points field = .error .valueError) ∧
    ((∀ p ∈ points, 0 ≤ p.z) → ∃ H, s.magneticField filter mu0 points field = .ok H ∧ H.length = points.length ∧
      ∀ i (h : i < points.length) (h' : i < H.length), H[i] = s.fieldAt filter mu0 points[i] field) := by
  refine ⟨fun h => if_pos h, fun h => ⟨_, if_neg (by push Not; exact h), by simp, fun i h h' => by simp⟩⟩

/-- **C53.** The total field is the secondary field plus the static field which the same dipole has in free space. -/
theorem layered_total_secondary (p : V3 ℝ) (mu : ℝ) (hmu : mu ≠ 0) (hp : p ≠ s.location) :
    s.fieldAt filter mu0 p "total" = s.fieldAt filter mu0 p "secondary" +
      ofReal ((⟨mu, s.moment, s.location, s.orientation⟩ : Static.MagDipole).magneticField p) := by
  obtain ⟨A, B, C, D, h⟩ := fieldAt_form filter (s.rTE mu0) (Real.sqrt ((p.x - s.location.x) ^ 2 + (p.y - s.location.y) ^ 2))
    (p.z + s.location.z)
  have hr : 0 < (p - s.location).len := V3.len_sub_pos hp
  rw [h mu0 s p rfl rfl rfl, h mu0 s p rfl rfl rfl]
  simp only [if_true, if_neg (show ¬ ("secondary" = "total") by decide), add_zero, smul_add, add_right_inj]
  simp only [Static.MagDipole.magneticField, Static.MagDipole.magneticFluxDensity, ofReal]
  generalize (p - s.location).len = r at *
  have hr0 : (r : ℂ) ≠ 0 := by exact_mod_cast hr.ne'
  have hm0 : (mu : ℂ) ≠ 0 := by exact_mod_cast hmu
  have hpi : (Real.pi : ℂ) ≠ 0 := by exact_mod_cast Real.pi_ne_zero
  ext <;> simp [V3.dot, V3.map] <;> field_simp

/-- **C53.** Any word other than `"total"` gives the secondary field. -/
theorem layered_other_word (p : V3 ℝ) {field : String} (hf : field ≠ "total") :
    s.fieldAt filter mu0 p field = s.fieldAt filter mu0 p "secondary" := by
  simp only [LayeredDipole.fieldAt, if_neg hf, if_neg (show ¬ ("secondary" = "total") by decide)]

/-- **C53.** The field is linear in moment and orientation. -/
theorem layered_linear (p : V3 ℝ) (m1 m2 : ℝ) (o1 o2 : V3 ℝ) (field : String) :
    ({ s with moment := 1, orientation := m1 • o1 + m2 • o2 } : LayeredDipole).fieldAt filter mu0 p field =
      ({ s with moment := m1, orientation := o1 } : LayeredDipole).fieldAt filter mu0 p field +
      ({ s with moment := m2, orientation := o2 } : LayeredDipole).fieldAt filter mu0 p field := by
  obtain ⟨A, B, C, D, h⟩ := fieldAt_form filter (s.rTE mu0) (Real.sqrt ((p.x - s.location.x) ^ 2 + (p.y - s.location.y) ^ 2))
    (p.z + s.location.z)
  rw [h mu0 ({ s with moment := 1, orientation := m1 • o1 + m2 • o2 } : LayeredDipole) p rfl rfl rfl,
    h mu0 ({ s with moment := m1, orientation := o1 } : LayeredDipole) p rfl rfl rfl,
    h mu0 ({ s with moment := m2, orientation := o2 } : LayeredDipole) p rfl rfl rfl]
  by_cases hf : field = "total"
  · simp only [hf, if_true]
    ext <;> simp <;> ring
  · simp only [hf, if_false]
    ext <;> simp <;> ring

/-- **C53.** Turning the source, its orientation and the point about the vertical axis turns the field. -/
theorem layered_turns (p : V3 ℝ) (a : ℝ) (field : String) :
    ({ s with location := turn a s.location, orientation := turn a s.orientation } : LayeredDipole).fieldAt filter mu0 (turn a p) field =
      turnC a (s.fieldAt filter mu0 p field) := by
  obtain ⟨A, B, C, D, h⟩ := fieldAt_form filter (s.rTE mu0) (Real.sqrt ((p.x - s.location.x) ^ 2 + (p.y - s.location.y) ^ 2))
    (p.z + s.location.z)
  have ex : (turn a p).x - (turn a s.location).x = Real.cos a * (p.x - s.location.x) - Real.sin a * (p.y - s.location.y) := by
    simp only [turn]; ring
  have ey : (turn a p).y - (turn a s.location).y = Real.sin a * (p.x - s.location.x) + Real.cos a * (p.y - s.location.y) := by
    simp only [turn]; ring
  have ez : (turn a p).z - (turn a s.location).z = p.z - s.location.z := rfl
  have hlen : (turn a p - turn a s.location).len = (p - s.location).len := by
    simp only [V3.len, V3.sub_x, V3.sub_y, V3.sub_z, ex, ey, ez]
    congr 1
    linear_combination ((p.x - s.location.x) ^ 2 + (p.y - s.location.y) ^ 2) * Real.cos_sq_add_sin_sq a
  have hdot : (turn a s.orientation).x * (Real.cos a * (p.x - s.location.x) - Real.sin a * (p.y - s.location.y)) +
      (turn a s.orientation).y * (Real.sin a * (p.x - s.location.x) + Real.cos a * (p.y - s.location.y)) =
      s.orientation.x * (p.x - s.location.x) + s.orientation.y * (p.y - s.location.y) := by
    simp only [turn]
    linear_combination (s.orientation.x * (p.x - s.location.x) + s.orientation.y * (p.y - s.location.y)) * Real.cos_sq_add_sin_sq a
  rw [h mu0 s p rfl rfl rfl,
    h mu0 ({ s with location := turn a s.location, orientation := turn a s.orientation } : LayeredDipole) (turn a p) rfl
      (by simp only [ex, ey]; exact sqrt_turn a _ _) rfl]
  simp only [ex, ey, ez, hlen, hdot]
  by_cases hf : field = "total"
  · simp only [hf, if_true]
    ext <;> simp only [turn, turnC, V3.smul_x, V3.smul_y, V3.smul_z, smul_eq_mul, V3.add_x, V3.add_y, V3.add_z, V3.map_x, V3.map_y,
      V3.map_z] <;> push_cast <;> ring
  · simp only [hf, if_false]
    ext <;> simp only [turn, turnC, V3.smul_x, V3.smul_y, V3.smul_z, smul_eq_mul, V3.add_x, V3.add_y, V3.add_z, V3.zero_x, V3.zero_y,
      V3.zero_z] <;> push_cast <;> ring

/-- **C53.** Moving source and point together horizontally does not change the field, and the secondary field stays the same
when the source is raised as much as the point is lowered. -/
theorem layered_moves (p : V3 ℝ) (dx dy dz : ℝ) (field : String) :
    ({ s with location := s.location + ⟨dx, dy, 0⟩ } : LayeredDipole).fieldAt filter mu0 (p + ⟨dx, dy, 0⟩) field = s.fieldAt filter mu0 p field ∧
    ({ s with location := s.location + ⟨0, 0, dz⟩ } : LayeredDipole).fieldAt filter mu0 (p - ⟨0, 0, dz⟩) "secondary" =
      s.fieldAt filter mu0 p "secondary" := by
  obtain ⟨A, B, C, D, h⟩ := fieldAt_form filter (s.rTE mu0) (Real.sqrt ((p.x - s.location.x) ^ 2 + (p.y - s.location.y) ^ 2))
    (p.z + s.location.z)
  constructor
  · have e : p + ⟨dx, dy, 0⟩ - (s.location + ⟨dx, dy, 0⟩) = p - s.location := add_sub_add_right_eq_sub _ _ _
    rw [h mu0 s p rfl rfl rfl, h mu0 ({ s with location := s.location + ⟨dx, dy, 0⟩ } : LayeredDipole) (p + ⟨dx, dy, 0⟩) rfl (by simp) (by simp)]
    simp only [V3.add_x, V3.add_y, V3.add_z, add_sub_add_right_eq_sub, e]
  · rw [h mu0 s p rfl rfl rfl, h mu0 ({ s with location := s.location + ⟨0, 0, dz⟩ } : LayeredDipole) (p - ⟨0, 0, dz⟩) rfl (by simp) (by simp)]
    simp only [if_neg (show ¬ ("secondary" = "total") by decide), V3.sub_x, V3.sub_y, V3.add_x, V3.add_y, sub_zero, add_zero]

/-- **C53.** Reciprocity: component `b` of the field of a source along `a` is component `a` of the field of a source along `b` with
source and receiver exchanged. -/
theorem layered_reciprocal (p : V3 ℝ) (a b : V3 ℝ) (field : String) :
    (ofReal b).dot (({ s with orientation := a } : LayeredDipole).fieldAt filter mu0 p field) =
      (ofReal a).dot (({ s with orientation := b, location := p } : LayeredDipole).fieldAt filter mu0 s.location field) := by
  obtain ⟨A, B, C, D, h⟩ := fieldAt_form filter (s.rTE mu0) (Real.sqrt ((p.x - s.location.x) ^ 2 + (p.y - s.location.y) ^ 2))
    (p.z + s.location.z)
  have hlen : (s.location - p).len = (p - s.location).len := by
    simp only [V3.len, V3.sub_x, V3.sub_y, V3.sub_z]
    congr 1
    ring
  rw [h mu0 ({ s with orientation := a } : LayeredDipole) p rfl rfl rfl,
    h mu0 ({ s with orientation := b, location := p } : LayeredDipole) s.location rfl (by simp only; congr 1; ring) (by simp only; ring)]
  simp only [hlen]
  by_cases hf : field = "total"
  · simp only [hf, if_true, V3.dot, ofReal, V3.map_x, V3.map_y, V3.map_z, V3.smul_x, V3.smul_y, V3.smul_z, smul_eq_mul, V3.add_x,
      V3.add_y, V3.add_z]
    push_cast
    ring
  · simp only [hf, if_false, V3.dot, ofReal, V3.map_x, V3.map_y, V3.map_z, V3.smul_x, V3.smul_y, V3.smul_z, smul_eq_mul, V3.add_x,
      V3.add_y, V3.add_z, V3.zero_x, V3.zero_y, V3.zero_z]
    push_cast
    ring

/-- Two earths with the same reflection coefficient at the wave numbers used give the same field. -/
private theorem fieldAt_congr (t : LayeredDipole) (p : V3 ℝ) (field : String) (hl : s.location = t.location)
    (ho : s.orientation = t.orientation) (hm : s.moment = t.moment)
    (h : ∀ a ∈ filter, s.rTE mu0 (a.base / Real.sqrt ((p.x - s.location.x) ^ 2 + (p.y - s.location.y) ^ 2)) =
      t.rTE mu0 (a.base / Real.sqrt ((p.x - s.location.x) ^ 2 + (p.y - s.location.y) ^ 2))) :
    s.fieldAt filter mu0 p field = t.fieldAt filter mu0 p field := by
  have key : ∀ (c : Tap → ℝ) (w : Tap → ℝ) (e : Tap → ℝ), transform filter (fun u => ((c u : ℝ) : ℂ) *
      (s.rTE mu0 (u.base / Real.sqrt ((p.x - s.location.x) ^ 2 + (p.y - s.location.y) ^ 2)) * (e u : ℂ)) * (w u : ℂ)) =
      transform filter (fun u => ((c u : ℝ) : ℂ) *
      (t.rTE mu0 (u.base / Real.sqrt ((p.x - s.location.x) ^ 2 + (p.y - s.location.y) ^ 2)) * (e u : ℂ)) * (w u : ℂ)) := by
    intro c w e
    rw [transform, transform, List.map_congr_left fun a ha => by rw [h a ha]]
  simp only [LayeredDipole.fieldAt, V3.sub_x, V3.sub_y, ← hl, ← ho, ← hm]
  rw [key, key, key, key, key, key]

/-- **C53.** Splitting a layer into two layers of the same properties does not change the field. -/
theorem layered_split (p : V3 ℝ) (field : String) (hf : 0 < s.frequency) (hm0 : 0 < mu0)
    (hs : ∀ k ≤ s.nThick, 0 < (s.sigmaHat k).re) (hm : ∀ k ≤ s.nThick, (s.mu k).im = 0 ∧ 0 < (s.mu k).re)
    (hh : ∀ k < s.nThick, 0 ≤ s.thickness k) (j : ℕ) (hj : j < s.nThick) (h1 h2 : ℝ) (p1 : 0 ≤ h1) (p2 : 0 ≤ h2)
    (hsum : s.thickness j = h1 + h2) :
    ({ s with nThick := s.nThick + 1, sigmaHat := RTE.insertAt j (s.sigmaHat j) s.sigmaHat, mu := RTE.insertAt j (s.mu j) s.mu,
              thickness := RTE.insertAt j h1 (Function.update s.thickness j h2) } : LayeredDipole).fieldAt filter mu0 p field =
      s.fieldAt filter mu0 p field := by
  refine fieldAt_congr filter mu0 _ s p field rfl rfl rfl fun a _ => ?_
  refine RTE.forward_split_physical ⟨RTE.omegaOf s.frequency, _, mu0, s.nThick, s.sigmaHat, s.mu, s.thickness⟩ ?_ j hj h1 h2 p1 p2 hsum
  exact ⟨mul_pos (mul_pos two_pos Real.pi_pos) hf, hm0, hm, hh, .inl hs⟩

/-- **C53.** An earth of any number of layers that have the properties of air has no secondary field. -/
theorem layered_air (p : V3 ℝ) (hf : 0 < s.frequency) (hm0 : 0 < mu0)
    (hp : p.x ≠ s.location.x ∨ p.y ≠ s.location.y) (hb : ∀ a ∈ filter, 0 < a.base)
    (hs : ∀ k ≤ s.nThick, s.sigmaHat k = 0) (hm : ∀ k ≤ s.nThick, s.mu k = mu0) (hh : ∀ k < s.nThick, 0 ≤ s.thickness k) :
    s.fieldAt filter mu0 p "secondary" = 0 := by
  have key : ∀ a ∈ filter, s.rTE mu0 (a.base / Real.sqrt ((p.x - s.location.x) ^ 2 + (p.y - s.location.y) ^ 2)) = 0 := fun a ha =>
    RTE.forward_air _ (mul_pos (mul_pos two_pos Real.pi_pos) hf) (div_pos (hb a ha) (offset_pos hp)) hm0 hs hm hh
  have hz : ∀ (c : Tap → ℝ) (w : Tap → ℝ) (e : Tap → ℝ), transform filter (fun t => ((c t : ℝ) : ℂ) *
      (s.rTE mu0 (t.base / Real.sqrt ((p.x - s.location.x) ^ 2 + (p.y - s.location.y) ^ 2)) * (e t : ℂ)) * (w t : ℂ)) = 0 := by
    intro c w e
    rw [transform, List.map_congr_left (g := fun _ => 0) fun a ha => by rw [key a ha]; ring]
    simp
  simp only [LayeredDipole.fieldAt, if_neg (show ¬ ("secondary" = "total") by decide), V3.sub_x, V3.sub_y]
  rw [hz, hz, hz, hz, hz, hz]
  ext <;> simp

/-- Non-vacuity: a two-layer earth that satisfies the hypotheses of `layered_split`, with a source above it and a point
on the ground. -/
example : ∃ s : LayeredDipole, 0 < s.frequency ∧ (∀ k ≤ s.nThick, 0 < (s.sigmaHat k).re) ∧
    (∀ k ≤ s.nThick, (s.mu k).im = 0 ∧ 0 < (s.mu k).re) ∧ (∀ k < s.nThick, 0 ≤ s.thickness k) ∧ s.thickness 0 = 4 + 6 ∧ 0 < s.nThick ∧
    (⟨5, 0, 0⟩ : V3 ℝ) ≠ s.location ∧ ((⟨5, 0, 0⟩ : V3 ℝ).x ≠ s.location.x ∨ (⟨5, 0, 0⟩ : V3 ℝ).y ≠ s.location.y) :=
  ⟨⟨100, 1, fun _ => 10, fun k => k + 1, fun _ => 1, ⟨0, 0, 1⟩, ⟨1, 0, 1⟩, 2⟩, by norm_num,
    fun k _ => by simp only [Complex.add_re, Complex.natCast_re, Complex.one_re]; positivity, fun k _ => by simp, fun k _ => by norm_num,
    by norm_num, one_pos, fun h => by simpa using congrArg V3.x h, .inl (by norm_num)⟩

end Verif.Fdem
