import Verif.Props.UnitsStatic
import Verif.Props.PrismPoisson

/-!
# C111: the results do not depend on the system of units (point masses, balls and prisms)

The constant of gravitation and the permeability of free space are numbers in the code, so only those changes of units are considered that
leave the value of the constant alone: `u.keepsG` and `u.keepsMu0`.
-/

namespace Verif

/-- The constant of gravitation, in `m³ kg⁻¹ s⁻²`, has the same value in both systems. -/
def Units.keepsG (u : Units) : Prop := u.conv 3 (-1) (-2) 0 = 1

/-- The permeability of free space has the same value in both systems. -/
def Units.keepsMu0 (u : Units) : Prop := u.permeability = 1

/-- Kilogram per cubic metre. -/
noncomputable def Units.density (u : Units) : ℝ := u.conv (-3) 1 0 0
/-- Square metre per square second. -/
noncomputable def Units.gravityPotential (u : Units) : ℝ := u.conv 2 0 (-2) 0
/-- Metre per square second. -/
noncomputable def Units.acceleration (u : Units) : ℝ := u.conv 1 0 (-2) 0
/-- One over square second. -/
noncomputable def Units.gravityGradient (u : Units) : ℝ := u.conv 0 0 (-2) 0

theorem Units.mass_of_keepsG {u : Units} (h : u.keepsG) : u.mass = u.length ^ 3 / u.time ^ 2 := by
  have hL := u.length_pos; have hM := u.mass_pos; have hT := u.time_pos; have hI := u.current_pos
  have h' : u.length ^ (3 : ℤ) * u.mass ^ (-1 : ℤ) * u.time ^ (-2 : ℤ) * u.current ^ (0 : ℤ) = 1 := h
  simp only [zpow_neg, zpow_ofNat] at h'
  field_simp at h' ⊢
  simpa using h'.symm

theorem Units.density_eq (u : Units) : u.density = u.mass / u.length ^ 3 := by
  have hL := u.length_pos
  simp only [Units.density, Units.conv, zpow_neg, zpow_ofNat]
  field_simp

theorem Units.gravityPotential_eq (u : Units) : u.gravityPotential = u.length ^ 2 / u.time ^ 2 := by
  have hL := u.length_pos; have hT := u.time_pos
  simp only [Units.gravityPotential, Units.conv, zpow_neg, zpow_ofNat]
  field_simp

theorem Units.acceleration_eq (u : Units) : u.acceleration = u.length / u.time ^ 2 := by
  have hL := u.length_pos; have hT := u.time_pos
  simp only [Units.acceleration, Units.conv, zpow_neg, zpow_ofNat]
  field_simp

theorem Units.gravityGradient_eq (u : Units) : u.gravityGradient = 1 / u.time ^ 2 := by
  have hT := u.time_pos
  simp only [Units.gravityGradient, Units.conv, zpow_neg, zpow_ofNat]
  field_simp

namespace Gravity

/-- The point mass in other units. -/
noncomputable def PointMass.inUnits (u : Units) (s : PointMass) : PointMass := ⟨u.mass * s.mass, u.length • s.location⟩

/-- The ball in other units. -/
noncomputable def Sphere.inUnits (u : Units) (s : Sphere) : Sphere := ⟨u.length * s.radius, u.density * s.rho, u.length • s.location⟩

/-- **C111.** Point mass. -/
theorem PointMass.units (u : Units) (hG : u.keepsG) (s : PointMass) (q : V3 ℝ) :
    (s.inUnits u).gravitationalPotential (u.length • q) = u.gravityPotential * s.gravitationalPotential q ∧
    (s.inUnits u).gravitationalField (u.length • q) = u.acceleration • s.gravitationalField q ∧
    (s.inUnits u).gravitationalGradient (u.length • q) = u.gravityGradient • s.gravitationalGradient q := by
  have hL := u.length_pos; have hM := u.mass_pos; have hT := u.time_pos
  have hd : (u.length • q - u.length • s.location) = u.length • (q - s.location) := (smul_sub _ _ _).symm
  have hl : (u.length • (q - s.location)).len = u.length * (q - s.location).len := by rw [V3.len_smul, abs_of_pos hL]
  have hh := V3.unit_smul hL (q - s.location)
  rw [hl] at hh
  have hm := Units.mass_of_keepsG hG
  refine ⟨?_, ?_, ?_⟩
  · simp only [PointMass.gravitationalPotential, PointMass.inUnits, hd, hl, hm, u.gravityPotential_eq]
    generalize (q - s.location).len = r
    by_cases hr : r = 0
    · simp [hr]
    · field_simp
  · simp only [PointMass.gravitationalField, PointMass.inUnits, hd, hl, hh, hm, u.acceleration_eq]
    generalize (q - s.location).map (· / (q - s.location).len) = e
    generalize (q - s.location).len = r
    by_cases hr : r = 0
    · ext <;> simp [hr, V3.map]
    · ext <;> simp only [V3.map, V3.smul_x, V3.smul_y, V3.smul_z, smul_eq_mul] <;> field_simp
  · simp only [PointMass.gravitationalGradient, PointMass.inUnits, hd, hl, hh, hm, u.gravityGradient_eq]
    generalize (q - s.location).map (· / (q - s.location).len) = e
    generalize (q - s.location).len = r
    by_cases hr : r = 0
    · ext <;> simp [hr]
    · ext <;> simp only [V3.smul_x, V3.smul_y, V3.smul_z, smul_eq_mul] <;> field_simp

theorem Sphere.toPointMass_units (u : Units) (s : Sphere) : (s.inUnits u).toPointMass = s.toPointMass.inUnits u := by
  have hL := u.length_pos
  simp only [Sphere.toPointMass, Sphere.inUnits, PointMass.inUnits, Sphere.mass, u.density_eq, PointMass.mk.injEq, and_true]
  field_simp

/-- **C111.** Ball. -/
theorem Sphere.units (u : Units) (hG : u.keepsG) (s : Sphere) (q : V3 ℝ) :
    (s.inUnits u).mass = u.mass * s.mass ∧
    (s.inUnits u).gravitationalPotential (u.length • q) = u.gravityPotential * s.gravitationalPotential q ∧
    (s.inUnits u).gravitationalField (u.length • q) = u.acceleration • s.gravitationalField q ∧
    (s.inUnits u).gravitationalGradient (u.length • q) = (s.gravitationalGradient q).map (u.gravityGradient • ·) := by
  have hL := u.length_pos; have hM := u.mass_pos; have hT := u.time_pos
  have hd : (u.length • q - u.length • s.location) = u.length • (q - s.location) := (smul_sub _ _ _).symm
  have hl : (u.length • (q - s.location)).len = u.length * (q - s.location).len := by rw [V3.len_smul, abs_of_pos hL]
  have hloc : (s.inUnits u).location = u.length • s.location := rfl
  have hrad : (s.inUnits u).radius = u.length * s.radius := rfl
  have hrho : (s.inUnits u).rho = u.density * s.rho := rfl
  have hm := Units.mass_of_keepsG hG
  have hlt : (u.length * (q - s.location).len > u.length * s.radius) = ((q - s.location).len > s.radius) :=
    propext (mul_lt_mul_iff_right₀ hL)
  have heq : (u.length * (q - s.location).len = u.length * s.radius) = ((q - s.location).len = s.radius) :=
    propext (mul_right_inj' hL.ne')
  obtain ⟨h1, h2, h3⟩ := PointMass.units u hG s.toPointMass q
  refine ⟨congrArg PointMass.mass (s.toPointMass_units u), ?_, ?_, ?_⟩
  · simp only [Sphere.gravitationalPotential, hloc, hrad, hrho, hd, hl, hlt, s.toPointMass_units u, h1]
    by_cases h : (q - s.location).len > s.radius
    · simp only [h, if_true]
    · simp only [h, if_false, u.density_eq, hm, u.gravityPotential_eq]
      field_simp
  · simp only [Sphere.gravitationalField, hloc, hrad, hrho, hd, hl, hlt, s.toPointMass_units u, h2]
    by_cases h : (q - s.location).len > s.radius
    · simp only [h, if_true]
    · simp only [h, if_false, u.density_eq, hm, u.acceleration_eq]
      ext <;> simp only [V3.map, V3.smul_x, V3.smul_y, V3.smul_z, smul_eq_mul] <;> field_simp
  · simp only [Sphere.gravitationalGradient, hloc, hrad, hrho, hd, hl, hlt, heq, s.toPointMass_units u, h3]
    by_cases h0 : (q - s.location).len = s.radius
    · simp only [h0, if_true, Option.map_none]
    simp only [h0, if_false]
    by_cases h : (q - s.location).len > s.radius
    · simp only [h, if_true, Option.map_some]
    · simp only [h, if_false, u.density_eq, hm, u.gravityGradient_eq, Option.map_some, Option.some.injEq]
      ext <;> simp only [V3.smul_x, V3.smul_y, V3.smul_z, smul_eq_mul] <;> field_simp

/-- Kilometres and tonnes per cubic metre with an hour-like unit of time: a change that keeps the constant of gravitation. -/
example : ∃ u : Units, u.keepsG ∧ u.length = 4 ∧ u.time = 2 := by
  refine ⟨⟨4, 16, 2, 1, by norm_num, by norm_num, by norm_num, by norm_num⟩, ?_, rfl, rfl⟩
  norm_num [Units.keepsG, Units.conv]

end Gravity

namespace Prism

open Real

/-- The prism in other units. -/
noncomputable def Box.inUnits (u : Units) (b : Box) : Box := ⟨u.length • b.min, u.length • b.max⟩

/-- The alternating sum over the eight corners. -/
theorem evalDefInt_scale (a c : ℝ) (u : Units) (b : Box) (f : ℝ → ℝ → ℝ → ℝ) (g : ℝ → ℝ → ℝ → ℝ) (q : V3 ℝ) (n : ℕ) (ha : a = u.length)
    (h : ∀ x y z, f (a * x) (a * y) (a * z) = c * f x y z + g x y z) (hg : b.evalDefInt g q n = 0) :
    (b.inUnits u).evalDefInt f (u.length • q) n = c * b.evalDefInt f q n := by
  subst ha
  have hc : ∀ (n : ℕ) (v : V3 ℝ), cycleN n (u.length • v) = u.length • cycleN n v := by
    intro n
    induction n with
    | zero => intro v; rfl
    | succ n ih => intro v; exact ih ⟨v.y, v.z, v.x⟩
  have h1 : ∀ m : V3 ℝ, (⟨(u.length • m).x - (u.length • q).x, (u.length • m).y - (u.length • q).y, (u.length • m).z - (u.length • q).z⟩ : V3 ℝ) =
      u.length • ⟨m.x - q.x, m.y - q.y, m.z - q.z⟩ := by
    intro m
    ext <;> simp only [V3.smul_x, V3.smul_y, V3.smul_z, smul_eq_mul] <;> ring
  simp only [Box.evalDefInt] at hg
  simp only [Box.evalDefInt, Box.inUnits, h1]
  simp only [hc]
  simp only [V3.smul_x, V3.smul_y, V3.smul_z, smul_eq_mul, h]
  linear_combination hg

theorem rr_scale {a : ℝ} (ha : 0 < a) (x y z : ℝ) :
    √(a * x * (a * x) + a * y * (a * y) + a * z * (a * z)) = a * √(x * x + y * y + z * z) := by
  rw [show a * x * (a * x) + a * y * (a * y) + a * z * (a * z) = a ^ 2 * (x * x + y * y + z * z) by ring, sqrt_mul (sq_nonneg a), sqrt_sq ha.le]

theorem edge_pos {x y z : ℝ} (h : x ≠ 0 ∨ z ≠ 0) : 0 < y + √(x * x + y * y + z * z) := by
  have : |y| < √(x * x + y * y + z * z) := by
    rw [← sqrt_sq_eq_abs]
    apply sqrt_lt_sqrt (sq_nonneg _)
    rcases h with h | h
    · have := mul_self_pos.2 h; nlinarith [mul_self_nonneg z]
    · have := mul_self_pos.2 h; nlinarith [mul_self_nonneg x]
  linarith [neg_abs_le y]

theorem at_scale {a : ℝ} (ha : 0 < a) (x y z r : ℝ) : a * x * (a * y) / (a * z * (a * r)) = x * y / (z * r) := by
  rw [show a * x * (a * y) = (a * a) * (x * y) by ring, show a * z * (a * r) = (a * a) * (z * r) by ring]
  exact mul_div_mul_left _ _ (mul_pos ha ha).ne'

/-- The masks of the kernel only leave out terms that are zero. -/
theorem prismF_closed (x y z : ℝ) : Py.prismF x y z =
    -(x * y * log (z + √(x * x + y * y + z * z))) - y * z * log (x + √(x * x + y * y + z * z)) - x * z * log (y + √(x * x + y * y + z * z)) +
      0.5 * x * x * arctan (y * z / (x * √(x * x + y * y + z * z))) + 0.5 * y * y * arctan (x * z / (y * √(x * x + y * y + z * z))) +
      0.5 * z * z * arctan (x * y / (z * √(x * x + y * y + z * z))) := by
  have p1 : x ≠ 0 → 0 < z + √(x * x + y * y + z * z) := fun h => by
    have := edge_pos (x := x) (y := z) (z := y) (Or.inl h)
    rwa [show x * x + z * z + y * y = x * x + y * y + z * z by ring] at this
  have p2 : y ≠ 0 → 0 < x + √(x * x + y * y + z * z) := fun h => by
    have := edge_pos (x := y) (y := x) (z := z) (Or.inl h)
    rwa [show y * y + x * x + z * z = x * x + y * y + z * z by ring] at this
  have p3 : x ≠ 0 → 0 < y + √(x * x + y * y + z * z) := fun h => edge_pos (Or.inl h)
  have k : ∀ (s t w : ℝ) (o : ℝ), (s ≠ 0 → 0 < w) → (if s ≠ 0 ∧ t ≠ 0 ∧ w > 0 then o - s * t * log w else o) = o - s * t * log w := by
    intro s t w o h
    by_cases hs : s = 0
    · simp [hs]
    by_cases ht : t = 0
    · simp [ht]
    simp [hs, ht, h hs]
  have k' : ∀ (s w : ℝ) (o : ℝ), (if s ≠ 0 then o + 0.5 * s * s * w else o) = o + 0.5 * s * s * w := by
    intro s w o
    by_cases hs : s = 0 <;> simp [hs]
  simp only [Py.prismF]
  generalize √(x * x + y * y + z * z) = r at *
  rw [k x y (z + r) _ p1, k y z (x + r) _ p2, k x z (y + r) _ p3, k', k', k']
  ring

theorem log_scale {a : ℝ} (ha : 0 < a) (s t w : ℝ) (h : s ≠ 0 → 0 < t + w) : s * log (a * t + a * w) = s * (log a + log (t + w)) := by
  by_cases hs : s = 0
  · simp [hs]
  · rw [← mul_add, log_mul ha.ne' (h hs).ne']

theorem prismF_scale {a : ℝ} (ha : 0 < a) (x y z : ℝ) :
    Py.prismF (a * x) (a * y) (a * z) = a ^ 2 * Py.prismF x y z + -(a ^ 2 * log a) * (x * y + y * z + x * z) := by
  have p1 : x ≠ 0 → 0 < z + √(x * x + y * y + z * z) := fun h => by
    have := edge_pos (x := x) (y := z) (z := y) (Or.inl h)
    rwa [show x * x + z * z + y * y = x * x + y * y + z * z by ring] at this
  have p2 : y ≠ 0 → 0 < x + √(x * x + y * y + z * z) := fun h => by
    have := edge_pos (x := y) (y := x) (z := z) (Or.inl h)
    rwa [show y * y + x * x + z * z = x * x + y * y + z * z by ring] at this
  have p3 : x ≠ 0 → 0 < y + √(x * x + y * y + z * z) := fun h => edge_pos (Or.inl h)
  simp only [prismF_closed, rr_scale ha, at_scale ha]
  generalize √(x * x + y * y + z * z) = r at *
  have e1 := log_scale ha x z r p1
  have e2 := log_scale ha y x r p2
  have e3 := log_scale ha x y r p3
  linear_combination (-(a ^ 2 * y)) * e1 + (-(a ^ 2 * z)) * e2 + (-(a ^ 2 * z)) * e3

theorem prismFz_closed (x y z : ℝ) : Py.prismFz x y z =
    x * log (y + √(x * x + y * y + z * z)) + y * log (x + √(x * x + y * y + z * z)) - z * arctan (x * y / (z * √(x * x + y * y + z * z))) := by
  have p2 : y ≠ 0 → 0 < x + √(x * x + y * y + z * z) := fun h => by
    have := edge_pos (x := y) (y := x) (z := z) (Or.inl h)
    rwa [show y * y + x * x + z * z = x * x + y * y + z * z by ring] at this
  have p3 : x ≠ 0 → 0 < y + √(x * x + y * y + z * z) := fun h => edge_pos (Or.inl h)
  have k : ∀ (s w : ℝ) (o : ℝ), (s ≠ 0 → 0 < w) → (if s ≠ 0 ∧ w > 0 then o + s * log w else o) = o + s * log w := by
    intro s w o h
    by_cases hs : s = 0
    · simp [hs]
    simp [hs, h hs]
  have k' : ∀ (s w : ℝ) (o : ℝ), (if s ≠ 0 then o - s * w else o) = o - s * w := by
    intro s w o
    by_cases hs : s = 0 <;> simp [hs]
  simp only [Py.prismFz]
  generalize √(x * x + y * y + z * z) = r at *
  rw [k x (y + r) _ p3, k y (x + r) _ p2, k', zero_add]

theorem prismFz_scale {a : ℝ} (ha : 0 < a) (x y z : ℝ) :
    Py.prismFz (a * x) (a * y) (a * z) = a * Py.prismFz x y z + a * log a * (x + y) := by
  have p2 : y ≠ 0 → 0 < x + √(x * x + y * y + z * z) := fun h => by
    have := edge_pos (x := y) (y := x) (z := z) (Or.inl h)
    rwa [show y * y + x * x + z * z = x * x + y * y + z * z by ring] at this
  have p3 : x ≠ 0 → 0 < y + √(x * x + y * y + z * z) := fun h => edge_pos (Or.inl h)
  simp only [prismFz_closed, rr_scale ha, at_scale ha]
  generalize √(x * x + y * y + z * z) = r at *
  have e2 := log_scale ha y x r p2
  have e3 := log_scale ha x y r p3
  linear_combination a * e2 + a * e3

theorem prismFzz_scale {a : ℝ} (ha : 0 < a) (x y z : ℝ) : Py.prismFzz (a * x) (a * y) (a * z) = 1 * Py.prismFzz x y z + 0 := by
  have hz : (a * z ≠ 0) = (z ≠ 0) := propext (by simp [ha.ne'])
  simp only [Py.prismFzz, rr_scale ha, hz, at_scale ha, one_mul, add_zero]

theorem rr_zero (x y z : ℝ) (h : √(x * x + y * y + z * z) = 0) : x * x + y * y = 0 ∧ x * x + z * z = 0 ∧ y * y + z * z = 0 := by
  rw [sqrt_eq_zero (by nlinarith [mul_self_nonneg x, mul_self_nonneg y, mul_self_nonneg z])] at h
  refine ⟨?_, ?_, ?_⟩ <;> nlinarith [mul_self_nonneg x, mul_self_nonneg y, mul_self_nonneg z]

theorem prismFzzz_scale {a : ℝ} (ha : 0 < a) (x y z : ℝ) : Py.prismFzzz (a * x) (a * y) (a * z) = a⁻¹ * Py.prismFzzz x y z + 0 := by
  have h2 : ∀ s t : ℝ, a * s * (a * s) + a * t * (a * t) = a ^ 2 * (s * s + t * t) := fun s t => by ring
  have hz : ∀ t : ℝ, (a ^ 2 * t ≠ 0) = (t ≠ 0) := fun t => propext (by simp [ha.ne'])
  have hz1 : ∀ t : ℝ, (a * t ≠ 0) = (t ≠ 0) := fun t => propext (by simp [ha.ne'])
  have hr0 := rr_zero x y z
  simp only [Py.prismFzzz, rr_scale ha]
  simp only [h2, hz, hz1, add_zero]
  generalize √(x * x + y * y + z * z) = r at *
  generalize x * x + z * z = v at *
  generalize y * y + z * z = w at *
  by_cases h : v = 0 <;> by_cases h' : w = 0 <;> by_cases hr : r = 0 <;>
    simp only [h, h', hr, ne_eq, not_true_eq_false, not_false_eq_true, if_true, if_false, mul_zero, zero_mul, zero_add] <;> (first | (exfalso; grind) | field_simp)

theorem prismFxxy_scale {a : ℝ} (ha : 0 < a) (x y z : ℝ) : Py.prismFxxy (a * x) (a * y) (a * z) = a⁻¹ * Py.prismFxxy x y z + 0 := by
  have h2 : ∀ s t : ℝ, a * s * (a * s) + a * t * (a * t) = a ^ 2 * (s * s + t * t) := fun s t => by ring
  have hz : ∀ t : ℝ, (a ^ 2 * t ≠ 0) = (t ≠ 0) := fun t => propext (by simp [ha.ne'])
  have hz1 : ∀ t : ℝ, (a * t ≠ 0) = (t ≠ 0) := fun t => propext (by simp [ha.ne'])
  have hr0 := rr_zero x y z
  simp only [Py.prismFxxy, rr_scale ha]
  simp only [h2, hz, hz1, add_zero]
  generalize √(x * x + y * y + z * z) = r at *
  generalize x * x + y * y = v at *
  by_cases h : v = 0 <;> by_cases hr : r = 0 <;>
    simp only [h, hr, ne_eq, not_true_eq_false, not_false_eq_true, if_true, if_false, mul_zero, zero_mul] <;> (first | (exfalso; grind) | field_simp)

theorem prismFxxz_scale {a : ℝ} (ha : 0 < a) (x y z : ℝ) : Py.prismFxxz (a * x) (a * y) (a * z) = a⁻¹ * Py.prismFxxz x y z + 0 := by
  have h2 : ∀ s t : ℝ, a * s * (a * s) + a * t * (a * t) = a ^ 2 * (s * s + t * t) := fun s t => by ring
  have hz : ∀ t : ℝ, (a ^ 2 * t ≠ 0) = (t ≠ 0) := fun t => propext (by simp [ha.ne'])
  have hz1 : ∀ t : ℝ, (a * t ≠ 0) = (t ≠ 0) := fun t => propext (by simp [ha.ne'])
  have hr0 := rr_zero x y z
  simp only [Py.prismFxxz, rr_scale ha]
  simp only [h2, hz, hz1, add_zero]
  generalize √(x * x + y * y + z * z) = r at *
  generalize x * x + z * z = v at *
  by_cases h : v = 0 <;> by_cases hr : r = 0 <;>
    simp only [h, hr, ne_eq, not_true_eq_false, not_false_eq_true, if_true, if_false, mul_zero, zero_mul] <;> (first | (exfalso; grind) | field_simp)

theorem prismFxyz_scale {a : ℝ} (ha : 0 < a) (x y z : ℝ) : Py.prismFxyz (a * x) (a * y) (a * z) = a⁻¹ * Py.prismFxyz x y z + 0 := by
  have hz1 : ∀ t : ℝ, (a * t ≠ 0) = (t ≠ 0) := fun t => propext (by simp [ha.ne'])
  simp only [Py.prismFxyz, rr_scale ha, hz1, add_zero]
  generalize √(x * x + y * y + z * z) = r at *
  by_cases hr : r = 0 <;>
    simp only [hr, ne_eq, not_true_eq_false, not_false_eq_true, if_true, if_false, mul_zero] <;> field_simp

/-! ### Edges -/

/-- The twelve edges of the prism, with their ends. -/
def Box.OnEdge (b : Box) (q : V3 ℝ) : Prop :=
  ((q.y = b.min.y ∨ q.y = b.max.y) ∧ (q.z = b.min.z ∨ q.z = b.max.z) ∧ b.min.x ≤ q.x ∧ q.x ≤ b.max.x) ∨
  ((q.x = b.min.x ∨ q.x = b.max.x) ∧ (q.z = b.min.z ∨ q.z = b.max.z) ∧ b.min.y ≤ q.y ∧ q.y ≤ b.max.y) ∨
  ((q.x = b.min.x ∨ q.x = b.max.x) ∧ (q.y = b.min.y ∨ q.y = b.max.y) ∧ b.min.z ≤ q.z ∧ q.z ≤ b.max.z)

theorem prismFzx_line (y : ℝ) : Py.prismFzx 0 y 0 = if y < 0 then log (-2 * y) else if y = 0 then 0 else -log (2 * y) := by
  simp only [Py.prismFzx, mul_zero, zero_add, add_zero, sqrt_mul_self_eq_abs]
  by_cases h : y < 0
  · simp [abs_of_neg h, h]
  · by_cases h0 : y = 0
    · simp [h0]
    · have : 0 < y := lt_of_le_of_ne (not_lt.1 h) (Ne.symm h0)
      simp only [abs_of_pos this, h, h0, and_false, if_false]
      rw [if_pos (by positivity)]; ring_nf

theorem prismFzx_off {x y z : ℝ} (h : x ≠ 0 ∨ z ≠ 0) : Py.prismFzx x y z = -log (y + √(x * x + y * y + z * z)) := by
  have := edge_pos (y := y) h
  simp only [Py.prismFzx, this.ne', false_and, if_false, ne_eq, not_false_eq_true, if_true]

theorem prismFzx_scale {a : ℝ} (ha : 0 < a) (x y1 y2 z : ℝ) (hy : y1 < y2) (h : ¬ (x = 0 ∧ z = 0 ∧ y1 ≤ 0 ∧ 0 ≤ y2)) :
    Py.prismFzx (a * x) (a * y2) (a * z) - Py.prismFzx (a * x) (a * y1) (a * z) = Py.prismFzx x y2 z - Py.prismFzx x y1 z := by
  by_cases h0 : x ≠ 0 ∨ z ≠ 0
  · have h0' : a * x ≠ 0 ∨ a * z ≠ 0 := by simpa [ha.ne'] using h0
    rw [prismFzx_off h0, prismFzx_off h0, prismFzx_off h0', prismFzx_off h0', rr_scale ha, rr_scale ha, ← mul_add, ← mul_add,
      log_mul ha.ne' (edge_pos h0).ne', log_mul ha.ne' (edge_pos h0).ne']
    ring
  · obtain ⟨rfl, rfl⟩ : x = 0 ∧ z = 0 := by simpa [not_or] using h0
    simp only [true_and, mul_zero, not_and_or, not_le] at h ⊢
    simp only [prismFzx_line]
    rcases h with h | h
    · have h2 : 0 < y2 := h.trans hy
      have e1 := mul_pos ha h; have e2 := mul_pos ha h2
      simp only [h.not_gt, h2.not_gt, e1.not_gt, e2.not_gt, h.ne', h2.ne', e1.ne', e2.ne', if_false]
      rw [show 2 * (a * y1) = a * (2 * y1) by ring, show 2 * (a * y2) = a * (2 * y2) by ring, log_mul ha.ne' (by positivity),
        log_mul ha.ne' (by positivity)]
      ring
    · have h1 : y1 < 0 := hy.trans h
      have e1 := mul_neg_of_pos_of_neg ha h1; have e2 := mul_neg_of_pos_of_neg ha h
      simp only [h, h1, e1, e2, if_true]
      rw [show -2 * (a * y1) = a * (-2 * y1) by ring, show -2 * (a * y2) = a * (-2 * y2) by ring, log_mul ha.ne' (by linarith),
        log_mul ha.ne' (by linarith)]
      ring

theorem prismFzy_swap (x y z : ℝ) : Py.prismFzy x y z = Py.prismFzx y x z := by
  simp only [Py.prismFzy, Py.prismFzx, show y * y + x * x + z * z = x * x + y * y + z * z by ring]

theorem evalDefInt_mul (c : ℝ) (b : Box) (g : ℝ → ℝ → ℝ → ℝ) (q : V3 ℝ) (n : ℕ) (h : b.evalDefInt g q n = 0) :
    b.evalDefInt (fun x y z => c * g x y z) q n = 0 := by
  simp only [Box.evalDefInt] at h ⊢
  linear_combination c * h

/-- The alternating sum leaves out whatever does not depend on all three coordinates. -/
theorem evalDefInt_products (b : Box) (q : V3 ℝ) (n : ℕ) :
    b.evalDefInt (fun x y z => x * y + y * z + x * z) q n = 0 ∧ b.evalDefInt (fun x y _ => x + y) q n = 0 ∧ b.evalDefInt (fun _ _ _ => 0) q n = 0 := by
  simp only [Box.evalDefInt]
  refine ⟨?_, ?_, ?_⟩ <;> ring

theorem evalDefInt_F (u : Units) (b : Box) (q : V3 ℝ) (n : ℕ) :
    (b.inUnits u).evalDefInt Py.prismF (u.length • q) n = u.length ^ 2 * b.evalDefInt Py.prismF q n :=
  evalDefInt_scale u.length _ u b _ _ q n rfl (fun x y z => prismF_scale u.length_pos x y z) (evalDefInt_mul _ b _ q n (evalDefInt_products b q n).1)

theorem evalDefInt_Fz (u : Units) (b : Box) (q : V3 ℝ) (n : ℕ) :
    (b.inUnits u).evalDefInt Py.prismFz (u.length • q) n = u.length * b.evalDefInt Py.prismFz q n :=
  evalDefInt_scale u.length _ u b _ _ q n rfl (fun x y z => prismFz_scale u.length_pos x y z) (evalDefInt_mul _ b _ q n (evalDefInt_products b q n).2.1)

theorem evalDefInt_Fzz (u : Units) (b : Box) (q : V3 ℝ) (n : ℕ) :
    (b.inUnits u).evalDefInt Py.prismFzz (u.length • q) n = b.evalDefInt Py.prismFzz q n := by
  have := evalDefInt_scale u.length _ u b _ _ q n rfl (fun x y z => prismFzz_scale u.length_pos x y z) (evalDefInt_products b q n).2.2
  rwa [one_mul] at this

theorem evalDefInt_third (u : Units) (b : Box) (q : V3 ℝ) (n : ℕ) :
    (b.inUnits u).evalDefInt Py.prismFzzz (u.length • q) n = u.length⁻¹ * b.evalDefInt Py.prismFzzz q n ∧
    (b.inUnits u).evalDefInt Py.prismFxxy (u.length • q) n = u.length⁻¹ * b.evalDefInt Py.prismFxxy q n ∧
    (b.inUnits u).evalDefInt Py.prismFxxz (u.length • q) n = u.length⁻¹ * b.evalDefInt Py.prismFxxz q n ∧
    (b.inUnits u).evalDefInt Py.prismFxyz (u.length • q) n = u.length⁻¹ * b.evalDefInt Py.prismFxyz q n :=
  ⟨evalDefInt_scale u.length _ u b _ _ q n rfl (fun x y z => prismFzzz_scale u.length_pos x y z) (evalDefInt_products b q n).2.2,
   evalDefInt_scale u.length _ u b _ _ q n rfl (fun x y z => prismFxxy_scale u.length_pos x y z) (evalDefInt_products b q n).2.2,
   evalDefInt_scale u.length _ u b _ _ q n rfl (fun x y z => prismFxxz_scale u.length_pos x y z) (evalDefInt_products b q n).2.2,
   evalDefInt_scale u.length _ u b _ _ q n rfl (fun x y z => prismFxyz_scale u.length_pos x y z) (evalDefInt_products b q n).2.2⟩

theorem evalDefInt_mixed (u : Units) (b : Box) (q : V3 ℝ) (hb : b.Proper) (h : ¬ b.OnEdge q) :
    (b.inUnits u).evalDefInt Py.prismFzx (u.length • q) 1 = b.evalDefInt Py.prismFzx q 1 ∧
    (b.inUnits u).evalDefInt Py.prismFzx (u.length • q) 0 = b.evalDefInt Py.prismFzx q 0 ∧
    (b.inUnits u).evalDefInt Py.prismFzy (u.length • q) 0 = b.evalDefInt Py.prismFzy q 0 := by
  have ha := u.length_pos
  obtain ⟨hx, hy, hz⟩ := hb
  have d : ∀ s t : ℝ, u.length * s - u.length * t = u.length * (s - t) := fun s t => by ring
  simp only [Box.OnEdge, not_or, not_and_or, not_le] at h
  simp only [Box.evalDefInt, Box.inUnits, cycleN, V3.smul_x, V3.smul_y, V3.smul_z, smul_eq_mul, d, prismFzy_swap]
  have e : ∀ s t : ℝ, s - t = 0 ↔ t = s := fun s t => by constructor <;> intro h <;> linarith
  refine ⟨?_, ?_, ?_⟩
  · have k : ∀ s t : ℝ, (s = b.min.y ∨ s = b.max.y) → (t = b.min.x ∨ t = b.max.x) → _ := fun s t hs ht =>
      prismFzx_scale ha (s - q.y) (b.min.z - q.z) (b.max.z - q.z) (t - q.x) (by linarith) (by
        rintro ⟨h1, h2, h3, h4⟩
        rw [e] at h1 h2
        rcases h.2.2 with ⟨g1, g2⟩ | ⟨g1, g2⟩ | g | g <;> first | linarith | (rcases hs with hs | hs <;> rcases ht with ht | ht <;> simp_all))
    linear_combination k _ _ (Or.inr rfl) (Or.inr rfl) - k _ _ (Or.inr rfl) (Or.inl rfl) - k _ _ (Or.inl rfl) (Or.inr rfl) + k _ _ (Or.inl rfl) (Or.inl rfl)
  · have k : ∀ s t : ℝ, (s = b.min.x ∨ s = b.max.x) → (t = b.min.z ∨ t = b.max.z) → _ := fun s t hs ht =>
      prismFzx_scale ha (s - q.x) (b.min.y - q.y) (b.max.y - q.y) (t - q.z) (by linarith) (by
        rintro ⟨h1, h2, h3, h4⟩
        rw [e] at h1 h2
        rcases h.2.1 with ⟨g1, g2⟩ | ⟨g1, g2⟩ | g | g <;> first | linarith | (rcases hs with hs | hs <;> rcases ht with ht | ht <;> simp_all))
    linear_combination k _ _ (Or.inr rfl) (Or.inr rfl) - k _ _ (Or.inr rfl) (Or.inl rfl) - k _ _ (Or.inl rfl) (Or.inr rfl) + k _ _ (Or.inl rfl) (Or.inl rfl)
  · have k : ∀ s t : ℝ, (s = b.min.y ∨ s = b.max.y) → (t = b.min.z ∨ t = b.max.z) → _ := fun s t hs ht =>
      prismFzx_scale ha (s - q.y) (b.min.x - q.x) (b.max.x - q.x) (t - q.z) (by linarith) (by
        rintro ⟨h1, h2, h3, h4⟩
        rw [e] at h1 h2
        rcases h.1 with ⟨g1, g2⟩ | ⟨g1, g2⟩ | g | g <;> first | linarith | (rcases hs with hs | hs <;> rcases ht with ht | ht <;> simp_all))
    linear_combination k _ _ (Or.inr rfl) (Or.inr rfl) - k _ _ (Or.inr rfl) (Or.inl rfl) - k _ _ (Or.inl rfl) (Or.inr rfl) + k _ _ (Or.inl rfl) (Or.inl rfl)

/-! ### The prisms -/

/-- The gravity prism in other units. -/
noncomputable def GravPrism.inUnits (u : Units) (s : GravPrism) : GravPrism := ⟨s.box.inUnits u, u.density * s.rho⟩

/-- The magnetic prism in other units. -/
noncomputable def MagPrism.inUnits (u : Units) (s : MagPrism) : MagPrism := ⟨s.box.inUnits u, u.magneticField • s.magnetization⟩

/-- **C111.** Volume, centre and mass of a prism. -/
theorem Box.units (u : Units) (b : Box) : (b.inUnits u).volume = u.length ^ 3 * b.volume ∧ (b.inUnits u).location = u.length • b.location := by
  refine ⟨?_, ?_⟩
  · simp only [Box.volume, Box.inUnits, V3.sub_x, V3.sub_y, V3.sub_z, V3.smul_x, V3.smul_y, V3.smul_z, smul_eq_mul]; ring
  · ext <;> simp only [Box.location, Box.inUnits, V3.add_x, V3.add_y, V3.add_z, V3.smul_x, V3.smul_y, V3.smul_z, smul_eq_mul] <;> ring

/-- **C111.** Mass, potential and attraction of a prism, everywhere. -/
theorem GravPrism.units (u : Units) (hG : u.keepsG) (s : GravPrism) (q : V3 ℝ) :
    (s.inUnits u).mass = u.mass * s.mass ∧
    (s.inUnits u).gravitationalPotential (u.length • q) = u.gravityPotential * s.gravitationalPotential q ∧
    (s.inUnits u).gravitationalField (u.length • q) = u.acceleration • s.gravitationalField q := by
  have hL := u.length_pos; have hT := u.time_pos
  have hm := Units.mass_of_keepsG hG
  refine ⟨?_, ?_, ?_⟩
  · simp only [GravPrism.mass, GravPrism.inUnits, (Box.units u s.box).1, u.density_eq]
    field_simp
  · simp only [GravPrism.gravitationalPotential, GravPrism.inUnits, evalDefInt_F, u.density_eq, hm, u.gravityPotential_eq]
    field_simp
  · simp only [GravPrism.gravitationalField, GravPrism.inUnits, evalDefInt_Fz, u.density_eq, hm, u.acceleration_eq]
    ext <;> simp only [V3.smul_x, V3.smul_y, V3.smul_z, smul_eq_mul] <;> field_simp

/-- **C111, in part.** Gradient of the attraction of a prism, off its edges.  On an edge: `GravPrism.edge_depends_on_units`. -/
theorem GravPrism.units_gradient_partial (u : Units) (hG : u.keepsG) (s : GravPrism) (q : V3 ℝ) (hb : s.box.Proper) (h : ¬ s.box.OnEdge q) :
    (s.inUnits u).gravitationalGradient (u.length • q) = u.gravityGradient • s.gravitationalGradient q := by
  have hL := u.length_pos; have hT := u.time_pos
  have hm := Units.mass_of_keepsG hG
  obtain ⟨h1, h2, h3⟩ := evalDefInt_mixed u s.box q hb h
  simp only [GravPrism.gravitationalGradient, GravPrism.inUnits, evalDefInt_Fzz, h1, h2, h3, u.density_eq, hm, u.gravityGradient_eq]
  ext <;> simp only [V3.smul_x, V3.smul_y, V3.smul_z, smul_eq_mul] <;> field_simp

/-- **C111.** Moment, scalar potential and gradient of the field of a magnetic prism, everywhere. -/
theorem MagPrism.units (u : Units) (s : MagPrism) (q : V3 ℝ) :
    (s.inUnits u).moment = u.magneticMoment • s.moment ∧
    (s.inUnits u).scalarPotential (u.length • q) = u.current * s.scalarPotential q ∧
    (s.inUnits u).magneticFieldGradient (u.length • q) = (u.magneticField / u.length) • s.magneticFieldGradient q := by
  have hL := u.length_pos; have hI := u.current_pos
  refine ⟨?_, ?_, ?_⟩
  · simp only [MagPrism.moment, MagPrism.inUnits, (Box.units u s.box).1, u.magneticField_eq, u.magneticMoment_eq]
    ext <;> simp only [V3.map, V3.smul_x, V3.smul_y, V3.smul_z, smul_eq_mul] <;> field_simp
  · simp only [MagPrism.scalarPotential, MagPrism.inUnits, evalDefInt_Fz, u.magneticField_eq, V3.smul_x, V3.smul_y, V3.smul_z, smul_eq_mul]
    field_simp
  · have e := fun n => evalDefInt_third u s.box q n
    simp only [MagPrism.magneticFieldGradient, MagPrism.inUnits, (e _).1, (e _).2.1, (e _).2.2.1, (e _).2.2.2, V3.smul_x, V3.smul_y, V3.smul_z,
      smul_eq_mul]
    ext <;> simp only [V3.smul_x, V3.smul_y, V3.smul_z, smul_eq_mul] <;> field_simp

/-- **C111, in part.** Field and flux density of a magnetic prism, off its edges. -/
theorem MagPrism.units_partial (u : Units) (s : MagPrism) (q : V3 ℝ) (hb : s.box.Proper) (h : ¬ s.box.OnEdge q) :
    (s.inUnits u).magneticField (u.length • q) = u.magneticField • s.magneticField q ∧
    (u.keepsMu0 → (s.inUnits u).magneticFluxDensity (u.length • q) = u.fluxDensity • s.magneticFluxDensity q) := by
  have hL := u.length_pos; have hI := u.current_pos; have hT := u.time_pos; have hM := u.mass_pos
  obtain ⟨h1, h2, h3⟩ := evalDefInt_mixed u s.box q hb h
  have hH : (s.inUnits u).magneticField (u.length • q) = u.magneticField • s.magneticField q := by
    simp only [MagPrism.magneticField, MagPrism.inUnits, evalDefInt_Fzz, h1, h2, h3, V3.smul_x, V3.smul_y, V3.smul_z, smul_eq_mul]
    generalize (-1.0 / (4 * Real.pi) : ℝ) = k
    ext <;> simp only [V3.smul_x, V3.smul_y, V3.smul_z, smul_eq_mul] <;> ring
  refine ⟨hH, fun hmu => ?_⟩
  have hin : (s.inUnits u).isInside (u.length • q) ↔ s.isInside q := by
    simp only [MagPrism.isInside, MagPrism.inUnits, Box.inUnits, V3.smul_x, V3.smul_y, V3.smul_z, smul_eq_mul, ge_iff_le,
      mul_le_mul_iff_right₀ hL]
  have hB : u.fluxDensity = u.magneticField := by
    have : u.fluxDensity = u.permeability * u.magneticField := by
      rw [u.fluxDensity_eq, u.permeability_eq, u.magneticField_eq]; field_simp
    rw [this, show u.permeability = 1 from hmu, one_mul]
  simp only [MagPrism.magneticFluxDensity, hH, hB]
  by_cases hi : s.isInside q
  · rw [if_pos hi, if_pos (hin.2 hi)]
    ext <;> simp only [MagPrism.inUnits, V3.map, V3.add_x, V3.add_y, V3.add_z, V3.smul_x, V3.smul_y, V3.smul_z, smul_eq_mul] <;> ring
  · rw [if_neg hi, if_neg (fun h => hi (hin.1 h))]
    ext <;> simp only [V3.map, V3.smul_x, V3.smul_y, V3.smul_z, smul_eq_mul] <;> ring

/-- On the middle of an edge the number returned depends on the unit of length: the true tensor is infinite there. -/
theorem GravPrism.edge_depends_on_units : ∃ (u : Units) (s : GravPrism) (q : V3 ℝ), u.keepsG ∧ s.box.Proper ∧
    (s.inUnits u).gravitationalGradient (u.length • q) ≠ u.gravityGradient • s.gravitationalGradient q := by
  refine ⟨⟨4, 16, 2, 1, by norm_num, by norm_num, by norm_num, by norm_num⟩, ⟨⟨⟨0, -1, 0⟩, ⟨1, 1, 1⟩⟩, 1⟩, 0, by norm_num [Units.keepsG, Units.conv],
    ⟨by norm_num, by norm_num, by norm_num⟩, fun h => ?_⟩
  have h := congrArg (fun m : M3 ℝ => m.x.z) h
  have hd : Units.density ⟨4, 16, 2, 1, by norm_num, by norm_num, by norm_num, by norm_num⟩ = 1 / 4 := by norm_num [Units.density, Units.conv]
  have hg : Units.gravityGradient ⟨4, 16, 2, 1, by norm_num, by norm_num, by norm_num, by norm_num⟩ = 1 / 4 := by
    norm_num [Units.gravityGradient, Units.conv]
  have hG : Gravity.G ≠ 0 := by norm_num [Gravity.G]
  have d : ∀ s : ℝ, (4 : ℝ) * s - 0 = 4 * s := fun s => by ring
  simp only [GravPrism.gravitationalGradient, GravPrism.inUnits, Box.inUnits, Box.evalDefInt, cycleN, hd, hg, V3.smul_x, V3.smul_y, V3.smul_z,
    smul_eq_mul, smul_zero, V3.zero_x, V3.zero_y, V3.zero_z, d, sub_zero] at h
  have ha : (0 : ℝ) < 4 := by norm_num
  have k1 := prismFzx_scale ha 1 (-1) 1 1 (by norm_num) (by norm_num)
  have k2 := prismFzx_scale ha 1 (-1) 1 0 (by norm_num) (by norm_num)
  have k3 := prismFzx_scale ha 0 (-1) 1 1 (by norm_num) (by norm_num)
  have k4 : Py.prismFzx (4 * 0) (4 * 1) (4 * 0) - Py.prismFzx (4 * 0) (4 * -1) (4 * 0) = Py.prismFzx 0 1 0 - Py.prismFzx 0 (-1) 0 - 2 * log 4 := by
    rw [mul_zero, prismFzx_line, prismFzx_line, prismFzx_line, prismFzx_line]
    have : log 8 = log 4 + log 2 := by rw [← log_mul (by norm_num) (by norm_num)]; norm_num
    norm_num
    rw [this]; ring
  have hl : 0 < log 4 := log_pos (by norm_num)
  generalize Gravity.G = G at *
  generalize Py.prismFzx (4 * 0) (4 * 1) (4 * 0) = a1 at *
  generalize Py.prismFzx (4 * 0) (4 * -1) (4 * 0) = a2 at *
  generalize Py.prismFzx (4 * 1) (4 * 1) (4 * 1) = a3 at *
  generalize Py.prismFzx (4 * 1) (4 * -1) (4 * 1) = a4 at *
  generalize Py.prismFzx (4 * 1) (4 * 1) (4 * 0) = a5 at *
  generalize Py.prismFzx (4 * 1) (4 * -1) (4 * 0) = a6 at *
  generalize Py.prismFzx (4 * 0) (4 * 1) (4 * 1) = a7 at *
  generalize Py.prismFzx (4 * 0) (4 * -1) (4 * 1) = a8 at *
  have : G * log 4 = 0 := by linear_combination (2 : ℝ) * h + G / 2 * k1 - G / 2 * k2 - G / 2 * k3 + G / 2 * k4
  rcases mul_eq_zero.1 this with h | h
  · exact hG h
  · exact hl.ne' h

end Prism

end Verif
