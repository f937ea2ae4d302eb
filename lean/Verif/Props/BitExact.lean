import Verif.Lemmas.Nearest
import Verif.Model.RoundedPrism

/-!
# C152: what holds for the computed numbers themselves, to the last bit
-/

namespace Verif.Rounded

open Gravity

variable {F : Ops} {rnd : ℝ → ℝ}

/-! ### Changes of sign -/

theorem smul_mk (c x y z : ℝ) : c • (⟨x, y, z⟩ : V3 ℝ) = ⟨c * x, c * y, c * z⟩ := rfl

theorem mul_neg' (h : Rounds F rnd) (a b : ℝ) : F.mul a (-b) = -F.mul a b := by rw [h.mul, h.mul, mul_neg, h.odd]

theorem neg_mul' (h : Rounds F rnd) (a b : ℝ) : F.mul (-a) b = -F.mul a b := by rw [h.mul, h.mul, neg_mul, h.odd]

theorem neg_div' (h : Rounds F rnd) (a b : ℝ) : F.div (-a) b = -F.div a b := by rw [h.div, h.div, neg_div, h.odd]

theorem neg_sub_neg' (h : Rounds F rnd) (a b : ℝ) : F.sub (-a) (-b) = -F.sub a b := by
  rw [h.sub, h.sub, ← h.odd]; congr 1; ring

theorem zero_sub_neg' (h : Rounds F rnd) (a : ℝ) : F.sub 0 (-a) = -F.sub 0 a := by
  rw [h.sub, h.sub, ← h.odd]; congr 1; ring

theorem sub_swap (h : Rounds F rnd) (a b : ℝ) : F.sub a b = -F.sub b a := by
  rw [h.sub, h.sub, ← h.odd]; congr 1; ring

theorem sum3_neg (h : Rounds F rnd) (a b c : ℝ) : sum3 F (-a) (-b) (-c) = -sum3 F a b c := by
  have k : ∀ a b, F.add (-a) (-b) = -F.add a b := fun a b => by rw [h.add, h.add, ← h.odd]; congr 1; ring
  simp only [sum3, k]
  split_ifs <;> rfl

theorem diff_flip (h : Rounds F rnd) (e : Signs) {p l q m : V3 ℝ} (hd : q - m = e.flip (p - l)) : diff F q m = e.flip (diff F p l) := by
  have hx := congrArg V3.x hd
  have hy := congrArg V3.y hd
  have hz := congrArg V3.z hd
  simp only [V3.sub_x, V3.sub_y, V3.sub_z, Signs.flip] at hx hy hz
  simp only [diff, h.sub, hx, hy, hz, h.sign, Signs.flip]

theorem sign_mul_sign (s : ℤˣ) (x y : ℝ) : ((s : ℤ) : ℝ) * x * (((s : ℤ) : ℝ) * y) = x * y := by linear_combination x * y * sign_sq s

theorem norm_flip (h : Rounds F rnd) (e : Signs) (v : V3 ℝ) : norm F (e.flip v) = norm F v := by
  simp only [norm, h.mul, Signs.flip, sign_mul_sign]

theorem unit_flip (h : Rounds F rnd) (e : Signs) (v : V3 ℝ) (r : ℝ) : unit F (e.flip v) r = e.flip (unit F v r) := by
  simp only [unit, V3.map, Signs.flip, h.div, mul_div_assoc, h.sign]

theorem flip_cases (P : Signs → Prop) (h : ∀ x y z : ℤˣ, (x = 1 ∨ x = -1) → (y = 1 ∨ y = -1) → (z = 1 ∨ z = -1) → P ⟨x, y, z⟩) (e : Signs) : P e :=
  h _ _ _ (Int.units_eq_one_or _) (Int.units_eq_one_or _) (Int.units_eq_one_or _)

theorem flip_map (e : Signs) (v : V3 ℝ) (f : ℝ → ℝ) (hf : ∀ x, f (-x) = -f x) : (e.flip v).map f = e.flip (v.map f) := by
  have k : ∀ (s : ℤˣ) (x : ℝ), f (((s : ℤ) : ℝ) * x) = ((s : ℤ) : ℝ) * f x := fun s x => by
    rcases Int.units_eq_one_or s with rfl | rfl <;> simp [hf]
  simp only [Signs.flip, V3.map, k]

/-- **C152.** Stations and point masses with the same coordinate differences, up to signs, give the same potential, and the same field and tensor up to these
signs, to the last bit. -/
theorem pointMass_mirrored (h : Rounds F rnd) (e : Signs) (s t : PointMass) (hm : t.mass = s.mass) (p q : V3 ℝ)
    (hd : q - t.location = e.flip (p - s.location)) :
    PointMass.gravitationalPotential F t q = PointMass.gravitationalPotential F s p ∧
    PointMass.gravitationalField F t q = e.flip (PointMass.gravitationalField F s p) ∧
    PointMass.gravitationalGradient F t q = e.flipTensor (PointMass.gravitationalGradient F s p) := by
  have h1 := diff_flip h e hd
  refine ⟨?_, ?_, ?_⟩
  · simp only [PointMass.gravitationalPotential, h1, norm_flip h, hm]
  · simp only [PointMass.gravitationalField, h1, norm_flip h, hm, unit_flip h]
    exact flip_map e _ _ fun x => by simp only [mul_neg' h, neg_div' h]
  · simp only [PointMass.gravitationalGradient, h1, norm_flip h, hm, unit_flip h]
    generalize unit F (diff F p s.location) (norm F (diff F p s.location)) = u
    revert e
    refine flip_cases _ fun x y z hx hy hz _ _ => ?_
    rcases hx with rfl | rfl <;> rcases hy with rfl | rfl <;> rcases hz with rfl | rfl <;>
      simp only [Signs.flipTensor, Signs.flip, smul_mk, Units.val_one, Units.val_neg, Int.cast_one, Int.cast_neg, one_mul, neg_mul, mul_neg' h, neg_mul' h,
        neg_div' h, zero_sub_neg' h, neg_neg]

/-- **C152.** The same for spheres. -/
theorem sphere_mirrored (h : Rounds F rnd) (e : Signs) (s t : Sphere) (hr : t.radius = s.radius) (hm : t.rho = s.rho) (p q : V3 ℝ)
    (hd : q - t.location = e.flip (p - s.location)) :
    Sphere.gravitationalPotential F t q = Sphere.gravitationalPotential F s p ∧
    Sphere.gravitationalField F t q = e.flip (Sphere.gravitationalField F s p) ∧
    Sphere.gravitationalGradient F t q = (Sphere.gravitationalGradient F s p).map e.flipTensor := by
  have h1 := diff_flip h e hd
  have hmass : Sphere.mass F t = Sphere.mass F s := by simp only [Sphere.mass, hr, hm]
  obtain ⟨k1, k2, k3⟩ := pointMass_mirrored h e (Sphere.toPointMass F s) (Sphere.toPointMass F t) hmass p q hd
  refine ⟨?_, ?_, ?_⟩
  · simp only [Sphere.gravitationalPotential, h1, norm_flip h, hr, hm, k1]
  · simp only [Sphere.gravitationalField, h1, norm_flip h, hr, hm, k2]
    split_ifs
    · rfl
    · exact flip_map e _ _ fun x => by simp only [mul_neg' h]
  · simp only [Sphere.gravitationalGradient, h1, norm_flip h, hr, hm, k3]
    have dg : ∀ (σ : ℤˣ) (x : ℝ), ((σ : ℤ) : ℝ) * (((σ : ℤ) : ℝ) * x) = x := fun σ x => by rw [← mul_assoc, sign_sq, one_mul]
    have hz : ∀ a, F.mul a 0 = 0 := fun a => by rw [h.mul, mul_zero, h.zero]
    split_ifs
    · rfl
    · rfl
    · simp only [Option.map_some, Signs.flipTensor, Signs.flip, smul_mk, hz, mul_zero, dg]

/-- **C152.** The same for magnetic poles and dipoles; the vector potential, a product of two vectors, has all signs once more. -/
theorem magDipole_mirrored (h : Rounds F rnd) (e : Signs) (s t : Static.MagDipole) (hm : t.moment = s.moment) (hmu : t.mu = s.mu) (p q : V3 ℝ)
    (hd : q - t.location = e.flip (p - s.location)) :
    MagDipole.poleFluxDensity F t q = e.flip (MagDipole.poleFluxDensity F s p) ∧
    (t.orientation = e.flip s.orientation →
      MagDipole.magneticFluxDensity F t q = e.flip (MagDipole.magneticFluxDensity F s p) ∧
      MagDipole.vectorPotential F t q = (((e.x * e.y * e.z : ℤˣ) : ℤ) : ℝ) • e.flip (MagDipole.vectorPotential F s p)) := by
  have h1 := diff_flip h e hd
  refine ⟨?_, fun ho => ⟨?_, ?_⟩⟩
  · simp only [MagDipole.poleFluxDensity, h1, norm_flip h, hm, hmu, unit_flip h]
    exact flip_map e _ _ fun x => by simp only [mul_neg' h]
  · simp only [MagDipole.magneticFluxDensity, h1, norm_flip h, hm, hmu, unit_flip h, ho]
    generalize unit F (diff F p s.location) (norm F (diff F p s.location)) = u
    clear ho hd h1
    revert e
    refine flip_cases _ fun x y z hx hy hz => ?_
    rcases hx with rfl | rfl <;> rcases hy with rfl | rfl <;> rcases hz with rfl | rfl <;>
      simp only [Signs.flip, Units.val_one, Units.val_neg, Int.cast_one, Int.cast_neg, one_mul, neg_mul, mul_neg' h, neg_mul' h, neg_neg, neg_sub_neg' h]
  · simp only [MagDipole.vectorPotential, h1, norm_flip h, hm, hmu, unit_flip h, ho]
    generalize unit F (diff F p s.location) (norm F (diff F p s.location)) = u
    clear ho hd h1
    revert e
    refine flip_cases _ fun x y z hx hy hz => ?_
    rcases hx with rfl | rfl <;> rcases hy with rfl | rfl <;> rcases hz with rfl | rfl <;>
      simp only [cross, V3.map, smul_mk, Signs.flip, Units.val_one, Units.val_neg, Int.cast_one, Int.cast_neg, one_mul, neg_mul, mul_neg' h,
        neg_mul' h, neg_neg, neg_sub_neg' h, mul_neg, mul_one]

theorem pointPotential_mirrored (h : Rounds F rnd) (e : Signs) (current rho : ℝ) {l m p q : V3 ℝ} (hd : q - m = e.flip (p - l)) :
    pointPotential F current rho m q = pointPotential F current rho l p := by
  simp only [pointPotential, diff_flip h e hd, norm_flip h]

/-- **C152.** The same for electrodes, in the ground only with signs of horizontal differences. -/
theorem electrode_mirrored (h : Rounds F rnd) (e : Signs) (current rho : ℝ) (l m p q : V3 ℝ) (hd : q - m = e.flip (p - l)) :
    pointPotential F current rho m q = pointPotential F current rho l p ∧
    pointElectricField F current rho m q = e.flip (pointElectricField F current rho l p) ∧
    (m.z = l.z → q.z = p.z → halfPotential F current rho m q = halfPotential F current rho l p) := by
  refine ⟨pointPotential_mirrored h e current rho hd, ?_, fun hm hq => ?_⟩
  · simp only [pointElectricField, diff_flip h e hd, norm_flip h]
    exact flip_map e _ _ fun x => by simp only [neg_div' h, mul_neg' h]
  · have k : q - ⟨m.x, m.y, -m.z⟩ = (⟨e.x, e.y, 1⟩ : Signs).flip (p - ⟨l.x, l.y, -l.z⟩) := by
      have hx := congrArg V3.x hd
      have hy := congrArg V3.y hd
      ext
      · exact hx
      · exact hy
      · simp [Signs.flip, hm, hq]
    rw [halfPotential, halfPotential, pointPotential_mirrored h e current rho hd, pointPotential_mirrored h _ current rho k]

/-! ### Exchange and reversal -/

/-- **C152.** Electrode and station can be exchanged; the electrodes of a wire give opposite potentials when exchanged, also to the last bit. -/
theorem exchanged (h : Rounds F rnd) (current rho sigma : ℝ) (a b p : V3 ℝ) :
    pointPotential F current rho a b = pointPotential F current rho b a ∧
    halfPotential F current rho a b = halfPotential F current rho b a ∧
    wirePotential F current sigma a b p = -wirePotential F current sigma b a p := by
  refine ⟨pointPotential_mirrored h ⟨-1, -1, -1⟩ current rho (by ext <;> simp [Signs.flip]), ?_, ?_⟩
  · rw [halfPotential, halfPotential, pointPotential_mirrored h ⟨-1, -1, -1⟩ current rho (l := b) (p := a) (by ext <;> simp [Signs.flip]),
      pointPotential_mirrored h ⟨-1, -1, 1⟩ current rho (m := ⟨a.x, a.y, -a.z⟩) (q := b) (l := ⟨b.x, b.y, -b.z⟩) (p := a) (by ext <;> simp [Signs.flip, add_comm])]
  · simp only [wirePotential]
    rw [sub_swap h, mul_neg' h]

/-- **C152.** A reversed source gives reversed results. -/
theorem reversed (h : Rounds F rnd) (m : PointMass) (d : Static.MagDipole) (current rho sigma : ℝ) (a b p : V3 ℝ) :
    PointMass.gravitationalPotential F { m with mass := -m.mass } p = -PointMass.gravitationalPotential F m p ∧
    PointMass.gravitationalField F { m with mass := -m.mass } p = (PointMass.gravitationalField F m p).map (-·) ∧
    MagDipole.magneticFluxDensity F { d with moment := -d.moment } p = (MagDipole.magneticFluxDensity F d p).map (-·) ∧
    pointPotential F (-current) rho a p = -pointPotential F current rho a p ∧
    halfPotential F (-current) rho a p = -halfPotential F current rho a p ∧
    wirePotential F (-current) sigma a b p = -wirePotential F current sigma a b p := by
  have e : ∀ a, pointPotential F (-current) rho a p = -pointPotential F current rho a p := fun a => by simp only [pointPotential, neg_div' h]
  refine ⟨?_, ?_, ?_, e a, ?_, ?_⟩
  · simp only [PointMass.gravitationalPotential, mul_neg' h, neg_div' h]
  · simp only [PointMass.gravitationalField, V3.map, mul_neg' h, neg_mul' h, neg_div' h]
  · simp only [MagDipole.magneticFluxDensity, V3.map, neg_mul' h, neg_div' h]
  · rw [halfPotential, halfPotential, e, e, h.add, h.add, ← h.odd]
    congr 1
    ring
  · simp only [wirePotential, neg_div' h, neg_mul' h]

/-! ### Signs and order -/

theorem sum3_mono (h : Rounds F rnd) {a b c x y z : ℝ} (h1 : a ≤ x) (h2 : b ≤ y) (h3 : c ≤ z) : sum3 F a b c ≤ sum3 F x y z := by
  simp only [sum3, h.add]
  split_ifs
  · exact h.mono (add_le_add (h.mono (add_le_add h1 h2)) h3)
  · exact h.mono (add_le_add h1 (h.mono (add_le_add h2 h3)))
  · exact h.mono (add_le_add (h.mono (add_le_add h1 h3)) h2)

theorem norm_nonneg (h : Rounds F rnd) (v : V3 ℝ) : 0 ≤ norm F v := by
  rw [norm, h.sqrt]
  exact h.nonneg (Real.sqrt_nonneg _)

theorem abs_rnd (h : Rounds F rnd) (x : ℝ) : |rnd x| = rnd |x| := by
  rcases le_total 0 x with hx | hx
  · rw [abs_of_nonneg hx, abs_of_nonneg (h.nonneg hx)]
  · rw [abs_of_nonpos hx, abs_of_nonpos (h.nonpos hx), h.odd]

/-- **C152.** The computed distance does not decrease when no coordinate gets closer. -/
theorem distance_mono (h : Rounds F rnd) (l p q : V3 ℝ) (hx : |p.x - l.x| ≤ |q.x - l.x|) (hy : |p.y - l.y| ≤ |q.y - l.y|) (hz : |p.z - l.z| ≤ |q.z - l.z|) :
    distance F l p ≤ distance F l q := by
  have k : ∀ a b : ℝ, |a| ≤ |b| → F.mul (rnd a) (rnd a) ≤ F.mul (rnd b) (rnd b) := fun a b hab => by
    rw [h.mul, h.mul]
    refine h.mono (abs_le_iff_mul_self_le.1 ?_)
    rw [abs_rnd h, abs_rnd h]
    exact h.mono hab
  simp only [distance, norm, h.sqrt, diff, h.sub]
  exact h.mono (Real.sqrt_le_sqrt (sum3_mono h (k _ _ hx) (k _ _ hy) (k _ _ hz)))

/-- **C152.** The computed potential of a mass is not negative, and does not increase on the way from it, wherever the computed distance is not zero. -/
theorem potential_falls (h : Rounds F rnd) (m : PointMass) (hm : 0 ≤ m.mass) (p q : V3 ℝ) :
    0 ≤ PointMass.gravitationalPotential F m p ∧
    (0 < distance F m.location p → |p.x - m.location.x| ≤ |q.x - m.location.x| → |p.y - m.location.y| ≤ |q.y - m.location.y| →
      |p.z - m.location.z| ≤ |q.z - m.location.z| → PointMass.gravitationalPotential F m q ≤ PointMass.gravitationalPotential F m p) := by
  have hG : 0 ≤ F.mul (F.const G) m.mass := by
    rw [h.mul, h.const]
    exact h.nonneg (mul_nonneg (h.nonneg (by norm_num [G])) hm)
  constructor
  · simp only [PointMass.gravitationalPotential]
    rw [h.div]
    exact h.nonneg (div_nonneg hG (norm_nonneg h _))
  · intro hp hx hy hz
    simp only [PointMass.gravitationalPotential]
    rw [h.div, h.div]
    exact h.mono (div_le_div_of_nonneg_left hG hp (distance_mono h _ _ _ hx hy hz))

/-- **C152.** No component of the computed field points away from the mass. -/
theorem field_attracts (h : Rounds F rnd) (m : PointMass) (hm : 0 ≤ m.mass) (p : V3 ℝ) :
    (PointMass.gravitationalField F m p).x * (p.x - m.location.x) ≤ 0 ∧ (PointMass.gravitationalField F m p).y * (p.y - m.location.y) ≤ 0 ∧
    (PointMass.gravitationalField F m p).z * (p.z - m.location.z) ≤ 0 := by
  have hG : F.mul (-F.const G) m.mass ≤ 0 := by
    rw [neg_mul' h, h.mul, h.const]
    exact neg_nonpos.2 (h.nonneg (mul_nonneg (h.nonneg (by norm_num [G])) hm))
  set r := norm F (diff F p m.location) with hr
  have r0 : 0 ≤ r := norm_nonneg h _
  have r2 := h.pow_nonneg r 2 r0
  have k : ∀ x : ℝ, F.div (F.mul (F.mul (-F.const G) m.mass) (F.div (rnd x) r)) (F.pow r 2) * x ≤ 0 := fun x => by
    rcases le_total 0 x with hx | hx
    · refine mul_nonpos_of_nonpos_of_nonneg ?_ hx
      rw [h.div, h.mul _ (F.div _ _), h.div (rnd x)]
      exact h.nonpos (div_nonpos_of_nonpos_of_nonneg (h.nonpos (mul_nonpos_of_nonpos_of_nonneg hG (h.nonneg (div_nonneg (h.nonneg hx) r0)))) r2)
    · refine mul_nonpos_of_nonneg_of_nonpos ?_ hx
      rw [h.div, h.mul _ (F.div _ _), h.div (rnd x)]
      exact h.nonneg (div_nonneg (h.nonneg (mul_nonneg_of_nonpos_of_nonpos hG (h.nonpos (div_nonpos_of_nonpos_of_nonneg (h.nonpos hx) r0)))) r2)
  have hd : diff F p m.location = ⟨rnd (p.x - m.location.x), rnd (p.y - m.location.y), rnd (p.z - m.location.z)⟩ := by simp only [diff, h.sub]
  simp only [PointMass.gravitationalField, ← hr, unit]
  rw [hd]
  exact ⟨k _, k _, k _⟩

/-! ### Symmetric tensors -/

/-- **C152.** The tensor of a prism is symmetric to the last bit, and so is that of a sphere inside it. -/
theorem tensor_symmetric_partial {u : ℝ} (A : ArithLog u) (b : Prism.GravPrism) (p : V3 ℝ) (h : Rounds F rnd) (s : Sphere) :
    ((GravPrism.gravitationalGradient A b p).x.y = (GravPrism.gravitationalGradient A b p).y.x ∧
      (GravPrism.gravitationalGradient A b p).x.z = (GravPrism.gravitationalGradient A b p).z.x ∧
      (GravPrism.gravitationalGradient A b p).y.z = (GravPrism.gravitationalGradient A b p).z.y) ∧
    (distance F s.location p < s.radius → ∃ k, Sphere.gravitationalGradient F s p = some ⟨⟨k, 0, 0⟩, ⟨0, k, 0⟩, ⟨0, 0, k⟩⟩) := by
  refine ⟨⟨rfl, rfl, rfl⟩, fun hlt => ?_⟩
  have hz : ∀ a, F.mul a 0 = 0 := fun a => by rw [h.mul, mul_zero, h.zero]
  simp only [Sphere.gravitationalGradient, hz]
  rw [distance] at hlt
  rw [if_neg hlt.ne, if_neg (not_lt.2 hlt.le)]
  exact ⟨_, rfl⟩

theorem round3 : nearest 3 = 3 := by
  rw [nearest_eq 6755399441055744 (-51) (by norm_num) (by norm_num) (by norm_num)]; norm_num
theorem round4 : nearest 4 = 4 := by
  rw [nearest_eq 4503599627370496 (-50) (by norm_num) (by norm_num) (by norm_num)]; norm_num
theorem round9 : nearest 9 = 9 := by
  rw [nearest_eq 5066549580791808 (-49) (by norm_num) (by norm_num) (by norm_num)]; norm_num
theorem round16 : nearest 16 = 16 := by
  rw [nearest_eq 4503599627370496 (-48) (by norm_num) (by norm_num) (by norm_num)]; norm_num
theorem round25 : nearest 25 = 25 := by
  rw [nearest_eq 7036874417766400 (-48) (by norm_num) (by norm_num) (by norm_num)]; norm_num
theorem round5 : nearest 5 = 5 := by
  rw [nearest_eq 5629499534213120 (-50) (by norm_num) (by norm_num) (by norm_num)]; norm_num
theorem round125 : nearest 125 = 125 := by
  rw [nearest_eq 8796093022208000 (-46) (by norm_num) (by norm_num) (by norm_num)]; norm_num

theorem sum_of_squares (order : Fin 3) : sum3 (Ops.nearest order) 9 16 0 = 25 := by
  have e : ∀ a b, (Ops.nearest order).add a b = nearest (a + b) := fun _ _ => rfl
  simp only [sum3, e]
  split_ifs
  · rw [show (9 : ℝ) + 16 = 25 by norm_num, round25, add_zero, round25]
  · rw [add_zero, round16, show (9 : ℝ) + 16 = 25 by norm_num, round25]
  · rw [add_zero, round9, show (9 : ℝ) + 16 = 25 by norm_num, round25]

theorem roundG : nearest G = 5163989502626508 / 2 ^ 86 := by
  rw [nearest_eq 5163989502626508 (-86) (by norm_num [G]) (by norm_num [G]) (by norm_num [G, abs_lt])]; norm_num

/-- **C152.** The tensor of a point mass is not: with double precision, at the station (3, 4, 0), the entries xy and yx differ in the last bit. -/
theorem pointMass_tensor_asymmetric (order : Fin 3) :
    (PointMass.gravitationalGradient (Ops.nearest order) ⟨1, 0⟩ ⟨3, 4, 0⟩).x.y ≠
      (PointMass.gravitationalGradient (Ops.nearest order) ⟨1, 0⟩ ⟨3, 4, 0⟩).y.x := by
  have hn : norm (Ops.nearest order) ⟨3, 4, 0⟩ = 5 := by
    show nearest (Real.sqrt (sum3 (Ops.nearest order) (nearest (3 * 3)) (nearest (4 * 4)) (nearest (0 * 0)))) = 5
    rw [show (3 : ℝ) * 3 = 9 by norm_num, show (4 : ℝ) * 4 = 16 by norm_num, zero_mul, round9, round16, nearest_zero, sum_of_squares,
      show (25 : ℝ) = 5 ^ 2 by norm_num, Real.sqrt_sq (by norm_num), round5]
  have hd : diff (Ops.nearest order) ⟨3, 4, 0⟩ 0 = ⟨3, 4, 0⟩ := by
    show (⟨nearest (3 - 0), nearest (4 - 0), nearest (0 - 0)⟩ : V3 ℝ) = _
    rw [sub_zero, sub_zero, sub_zero, round3, round4, nearest_zero]
  have ha : nearest (3 / 5) = 5404319552844595 / 2 ^ 53 := by
    rw [nearest_eq 5404319552844595 (-53) (by norm_num) (by norm_num) (by norm_num [abs_lt])]; norm_num
  have hb : nearest (4 / 5) = 7205759403792794 / 2 ^ 53 := by
    rw [nearest_eq 7205759403792794 (-53) (by norm_num) (by norm_num) (by norm_num [abs_lt])]; norm_num
  have h3a : nearest (3 * (5404319552844595 / 2 ^ 53)) = 8106479329266892 / 2 ^ 52 := by
    rw [nearest_tie 8106479329266892 (-52) (by norm_num) (by norm_num) (by norm_num), if_pos (by decide)]; norm_num
  have h3b : nearest (3 * (7205759403792794 / 2 ^ 53)) = 5404319552844596 / 2 ^ 51 := by
    rw [nearest_tie 5404319552844595 (-51) (by norm_num) (by norm_num) (by norm_num), if_neg (by decide)]; norm_num
  have hab : nearest (8106479329266892 / 2 ^ 52 * (7205759403792794 / 2 ^ 53)) = 6485183463413514 / 2 ^ 52 := by
    rw [nearest_eq 6485183463413514 (-52) (by norm_num) (by norm_num) (by norm_num [abs_lt])]; norm_num
  have hba : nearest (5404319552844596 / 2 ^ 51 * (5404319552844595 / 2 ^ 53)) = 6485183463413515 / 2 ^ 52 := by
    rw [nearest_eq 6485183463413515 (-52) (by norm_num) (by norm_num) (by norm_num [abs_lt])]; norm_num
  have nab : nearest (6485183463413514 / 2 ^ 52) = 6485183463413514 / 2 ^ 52 := by
    rw [nearest_eq 6485183463413514 (-52) (by norm_num) (by norm_num) (by norm_num [abs_lt])]; norm_num
  have nba : nearest (6485183463413515 / 2 ^ 52) = 6485183463413515 / 2 ^ 52 := by
    rw [nearest_eq 6485183463413515 (-52) (by norm_num) (by norm_num) (by norm_num [abs_lt])]; norm_num
  have hg : nearest (5163989502626508 / 2 ^ 86) = 5163989502626508 / 2 ^ 86 := by
    rw [nearest_eq 5163989502626508 (-86) (by norm_num) (by norm_num) (by norm_num [abs_lt])]; norm_num
  have kab : nearest (5163989502626508 / 2 ^ 86 * (6485183463413514 / 2 ^ 52)) = 7436144883782171 / 2 ^ 86 := by
    rw [nearest_eq 7436144883782171 (-86) (by norm_num) (by norm_num) (by norm_num [abs_lt])]; norm_num
  have kba : nearest (5163989502626508 / 2 ^ 86 * (6485183463413515 / 2 ^ 52)) = 7436144883782172 / 2 ^ 86 := by
    rw [nearest_eq 7436144883782172 (-86) (by norm_num) (by norm_num) (by norm_num [abs_lt])]; norm_num
  have fab : nearest (7436144883782171 / 2 ^ 86 / 125) = 7614612360992943 / 2 ^ 93 := by
    rw [nearest_eq 7614612360992943 (-93) (by norm_num) (by norm_num) (by norm_num [abs_lt])]; norm_num
  have fba : nearest (7436144883782172 / 2 ^ 86 / 125) = 7614612360992944 / 2 ^ 93 := by
    rw [nearest_eq 7614612360992944 (-93) (by norm_num) (by norm_num) (by norm_num [abs_lt])]; norm_num
  have e1 : (PointMass.gravitationalGradient (Ops.nearest order) ⟨1, 0⟩ ⟨3, 4, 0⟩).x.y = 7614612360992943 / 2 ^ 93 := by
    simp only [PointMass.gravitationalGradient, hd, hn, unit, V3.map]
    show nearest (nearest (nearest (-nearest G * 1) * nearest (0 - nearest (nearest (3 * nearest (3 / 5)) * nearest (4 / 5)))) / nearest (5 ^ 3)) = _
    rw [ha, hb, h3a, hab, zero_sub, nearest_neg, nab, roundG, mul_one, nearest_neg, hg, neg_mul_neg, kab, show (5 : ℝ) ^ 3 = 125 by norm_num, round125, fab]
  have e2 : (PointMass.gravitationalGradient (Ops.nearest order) ⟨1, 0⟩ ⟨3, 4, 0⟩).y.x = 7614612360992944 / 2 ^ 93 := by
    simp only [PointMass.gravitationalGradient, hd, hn, unit, V3.map]
    show nearest (nearest (nearest (-nearest G * 1) * nearest (0 - nearest (nearest (3 * nearest (4 / 5)) * nearest (3 / 5)))) / nearest (5 ^ 3)) = _
    rw [ha, hb, h3b, hba, zero_sub, nearest_neg, nba, roundG, mul_one, nearest_neg, hg, neg_mul_neg, kba, show (5 : ℝ) ^ 3 = 125 by norm_num, round125, fba]
  rw [e1, e2]
  norm_num

/-! ### Prisms -/

/-- **C152.** Where a prism and the station are does not matter, only the differences of their coordinates. -/
theorem prism_moved {u : ℝ} (A : ArithLog u) (h : Rounds A.toOps rnd) (b c : Prism.GravPrism) (hr : c.rho = b.rho) (p q : V3 ℝ)
    (h1 : c.box.min - q = b.box.min - p) (h2 : c.box.max - q = b.box.max - p) :
    GravPrism.gravitationalPotential A c q = GravPrism.gravitationalPotential A b p ∧
    GravPrism.gravitationalField A c q = GravPrism.gravitationalField A b p ∧
    GravPrism.gravitationalGradient A c q = GravPrism.gravitationalGradient A b p := by
  have e : ∀ f n, evalDefInt A c.box f q n = evalDefInt A b.box f p n := fun f n => by
    have hx := congrArg V3.x h1
    have hy := congrArg V3.y h1
    have hz := congrArg V3.z h1
    have kx := congrArg V3.x h2
    have ky := congrArg V3.y h2
    have kz := congrArg V3.z h2
    simp only [V3.sub_x, V3.sub_y, V3.sub_z] at hx hy hz kx ky kz
    simp only [evalDefInt, h.sub _ q.x, h.sub _ q.y, h.sub _ q.z, h.sub _ p.x, h.sub _ p.y, h.sub _ p.z, hx, hy, hz, kx, ky, kz]
  refine ⟨?_, ?_, ?_⟩
  · simp only [GravPrism.gravitationalPotential, e, hr]
  · simp only [GravPrism.gravitationalField, e, hr]
  · simp only [GravPrism.gravitationalGradient, e, hr]

/-! ### Non-vacuity -/

/-- Rounding to nearest is such an arithmetic. -/
example (order : Fin 3) : Rounds (Ops.nearest order) nearest := rounds_nearest order

/-- Stations left and right of a mass. -/
example : (⟨-2, 1, 0⟩ : V3 ℝ) - (⟨1, 0, 0⟩ : V3 ℝ) = (⟨-1, 1, 1⟩ : Signs).flip (⟨4, 1, 0⟩ - ⟨1, 0, 0⟩) := by
  ext <;> norm_num [Signs.flip]

end Verif.Rounded
