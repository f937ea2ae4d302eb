import Verif.Lemmas.Polygon
import Verif.Props.CircularLoop
import Verif.Props.ReciprocityWires
import Verif.Lemmas.SmallSource
import Verif.Spec.StaticLimit

/-! # C124: a polygonal wire with many sides has the field of the circular loop -/

namespace Verif.PolygonLoop

open Real Filter Topology Polygon V3

/-- The corners of the regular polygon with `n` sides inscribed in the circle, the first one repeated at the end. -/
noncomputable def nodes (c e1 e2 : V3 ℝ) (a : ℝ) (n : ℕ) : List (V3 ℝ) :=
  (List.range (n + 1)).map fun k : ℕ => CircularWire.point c e1 e2 a (2 * π * k / n)

/-! ## helper lemmas: sums over the sides -/

theorem segSum_range (φ : V3 ℝ → ℝ) (h0 : φ 0 = 0) (ha : ∀ a b, φ (a + b) = φ a + φ b) (g : V3 ℝ → V3 ℝ → V3 ℝ) (n : ℕ) (p : ℕ → V3 ℝ) :
    φ (BiotSavart.segSum g ((List.range (n + 1)).map p)) = ∑ k ∈ Finset.range n, φ (g (p k) (p (k + 1))) := by
  induction n generalizing p with
  | zero => simp [BiotSavart.segSum, h0]
  | succ n ih =>
    have := ih (fun k => p (k + 1))
    rw [List.range_succ_eq_map, List.map_cons, List.map_map] at this ⊢
    rw [List.range_succ_eq_map, List.map_cons, List.map_map, BiotSavart.segSum, ha, Finset.sum_range_succ']
    simp only [Function.comp_def, Nat.succ_eq_add_one, zero_add] at this ⊢
    rw [this, add_comm]

theorem wirePotential_segSum (q : V3 ℝ) (l : List (V3 ℝ)) :
    WireIntegral.wirePotential q l = BiotSavart.segSum (fun p0 p1 => WireIntegral.segmentPotential p0 p1 q) l := by
  match l with
  | [] => rfl
  | [_] => rfl
  | p0 :: p1 :: rest => rw [WireIntegral.wirePotential, BiotSavart.segSum, wirePotential_segSum q (p1 :: rest)]

theorem chain_range {R : V3 ℝ → V3 ℝ → Prop} (n : ℕ) (p : ℕ → V3 ℝ) :
    ((List.range (n + 1)).map p).IsChain R ↔ ∀ k < n, R (p k) (p (k + 1)) := by
  induction n generalizing p with
  | zero => simp
  | succ n ih =>
    have := ih (fun k => p (k + 1))
    rw [List.range_succ_eq_map, List.map_cons, List.map_map] at this ⊢
    rw [List.range_succ_eq_map, List.map_cons, List.map_map, List.isChain_cons_cons]
    simp only [Function.comp_def, Nat.succ_eq_add_one, zero_add] at this ⊢
    rw [this]
    constructor
    · rintro ⟨h1, h2⟩ (_ | k) hk
      · exact h1
      · exact h2 k (by omega)
    · intro h
      exact ⟨h 0 (by omega), fun k hk => h (k + 1) (by omega)⟩

/-! ## helper lemmas: the kernel -/

section
variable {c e1 e2 : V3 ℝ} {a : ℝ} {q : V3 ℝ}

/-- The point of the plane with coordinates `a x`, `a y`. -/
noncomputable def spot (c e1 e2 : V3 ℝ) (a x y : ℝ) : V3 ℝ := c + (a * x) • e1 + (a * y) • e2

theorem point_eq (t : ℝ) : CircularWire.point c e1 e2 a t = spot c e1 e2 a (cos t) (sin t) := rfl

theorem next_angle (k n : ℕ) : 2 * π * ((k + 1 : ℕ) : ℝ) / n = 2 * π * k / n + 2 * π / n := by push_cast; ring

theorem side (k n : ℕ) : CircularWire.point c e1 e2 a (2 * π * ((k + 1 : ℕ) : ℝ) / n) - CircularWire.point c e1 e2 a (2 * π * k / n) =
    (a * (cos (2 * π * k / n + 2 * π / n) - cos (2 * π * k / n))) • e1 + (a * (sin (2 * π * k / n + 2 * π / n) - sin (2 * π * k / n))) • e2 := by
  rw [next_angle]
  simp only [CircularWire.point]
  module

theorem on_side (k n : ℕ) (t : ℝ) : CircularWire.point c e1 e2 a (2 * π * k / n) +
      t • (CircularWire.point c e1 e2 a (2 * π * ((k + 1 : ℕ) : ℝ) / n) - CircularWire.point c e1 e2 a (2 * π * k / n)) =
    spot c e1 e2 a (chord cos (2 * π * k / n) (2 * π / n) t) (chord sin (2 * π * k / n) (2 * π / n) t) := by
  rw [side]
  simp only [CircularWire.point, spot, chord]
  module

theorem dist_lipschitz (x y x' y' : ℝ) : |(q - spot c e1 e2 a x y).len - (q - spot c e1 e2 a x' y').len| ≤
    |a| * (e1.len + e2.len) * (|x - x'| + |y - y'|) := by
  refine (FarField.abs_len_sub_le _ _).trans ?_
  have e : q - spot c e1 e2 a x y - (q - spot c e1 e2 a x' y') = (a * (x' - x)) • e1 + (a * (y' - y)) • e2 := by
    simp only [spot]; module
  rw [e]
  refine (V3.len_add_le _ _).trans ?_
  rw [V3.len_smul, V3.len_smul, abs_mul, abs_mul, abs_sub_comm x', abs_sub_comm y']
  have := V3.len_nonneg e1
  have := V3.len_nonneg e2
  have h1 : 0 ≤ |a| * (e1.len * |y - y'|) := by positivity
  have h2 : 0 ≤ |a| * (e2.len * |x - x'|) := by positivity
  linarith

theorem dist_continuous : Continuous fun w : ℝ × ℝ => (q - spot c e1 e2 a w.1 w.2).len := by
  simp only [V3.len, spot, V3.sub_x, V3.sub_y, V3.sub_z, V3.add_x, V3.add_y, V3.add_z, V3.smul_x, V3.smul_y, V3.smul_z, smul_eq_mul]
  fun_prop

/-- Convergence of one component of a sum of line integrals over the sides. -/
theorem tendsto_component {N : ℝ → ℝ → ℝ → ℝ → ℝ} (hN : Continuous fun w : ℝ × ℝ × ℝ × ℝ => N w.1 w.2.1 w.2.2.1 w.2.2.2)
    (hk : ∀ x y u v r : ℝ, N x y (r * u) (r * v) = r * N x y u v) (hq : ∀ t, q ≠ CircularWire.point c e1 e2 a t) (j : ℕ)
    {l : Filter ℕ} [l.IsCountablyGenerated] (hl : l ≤ atTop) (off : ∀ᶠ n in l, Static.Off (nodes c e1 e2 a n) q) :
    Tendsto (fun n : ℕ => ∑ k ∈ Finset.range n, ∫ t in (0 : ℝ)..1,
        N (chord cos (2 * π * k / n) (2 * π / n) t) (chord sin (2 * π * k / n) (2 * π / n) t)
          (cos (2 * π * k / n + 2 * π / n) - cos (2 * π * k / n)) (sin (2 * π * k / n + 2 * π / n) - sin (2 * π * k / n)) /
        (q - spot c e1 e2 a (chord cos (2 * π * k / n) (2 * π / n) t) (chord sin (2 * π * k / n) (2 * π / n) t)).len ^ j) l
      (𝓝 (∫ t in (0 : ℝ)..(2 * π), N (cos t) (sin t) (-sin t) (cos t) / (q - spot c e1 e2 a (cos t) (sin t)).len ^ j)) := by
  refine tendsto_edges (D := fun x y => (q - spot c e1 e2 a x y).len) hN dist_continuous hk (fun t => ?_) (fun _ _ => V3.len_nonneg _)
    dist_lipschitz ?_ j hl ?_
  · rw [← point_eq]
    exact V3.len_sub_ne_zero (hq t)
  · have := V3.len_nonneg e1
    have := V3.len_nonneg e2
    positivity
  · filter_upwards [off] with n hn k hkn t
    have h := (chain_range (R := fun p0 p1 => Static.OffLine p0 p1 q) n (fun k : ℕ => CircularWire.point c e1 e2 a (2 * π * k / n))).1 hn k hkn
    have h2 := WireIntegral.off_len h t
    rwa [on_side] at h2

/-- The line element for the coordinate velocities `u`, `v`. -/
noncomputable def element (e1 e2 : V3 ℝ) (a u v : ℝ) : V3 ℝ := (a * u) • e1 + (a * v) • e2

theorem tangent_eq (t : ℝ) : CircularWire.tangent e1 e2 a t = element e1 e2 a (-sin t) (cos t) := by
  simp only [CircularWire.tangent, element]; module

theorem integrand_eq (k n : ℕ) (t : ℝ) : BiotSavart.integrand (CircularWire.point c e1 e2 a (2 * π * k / n))
      (CircularWire.point c e1 e2 a (2 * π * ((k + 1 : ℕ) : ℝ) / n)) q t =
    ((element e1 e2 a (cos (2 * π * k / n + 2 * π / n) - cos (2 * π * k / n)) (sin (2 * π * k / n + 2 * π / n) - sin (2 * π * k / n))).cross
      (q - spot c e1 e2 a (chord cos (2 * π * k / n) (2 * π / n) t) (chord sin (2 * π * k / n) (2 * π / n) t))).map
      (· / (q - spot c e1 e2 a (chord cos (2 * π * k / n) (2 * π / n) t) (chord sin (2 * π * k / n) (2 * π / n) t)).len ^ 3) := by
  rw [BiotSavart.integrand]
  simp only [on_side]
  rw [side, element]

/-- The Biot–Savart integrals along the polygons tend to the one along the circle. -/
theorem flux_tends (hq : ∀ t, q ≠ CircularWire.point c e1 e2 a t) {l : Filter ℕ} [l.IsCountablyGenerated] (hl : l ≤ atTop)
    (off : ∀ᶠ n in l, Static.Off (nodes c e1 e2 a n) q) :
    V3.Tends (fun n => BiotSavart.polyline (nodes c e1 e2 a n) q) l (CircularWire.flux c e1 e2 a q) := by
  have main : ∀ φ : V3 ℝ → ℝ, (φ = V3.x ∨ φ = V3.y ∨ φ = V3.z) → Tendsto (fun n : ℕ => ∑ k ∈ Finset.range n, ∫ t in (0 : ℝ)..1,
        φ (BiotSavart.integrand (CircularWire.point c e1 e2 a (2 * π * k / n)) (CircularWire.point c e1 e2 a (2 * π * ((k + 1 : ℕ) : ℝ) / n)) q t)) l
      (𝓝 (∫ t in (0 : ℝ)..(2 * π), φ (((CircularWire.tangent e1 e2 a t).cross (q - CircularWire.point c e1 e2 a t)).map
        (· / (q - CircularWire.point c e1 e2 a t).len ^ 3)))) := by
    intro φ hφ
    have h := tendsto_component (c := c) (e1 := e1) (e2 := e2) (a := a) (q := q) (N := fun x y u v => φ ((element e1 e2 a u v).cross (q - spot c e1 e2 a x y))) ?_ ?_ hq 3 hl off
    · have e : ∀ (v : V3 ℝ) (r : ℝ), φ (v.map (· / r)) = φ v / r := by rcases hφ with rfl | rfl | rfl <;> intro v r <;> rfl
      simp only [integrand_eq, e]
      simp only [tangent_eq, point_eq]
      exact h
    · rcases hφ with rfl | rfl | rfl <;>
        simp only [element, spot, V3.cross, V3.sub_x, V3.sub_y, V3.sub_z, V3.add_x, V3.add_y, V3.add_z, V3.smul_x, V3.smul_y, V3.smul_z, smul_eq_mul] <;>
        fun_prop
    · rcases hφ with rfl | rfl | rfl <;> intro x y u v r <;>
        simp only [element, spot, V3.cross, V3.sub_x, V3.sub_y, V3.sub_z, V3.add_x, V3.add_y, V3.add_z, V3.smul_x, V3.smul_y, V3.smul_z, smul_eq_mul] <;>
        ring
  refine ⟨?_, ?_, ?_⟩
  · refine (main V3.x (.inl rfl)).congr fun n => ?_
    simp only [BiotSavart.polyline, nodes]
    rw [segSum_range V3.x rfl (fun _ _ => rfl)]
    rfl
  · refine (main V3.y (.inr (.inl rfl))).congr fun n => ?_
    simp only [BiotSavart.polyline, nodes]
    rw [segSum_range V3.y rfl (fun _ _ => rfl)]
    rfl
  · refine (main V3.z (.inr (.inr rfl))).congr fun n => ?_
    simp only [BiotSavart.polyline, nodes]
    rw [segSum_range V3.z rfl (fun _ _ => rfl)]
    rfl

/-- The integrals `∫ dl/|q - s|` along the polygons tend to the one along the circle. -/
theorem potential_tends (hq : ∀ t, q ≠ CircularWire.point c e1 e2 a t) {l : Filter ℕ} [l.IsCountablyGenerated] (hl : l ≤ atTop)
    (off : ∀ᶠ n in l, Static.Off (nodes c e1 e2 a n) q) :
    V3.Tends (fun n => WireIntegral.wirePotential q (nodes c e1 e2 a n)) l (CircularWire.potential c e1 e2 a q) := by
  have main : ∀ φ : V3 ℝ → ℝ, (φ = V3.x ∨ φ = V3.y ∨ φ = V3.z) → Tendsto (fun n : ℕ => ∑ k ∈ Finset.range n,
        φ (WireIntegral.segmentPotential (CircularWire.point c e1 e2 a (2 * π * k / n)) (CircularWire.point c e1 e2 a (2 * π * ((k + 1 : ℕ) : ℝ) / n)) q)) l
      (𝓝 (∫ t in (0 : ℝ)..(2 * π), φ ((CircularWire.tangent e1 e2 a t).map (· / (q - CircularWire.point c e1 e2 a t).len)))) := by
    intro φ hφ
    have h := tendsto_component (c := c) (e1 := e1) (e2 := e2) (a := a) (q := q) (N := fun x y u v => φ (element e1 e2 a u v)) ?_ ?_ hq 1 hl off
    · have e : ∀ (v : V3 ℝ) (r : ℝ), φ (v.map (· / r)) = φ v / r := by rcases hφ with rfl | rfl | rfl <;> intro v r <;> rfl
      have hs : ∀ (v : V3 ℝ) (r : ℝ), φ (r • v) = r * φ v := by rcases hφ with rfl | rfl | rfl <;> intro v r <;> rfl
      simp only [WireIntegral.segmentPotential, on_side]
      simp only [side, e, hs, ← intervalIntegral.integral_mul_const, one_div_mul_eq_div]
      simp only [tangent_eq, point_eq]
      simpa only [pow_one, element] using h
    · rcases hφ with rfl | rfl | rfl <;>
        simp only [element, V3.add_x, V3.add_y, V3.add_z, V3.smul_x, V3.smul_y, V3.smul_z, smul_eq_mul] <;>
        fun_prop
    · rcases hφ with rfl | rfl | rfl <;> intro x y u v r <;>
        simp only [element, V3.add_x, V3.add_y, V3.add_z, V3.smul_x, V3.smul_y, V3.smul_z, smul_eq_mul] <;>
        ring
  refine ⟨?_, ?_, ?_⟩
  · refine (main V3.x (.inl rfl)).congr fun n => ?_
    simp only [wirePotential_segSum, nodes]
    rw [segSum_range V3.x rfl (fun _ _ => rfl)]
  · refine (main V3.y (.inr (.inl rfl))).congr fun n => ?_
    simp only [wirePotential_segSum, nodes]
    rw [segSum_range V3.y rfl (fun _ _ => rfl)]
  · refine (main V3.z (.inr (.inr rfl))).congr fun n => ?_
    simp only [wirePotential_segSum, nodes]
    rw [segSum_range V3.z rfl (fun _ _ => rfl)]

/-! ## helper lemmas: which polygons are computed by the plain formulas -/

theorem frame_unit {n : V3 ℝ} (he : CircularWire.IsFrame e1 e2 n) : n.dot n = 1 ∧ e1.dot n = 0 ∧ e2.dot n = 0 := by
  obtain ⟨h1, h2, h3, rfl⟩ := he
  simp only [V3.dot, V3.cross] at *
  refine ⟨?_, by ring, by ring⟩
  grind

/-- Off the wire means off the circle. -/
theorem ne_point {n : V3 ℝ} (he : CircularWire.IsFrame e1 e2 n) (ha : 0 < a) (h : ¬ (n.dot (q - c) = 0 ∧ (n.cross (q - c)).len = a)) (t : ℝ) :
    q ≠ CircularWire.point c e1 e2 a t := by
  rintro rfl
  obtain ⟨h1, h2, h3, h4⟩ := he
  obtain ⟨h5, h6, h7⟩ := frame_unit ⟨h1, h2, h3, h4⟩
  have e : CircularWire.point c e1 e2 a t - c = (a * cos t) • e1 + (a * sin t) • e2 := by simp only [CircularWire.point]; abel
  rw [e] at h
  refine h ⟨?_, ?_⟩
  · have : n.dot ((a * cos t) • e1 + (a * sin t) • e2) = a * cos t * e1.dot n + a * sin t * e2.dot n := by simp [V3.dot]; ring
    rw [this, h6, h7]; ring
  · have k : (n.cross ((a * cos t) • e1 + (a * sin t) • e2)).len ^ 2 = a ^ 2 := by
      rw [← V3.dot_self, V3.cross_dot_self, h5]
      have i1 : ((a * cos t) • e1 + (a * sin t) • e2).dot ((a * cos t) • e1 + (a * sin t) • e2) =
          a ^ 2 * (cos t ^ 2 * e1.dot e1 + sin t ^ 2 * e2.dot e2 + 2 * (cos t * sin t) * e1.dot e2) := by simp [V3.dot]; ring
      have i2 : n.dot ((a * cos t) • e1 + (a * sin t) • e2) = a * cos t * e1.dot n + a * sin t * e2.dot n := by simp [V3.dot]; ring
      rw [i1, i2, h1, h2, h3, h6, h7]
      linear_combination a ^ 2 * sin_sq_add_cos_sq t
    exact (pow_left_inj₀ (V3.len_nonneg _) ha.le two_ne_zero).1 k

theorem cos_lt_one {n : ℕ} (hn : 2 ≤ n) : cos (2 * π / n) < 1 := by
  have hn' : (2 : ℝ) ≤ n := by exact_mod_cast hn
  have hw : 2 * π / n ≤ π := by rw [div_le_iff₀ (by linarith)]; nlinarith [pi_pos]
  rw [← cos_zero]
  exact cos_lt_cos_of_nonneg_of_le_pi le_rfl hw (by positivity)

/-- The square of the length of a side. -/
theorem side_sq {m : V3 ℝ} (he : CircularWire.IsFrame e1 e2 m) (b w : ℝ) :
    ((a * (cos (b + w) - cos b)) • e1 + (a * (sin (b + w) - sin b)) • e2).dot ((a * (cos (b + w) - cos b)) • e1 + (a * (sin (b + w) - sin b)) • e2) =
      2 * a ^ 2 * (1 - cos w) := by
  obtain ⟨h1, h2, h3, -⟩ := he
  have i1 : ∀ x y : ℝ, (x • e1 + y • e2).dot (x • e1 + y • e2) = x ^ 2 * e1.dot e1 + y ^ 2 * e2.dot e2 + 2 * (x * y) * e1.dot e2 := by
    intro x y; simp [V3.dot]; ring
  rw [i1, h1, h2, h3, cos_add, sin_add]
  have p1 := sin_sq_add_cos_sq b
  have p2 := sin_sq_add_cos_sq w
  linear_combination (a ^ 2 * (1 - 2 * cos w) + a ^ 2 * (sin w ^ 2 + cos w ^ 2)) * p1 + a ^ 2 * p2

theorem side_ne {m : V3 ℝ} (he : CircularWire.IsFrame e1 e2 m) (ha : 0 < a) {n : ℕ} (hn : 2 ≤ n) (k : ℕ) :
    CircularWire.point c e1 e2 a (2 * π * k / n) ≠ CircularWire.point c e1 e2 a (2 * π * ((k + 1 : ℕ) : ℝ) / n) := by
  intro h
  have e := side_sq (a := a) he (2 * π * k / n) (2 * π / n)
  rw [← side (c := c), h, sub_self] at e
  have := cos_lt_one hn
  have h0 : 0 < 2 * a ^ 2 * (1 - cos (2 * π / n)) := by have := sub_pos.2 this; positivity
  rw [← e] at h0
  simp [V3.dot] at h0

/-- **C124.** Points outside the plane of the loop are off the lines through the sides of every polygon. -/
theorem off_plane {m : V3 ℝ} (he : CircularWire.IsFrame e1 e2 m) (ha : 0 < a) {n : ℕ} (hn : 2 ≤ n) (hq : m.dot (q - c) ≠ 0) :
    Static.Off (nodes c e1 e2 a n) q := by
  refine (chain_range (R := fun p0 p1 => Static.OffLine p0 p1 q) n _).2 fun k _ h => ?_
  have e := side_sq (a := a) he (2 * π * k / n) (2 * π / n)
  obtain ⟨-, h6, h7⟩ := frame_unit he
  have hs := side (c := c) (e1 := e1) (e2 := e2) (a := a) k n
  set w := CircularWire.point c e1 e2 a (2 * π * ((k + 1 : ℕ) : ℝ) / n) - CircularWire.point c e1 e2 a (2 * π * k / n)
  rw [← hs] at e
  have hw : w.dot m = 0 := by
    rw [hs]
    have : ∀ x y : ℝ, (x • e1 + y • e2).dot m = x * e1.dot m + y * e2.dot m := by intro x y; simp [V3.dot]; ring
    rw [this, h6, h7]; ring
  have hd : m.dot (q - CircularWire.point c e1 e2 a (2 * π * k / n)) = m.dot (q - c) := by
    have : ∀ x y : ℝ, m.dot (q - (c + x • e1 + y • e2)) = m.dot (q - c) - x * e1.dot m - y * e2.dot m := by intro x y; simp [V3.dot]; ring
    rw [CircularWire.point, this, h6, h7]; ring
  have h0 : 0 < w.dot w := by
    rw [e]
    have := sub_pos.2 (cos_lt_one hn)
    positivity
  set d := q - CircularWire.point c e1 e2 a (2 * π * k / n)
  have id : (w.cross d).dot (m.cross w) = w.dot m * d.dot w - w.dot w * m.dot d := by simp only [V3.cross, V3.dot]; ring
  rw [h, hw, hd] at id
  have : w.dot w * m.dot (q - c) = 0 := by
    have z : (0 : V3 ℝ).dot (m.cross w) = 0 := by simp [V3.dot]
    rw [z] at id; linarith
  rcases mul_eq_zero.1 this with h1 | h1
  · exact h0.ne' h1
  · exact hq h1

theorem triad {u m : V3 ℝ} (h1 : u.dot u = 1) (h2 : m.dot m = 1) (h3 : u.dot m = 0) : u.x ^ 2 + m.x ^ 2 + (u.y * m.z - u.z * m.y) ^ 2 = 1 := by
  simp only [V3.dot] at *
  grind

/-- **C124.** If the axis of the loop is not exactly perpendicular to `x`, no side of any polygon is almost but not exactly parallel to `x`. -/
theorem regular_tilted {m : V3 ℝ} (he : CircularWire.IsFrame e1 e2 m) (ha : 0 < a) {n : ℕ} (hn : 2 ≤ n) (hx : Spatial.defaultTol ≤ |m.x|) :
    Static.Regular (nodes c e1 e2 a n) := by
  refine (chain_range (R := fun p0 p1 => p0 ≠ p1 ∧ Static.OffBand p0 p1) n _).2 fun k _ => ⟨side_ne he ha hn k, .inr (hx.trans ?_)⟩
  obtain ⟨h5, h6, h7⟩ := frame_unit he
  have hu := Static.tan_dot_self (side_ne (c := c) he ha hn k)
  have hs := side (c := c) (e1 := e1) (e2 := e2) (a := a) k n
  have hm : (Static.tan (CircularWire.point c e1 e2 a (2 * π * k / n)) (CircularWire.point c e1 e2 a (2 * π * ((k + 1 : ℕ) : ℝ) / n))).dot m = 0 := by
    have : ∀ (r x y : ℝ), ((x • e1 + y • e2).map (· / r)).dot m = (x * e1.dot m + y * e2.dot m) / r := by intro r x y; simp [V3.dot]; ring
    rw [Static.tan, Spatial.unit, hs, this, h6, h7]; ring
  set u := Static.tan (CircularWire.point c e1 e2 a (2 * π * k / n)) (CircularWire.point c e1 e2 a (2 * π * ((k + 1 : ℕ) : ℝ) / n))
  rw [← abs_of_nonneg (V3.len_nonneg _), ← sq_le_sq, V3.len_sq]
  have key := triad hu h5 hm
  simp only [V3.dot, V3.cross] at *
  nlinarith [sq_nonneg (u.y * m.z - u.z * m.y)]

end

/-! ## helper lemmas: limits -/

theorem len_le_sum (v : V3 ℝ) : v.len ≤ |v.x| + |v.y| + |v.z| := by
  have h : v.len ^ 2 ≤ (|v.x| + |v.y| + |v.z|) ^ 2 := by
    rw [V3.len_sq, ← sq_abs v.x, ← sq_abs v.y, ← sq_abs v.z]
    nlinarith [abs_nonneg v.x, abs_nonneg v.y, abs_nonneg v.z, mul_nonneg (abs_nonneg v.x) (abs_nonneg v.y),
      mul_nonneg (abs_nonneg v.x) (abs_nonneg v.z), mul_nonneg (abs_nonneg v.y) (abs_nonneg v.z)]
  exact (pow_le_pow_iff_left₀ (V3.len_nonneg _) (by positivity) two_ne_zero).1 h

theorem tends_eventually {l : Filter ℕ} {F : ℕ → V3 ℝ} {v : V3 ℝ} (h : V3.Tends F l v) (c : ℝ) {ε : ℝ} (hε : 0 < ε) :
    ∀ᶠ n in l, (c • F n - c • v).len ≤ ε := by
  have h' : Tendsto (fun n => |c * (F n).x - c * v.x| + |c * (F n).y - c * v.y| + |c * (F n).z - c * v.z|) l (𝓝 0) := by
    have := (((h.1.const_mul c).sub_const (c * v.x)).abs.add ((h.2.1.const_mul c).sub_const (c * v.y)).abs).add ((h.2.2.const_mul c).sub_const (c * v.z)).abs
    simpa using this
  filter_upwards [h'.eventually_lt_const hε] with n hn
  exact (len_le_sum _).trans hn.le

/-! ## C124 -/

/-- The polygonal wire with `n` sides inscribed in a circular loop, carrying the same current in the same direction. -/
noncomputable def wire (s : Static.Loop) (sigma : ℝ) (e1 e2 : V3 ℝ) (n : ℕ) : Static.LineCurrent :=
  ⟨s.mu, sigma, s.current, nodes s.location e1 e2 s.radius n⟩

/-- **C124.** A polygonal wire through enough equally spaced points of a circular loop has, to any accuracy, the vector potential and the magnetic
flux density of the loop: at points off the loop, off the lines through the sides, and outside the near-axis region of the loop. -/
theorem polygon_near_loop (s : Static.Loop) (sigma : ℝ) (hb : s.OffBand) (ha : 0 < s.radius) {e1 e2 : V3 ℝ} (he : CircularWire.IsFrame e1 e2 s.axis) (q : V3 ℝ)
    (h1 : s.AwayFromAxis s.axis q) (h2 : s.OffWire s.axis q) :
    ∃ A B, s.vectorPotential q = .ok (some A) ∧ s.magneticFluxDensity q = .ok (some B) ∧
      ∀ ε > 0, ∃ n₀, ∀ n ≥ n₀, Static.Regular (wire s sigma e1 e2 n).nodes → Static.Off (wire s sigma e1 e2 n).nodes q →
        ∃ A' B', (wire s sigma e1 e2 n).vectorPotential q = .ok A' ∧ (wire s sigma e1 e2 n).magneticFluxDensity q = .ok B' ∧
          (A' - A).len ≤ ε ∧ (B' - B).len ≤ ε := by
  obtain ⟨i1, i2⟩ := s.biot_savart hb ha he q h1 h2
  refine ⟨_, _, i1, i2, fun ε hε => ?_⟩
  have hq : ∀ t, q ≠ CircularWire.point s.location e1 e2 s.radius t := ne_point he ha h2
  have hl : atTop ⊓ 𝓟 {n : ℕ | Static.Off (nodes s.location e1 e2 s.radius n) q} ≤ atTop := inf_le_left
  have off : ∀ᶠ n in atTop ⊓ 𝓟 {n : ℕ | Static.Off (nodes s.location e1 e2 s.radius n) q}, Static.Off (nodes s.location e1 e2 s.radius n) q :=
    mem_inf_of_right (mem_principal_self _)
  have t1 := tends_eventually (potential_tends hq hl off) (s.mu * s.current / (4 * π)) hε
  have t2 := tends_eventually (flux_tends hq hl off) (s.mu * s.current / (4 * π)) hε
  have t := t1.and t2
  rw [eventually_inf_principal, eventually_atTop] at t
  obtain ⟨n₀, hn₀⟩ := t
  refine ⟨n₀, fun n hn hr ho => ?_⟩
  obtain ⟨k1, k2⟩ := hn₀ n hn ho
  exact ⟨_, _, Static.line_potential_integral _ q hr ho, Static.line_flux_biot_savart _ q hr ho, k1, k2⟩

/-- **C124.** The component of the flux density along the axis of the loop is approached at every point off the wire, near the axis too. -/
theorem polygon_near_loop_axial (s : Static.Loop) (sigma : ℝ) (hb : s.OffBand) (ha : 0 < s.radius) {e1 e2 : V3 ℝ} (he : CircularWire.IsFrame e1 e2 s.axis)
    (q : V3 ℝ) (h2 : s.OffWire s.axis q) :
    ∃ B, s.magneticFluxDensity q = .ok (some B) ∧
      ∀ ε > 0, ∃ n₀, ∀ n ≥ n₀, Static.Regular (wire s sigma e1 e2 n).nodes → Static.Off (wire s sigma e1 e2 n).nodes q →
        ∃ B', (wire s sigma e1 e2 n).magneticFluxDensity q = .ok B' ∧ |s.axis.dot B' - s.axis.dot B| ≤ ε := by
  obtain ⟨B, i1, i2⟩ := s.biot_savart_axial hb ha he q h2
  refine ⟨B, i1, fun ε hε => ?_⟩
  have hq : ∀ t, q ≠ CircularWire.point s.location e1 e2 s.radius t := ne_point he ha h2
  have hl : atTop ⊓ 𝓟 {n : ℕ | Static.Off (nodes s.location e1 e2 s.radius n) q} ≤ atTop := inf_le_left
  have off : ∀ᶠ n in atTop ⊓ 𝓟 {n : ℕ | Static.Off (nodes s.location e1 e2 s.radius n) q}, Static.Off (nodes s.location e1 e2 s.radius n) q :=
    mem_inf_of_right (mem_principal_self _)
  have t := tends_eventually (flux_tends hq hl off) (s.mu * s.current / (4 * π)) hε
  rw [eventually_inf_principal, eventually_atTop] at t
  obtain ⟨n₀, hn₀⟩ := t
  refine ⟨n₀, fun n hn hr ho => ?_⟩
  refine ⟨_, Static.line_flux_biot_savart _ q hr ho, ?_⟩
  have k := hn₀ n hn ho
  have hd : ∀ v : V3 ℝ, s.axis.dot ((s.mu * s.current / (4 * π)) • v) = s.mu * s.current / (4 * π) * s.axis.dot v := by intro v; simp [V3.dot]; ring
  rw [i2, ← hd]
  have hsub : ∀ v w : V3 ℝ, s.axis.dot v - s.axis.dot w = s.axis.dot (v - w) := by intro v w; simp [V3.dot]; ring
  rw [hsub]
  refine (FarField.abs_dot_le _ _).trans ?_
  rw [hb.frame.1, one_mul]
  exact k

/-- **C124.** For a loop whose axis is not exactly perpendicular to `x`, at points outside its plane and its near-axis region, the polygons converge without
exception. -/
theorem polygon_to_loop (s : Static.Loop) (sigma : ℝ) (hb : s.OffBand) (ha : 0 < s.radius) {e1 e2 : V3 ℝ} (he : CircularWire.IsFrame e1 e2 s.axis) (q : V3 ℝ)
    (h1 : s.AwayFromAxis s.axis q) (h2 : s.axis.dot (q - s.location) ≠ 0) (hx : Spatial.defaultTol ≤ |s.axis.x|) :
    ∃ A B, s.vectorPotential q = .ok (some A) ∧ s.magneticFluxDensity q = .ok (some B) ∧
      ∀ ε > 0, ∃ n₀, ∀ n ≥ n₀, ∃ A' B', (wire s sigma e1 e2 n).vectorPotential q = .ok A' ∧ (wire s sigma e1 e2 n).magneticFluxDensity q = .ok B' ∧
          (A' - A).len ≤ ε ∧ (B' - B).len ≤ ε := by
  obtain ⟨A, B, i1, i2, i3⟩ := polygon_near_loop s sigma hb ha he q h1 fun h => h2 h.1
  refine ⟨A, B, i1, i2, fun ε hε => ?_⟩
  obtain ⟨n₀, hn₀⟩ := i3 ε hε
  exact ⟨max n₀ 2, fun n hn => hn₀ n (le_of_max_le_left hn) (regular_tilted he ha (le_of_max_le_right hn) hx) (off_plane he ha (le_of_max_le_right hn) h2)⟩

/-! ## horizontal loops -/

/-- A cosine of an odd multiple of `π / n` is zero or at least `1 / n` in size. -/
theorem cos_odd {n : ℕ} (hn : 1 ≤ n) (k : ℕ) : cos (π * (2 * k + 1) / n) = 0 ∨ 1 / (n : ℝ) ≤ |cos (π * (2 * k + 1) / n)| := by
  have hn' : (0 : ℝ) < n := by exact_mod_cast hn
  have hp := pi_pos
  -- the integer whose multiple of `π / (2 n)` is the complementary angle
  set m : ℤ := n - 2 * (2 * k + 1) with hm
  have e0 : cos (π * (2 * k + 1) / n) = sin (π * m / (2 * n)) := by
    rw [← sin_pi_div_two_sub]
    congr 1
    rw [hm]; push_cast; field_simp
  set r : ℤ := m % (2 * n) with hr
  have hr0 : 0 ≤ r := Int.emod_nonneg _ (by omega)
  have hr1 : r < 2 * n := Int.emod_lt_of_pos _ (by omega)
  have em : (m : ℝ) = r + 2 * n * (m / (2 * n) : ℤ) := by
    have := Int.emod_add_mul_ediv m (2 * n)
    rw [← hr] at this
    exact_mod_cast this.symm
  have e1 : |sin (π * m / (2 * n))| = |sin (π * r / (2 * n))| := by
    rw [em, show π * (r + 2 * n * (m / (2 * n) : ℤ)) / (2 * n) = π * r / (2 * n) + (m / (2 * n) : ℤ) * π by field_simp, sin_add_int_mul_pi, abs_mul]
    have : |((-1 : ℝ) ^ (m / (2 * n) : ℤ))| = 1 := by rw [abs_zpow, abs_neg, abs_one, one_zpow]
    rw [this, one_mul]
  rw [e0, ← abs_eq_zero (a := sin (π * m / (2 * n))), e1]
  rcases hr0.eq_or_lt with h | h
  · left; rw [← h]; simp
  · right
    have h1 : (1 : ℝ) ≤ r := by exact_mod_cast h
    have h2 : (r : ℝ) ≤ 2 * n - 1 := by have : r ≤ 2 * n - 1 := by omega
                                        exact_mod_cast this
    have lower : ∀ x : ℝ, 1 ≤ x → x ≤ n → 1 / (n : ℝ) ≤ sin (π * x / (2 * n)) := by
      intro x hx1 hx2
      have := mul_le_sin (x := π * x / (2 * n)) (by positivity) (by rw [div_le_div_iff₀ (by positivity) two_pos]; nlinarith)
      refine le_trans ?_ this
      rw [show 2 / π * (π * x / (2 * n)) = x / n by field_simp]
      gcongr
    refine le_trans ?_ (le_abs_self _)
    rcases le_total (r : ℝ) n with h3 | h3
    · exact lower r h1 h3
    · have := lower (2 * n - r) (by linarith) (by linarith)
      rw [show π * (2 * n - r) / (2 * n) = π - π * r / (2 * n) by field_simp, sin_pi_sub] at this
      exact this

/-- **C124.** A polygon in a horizontal loop that begins in the direction of `x` has no side almost but not exactly parallel to `x`, up to `10²⁰` sides. -/
theorem regular_horizontal {c : V3 ℝ} {a : ℝ} (ha : 0 < a) {n : ℕ} (hn : 2 ≤ n) (hn' : n ≤ 10 ^ 20) : Static.Regular (nodes c ⟨1, 0, 0⟩ ⟨0, 1, 0⟩ a n) := by
  have he : CircularWire.IsFrame ⟨1, 0, 0⟩ ⟨0, 1, 0⟩ ⟨0, 0, 1⟩ := ⟨by simp [V3.dot], by simp [V3.dot], by simp [V3.dot], by ext <;> simp⟩
  have hp : (0 : ℝ) < n := by exact_mod_cast (by omega : 0 < n)
  refine (chain_range (R := fun p0 p1 => p0 ≠ p1 ∧ Static.OffBand p0 p1) n _).2 fun k _ => ⟨side_ne he ha hn k, ?_⟩
  have hu := Static.tan_dot_self (side_ne (c := c) he ha hn k)
  have hs := side (c := c) (e1 := ⟨1, 0, 0⟩) (e2 := ⟨0, 1, 0⟩) (a := a) k n
  have hsq := side_sq (a := a) he (2 * π * k / n) (2 * π / n)
  rw [← hs] at hsq
  set p0 := CircularWire.point c ⟨1, 0, 0⟩ ⟨0, 1, 0⟩ a (2 * π * k / n)
  set p1 := CircularWire.point c ⟨1, 0, 0⟩ ⟨0, 1, 0⟩ a (2 * π * ((k + 1 : ℕ) : ℝ) / n)
  have hsin : 0 < sin (π / n) := by
    refine sin_pos_of_pos_of_lt_pi (by positivity) ?_
    rw [div_lt_iff₀ hp]
    have : (2 : ℝ) ≤ n := by exact_mod_cast hn
    nlinarith [pi_pos]
  have hlen : (p1 - p0).len = 2 * a * sin (π / n) := by
    have : (p1 - p0).len ^ 2 = (2 * a * sin (π / n)) ^ 2 := by
      rw [← V3.dot_self, hsq, show 2 * π / n = 2 * (π / n) by ring, cos_two_mul]
      linear_combination -4 * a ^ 2 * sin_sq_add_cos_sq (π / n)
    exact (pow_left_inj₀ (V3.len_nonneg _) (by positivity) two_ne_zero).1 this
  have hy : (p1 - p0).y = 2 * a * sin (π / n) * cos (π * (2 * k + 1) / n) := by
    rw [hs]
    simp only [V3.add_y, V3.smul_y, smul_eq_mul, mul_zero, mul_one, zero_add]
    rw [sin_sub_sin, show (2 * π * k / n + 2 * π / n - 2 * π * k / n) / 2 = π / n by ring,
      show (2 * π * k / n + 2 * π / n + 2 * π * k / n) / 2 = π * (2 * k + 1) / n by ring]
    ring
  have hz : (p1 - p0).z = 0 := by rw [hs]; simp
  have hcross : ((Static.tan p0 p1).cross ⟨1, 0, 0⟩).len = |cos (π * (2 * k + 1) / n)| := by
    have : (Static.tan p0 p1).cross ⟨1, 0, 0⟩ = ⟨0, 0, -cos (π * (2 * k + 1) / n)⟩ := by
      have h0 : (2 * a * sin (π / n)) ≠ 0 := by positivity
      ext
      · simp
      · simp [Static.tan, Spatial.unit, hz]
      · simp only [V3.cross, Static.tan, Spatial.unit, V3.map, hy, hlen]
        field_simp
        ring
    rw [this]
    simp [V3.len, Real.sqrt_sq_eq_abs]
  rw [Static.OffBand, hcross]
  rcases cos_odd (by omega : 1 ≤ n) k with h | h
  · left; rw [h, abs_zero]
  · right
    refine le_trans ?_ h
    have : (n : ℝ) ≤ 10 ^ 20 := by exact_mod_cast hn'
    rw [Spatial.defaultTol, le_div_iff₀ hp]
    norm_num
    linarith

/-! ## the hypotheses can be met -/

/-- A loop about the `x` axis. -/
noncomputable def sideLoop : Static.Loop := ⟨1, 1, 1, 0, ⟨1, 0, 0⟩⟩

theorem sideLoop_axis : sideLoop.axis = ⟨1, 0, 0⟩ := by
  rw [Static.Loop.axis, sideLoop]
  ext <;> simp [Spatial.unit, V3.len]

example : sideLoop.OffBand ∧ 0 < sideLoop.radius ∧ CircularWire.IsFrame ⟨0, 1, 0⟩ ⟨0, 0, 1⟩ sideLoop.axis ∧ sideLoop.AwayFromAxis sideLoop.axis ⟨1, 2, 0⟩ ∧
    sideLoop.axis.dot (⟨1, 2, 0⟩ - sideLoop.location) ≠ 0 ∧ Spatial.defaultTol ≤ |sideLoop.axis.x| := by
  refine ⟨⟨?_, .inr ?_⟩, by simp [sideLoop], ?_, ?_, ?_, ?_⟩
  · intro h; have := congrArg V3.x h; simp [sideLoop] at this
  · rw [sideLoop_axis]; norm_num [V3.len, Spatial.defaultTol]
  · rw [sideLoop_axis]; exact ⟨by simp [V3.dot], by simp [V3.dot], by simp [V3.dot], by ext <;> simp⟩
  · rw [Static.Loop.AwayFromAxis, sideLoop_axis, V3.len_sq]; norm_num [sideLoop, V3.dot]
  · rw [sideLoop_axis]; norm_num [sideLoop, V3.dot]
  · rw [sideLoop_axis]; norm_num [Spatial.defaultTol]

end Verif.PolygonLoop
