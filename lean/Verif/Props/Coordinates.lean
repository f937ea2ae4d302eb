import Verif.Lemmas.Arctan2
import Verif.Spec.Frames
import Mathlib.Analysis.Real.Pi.Bounds

/-! # C06–C09: coordinate conversions -/

namespace Verif.Spatial

open V3 Frames

/-! ## C06: cylindrical points -/

/-- **C06.** Cartesian → cylindrical → Cartesian is the identity at every point. -/
theorem cylToCart_cartToCyl (p : V3 ℝ) : cylToCart (cartToCyl p) = p := by
  ext
  · exact sqrt_mul_cos_arctan2 p.y p.x
  · exact sqrt_mul_sin_arctan2 p.y p.x
  · rfl

/-- **C06.** The same for two-column grids. -/
theorem cylToCart2_cartToCyl2 (p : V2) : cylToCart2 (cartToCyl2 p) = p := by
  ext
  · exact sqrt_mul_cos_arctan2 p.y p.x
  · exact sqrt_mul_sin_arctan2 p.y p.x

/-- **C06.** Cylindrical → Cartesian → cylindrical is the identity for `r > 0`, `-π < t ≤ π`. -/
theorem cartToCyl_cylToCart (q : V3 ℝ) (hr : 0 < q.x) (h1 : -Real.pi < q.y) (h2 : q.y ≤ Real.pi) :
    cartToCyl (cylToCart q) = q := by
  ext
  · exact sqrt_polar hr.le q.y
  · exact arctan2_polar hr h1 h2
  · rfl

/-- **C06.** The same for two-column grids. -/
theorem cartToCyl2_cylToCart2 (q : V2) (hr : 0 < q.x) (h1 : -Real.pi < q.y) (h2 : q.y ≤ Real.pi) :
    cartToCyl2 (cylToCart2 q) = q := by
  ext
  · exact sqrt_polar hr.le q.y
  · exact arctan2_polar hr h1 h2

/-- **C06.** Ranges of the cylindrical coordinates; the radius is the distance from the axis. -/
theorem cartToCyl_range (p : V3 ℝ) :
    0 ≤ (cartToCyl p).x ∧ -Real.pi < (cartToCyl p).y ∧ (cartToCyl p).y ≤ Real.pi ∧
      (cartToCyl p).x ^ 2 = p.x ^ 2 + p.y ^ 2 :=
  ⟨Real.sqrt_nonneg _, (arctan2_mem _ _).1, (arctan2_mem _ _).2, Real.sq_sqrt (by positivity)⟩

/-- Non-vacuity: a point on the branch cut. -/
example : cylToCart (cartToCyl ⟨-1, 0, 5⟩) = ⟨-1, 0, 5⟩ := cylToCart_cartToCyl _
example : ∃ q : V3 ℝ, 0 < q.x ∧ -Real.pi < q.y ∧ q.y ≤ Real.pi :=
  ⟨⟨2, 1, 7⟩, by norm_num, by dsimp; linarith [Real.pi_pos], by dsimp; linarith [Real.pi_gt_three]⟩

/-! ## C07: cylindrical vectors -/

/-- **C07.** The Cartesian vector is `v_r e_r + v_t e_t + v_z e_z` in the frame at the grid point. -/
theorem cylToCartVec_frame (g v : V3 ℝ) :
    cylToCartVec g v = v.x • cylR g.y + v.y • azimuth g.y + v.z • up := by
  ext <;> simp [cylToCartVec, cylR, azimuth, up, sub_eq_add_neg]

/-- **C07.** The cylindrical components are the products with the frame at the Cartesian grid point. -/
theorem cartToCylVec_frame (g v : V3 ℝ) :
    cartToCylVec g v =
      ⟨(cylR (cartToCyl g).y).dot v, (azimuth (cartToCyl g).y).dot v, up.dot v⟩ := by
  ext <;> simp [cartToCylVec, cylR, azimuth, up, V3.dot, cartToCyl]

/-- **C07.** Cartesian → cylindrical → Cartesian vectors, grid given in matching coordinates. -/
theorem cylToCartVec_cartToCylVec (p v : V3 ℝ) :
    cylToCartVec (cartToCyl p) (cartToCylVec p v) = v := by
  have h := Real.sin_sq_add_cos_sq (arctan2 p.y p.x)
  ext
  · simp only [cylToCartVec, cartToCyl, cartToCylVec]; linear_combination v.x * h
  · simp only [cylToCartVec, cartToCyl, cartToCylVec]; linear_combination v.y * h
  · rfl

/-- **C07.** Two-column version. -/
theorem cylToCartVec2_cartToCylVec2 (p v : V2) :
    cylToCartVec2 (cartToCyl2 p) (cartToCylVec2 p v) = v := by
  have h := Real.sin_sq_add_cos_sq (arctan2 p.y p.x)
  ext
  · simp only [cylToCartVec2, cartToCyl2, cartToCylVec2]; linear_combination v.x * h
  · simp only [cylToCartVec2, cartToCyl2, cartToCylVec2]; linear_combination v.y * h

/-- **C07.** Cylindrical → Cartesian → cylindrical vectors, at every Cartesian point `p`. -/
theorem cartToCylVec_cylToCartVec (p v : V3 ℝ) :
    cartToCylVec p (cylToCartVec (cartToCyl p) v) = v := by
  have h := Real.sin_sq_add_cos_sq (arctan2 p.y p.x)
  ext
  · simp only [cylToCartVec, cartToCyl, cartToCylVec]; linear_combination v.x * h
  · simp only [cylToCartVec, cartToCyl, cartToCylVec]; linear_combination v.y * h
  · rfl

/-- **C07.** Two-column version. -/
theorem cartToCylVec2_cylToCartVec2 (p v : V2) :
    cartToCylVec2 p (cylToCartVec2 (cartToCyl2 p) v) = v := by
  have h := Real.sin_sq_add_cos_sq (arctan2 p.y p.x)
  ext
  · simp only [cylToCartVec2, cartToCyl2, cartToCylVec2]; linear_combination v.x * h
  · simp only [cylToCartVec2, cartToCyl2, cartToCylVec2]; linear_combination v.y * h

/-- **C07.** Dot products (hence lengths and angles) are preserved in both directions. -/
theorem cylVec_dot (g v w : V3 ℝ) :
    (cylToCartVec g v).dot (cylToCartVec g w) = v.dot w ∧
      (cartToCylVec g v).dot (cartToCylVec g w) = v.dot w := by
  have h := Real.sin_sq_add_cos_sq (arctan2 g.y g.x)
  have h' := Real.sin_sq_add_cos_sq g.y
  constructor
  · simp only [cylToCartVec, V3.dot]; linear_combination (v.x * w.x + v.y * w.y) * h'
  · simp only [cartToCylVec, V3.dot]; linear_combination (v.x * w.x + v.y * w.y) * h

/-- **C07.** Off the axis, the horizontal position vector is purely radial and its quarter turn is purely
azimuthal. -/
theorem cartToCylVec_radial (p : V3 ℝ) :
    cartToCylVec p ⟨p.x, p.y, 0⟩ = ⟨(cartToCyl p).x, 0, 0⟩ ∧
      cartToCylVec p ⟨-p.y, p.x, 0⟩ = ⟨0, (cartToCyl p).x, 0⟩ := by
  have h := Real.sin_sq_add_cos_sq (arctan2 p.y p.x)
  have hx := sqrt_mul_cos_arctan2 p.y p.x
  have hy := sqrt_mul_sin_arctan2 p.y p.x
  set s := Real.sqrt (p.x ^ 2 + p.y ^ 2)
  set c := Real.cos (arctan2 p.y p.x)
  set d := Real.sin (arctan2 p.y p.x)
  constructor
  · ext
    · change c * p.x + d * p.y = s
      linear_combination (-c) * hx - d * hy + s * h
    · change -d * p.x + c * p.y = 0
      linear_combination d * hx - c * hy
    · rfl
  · ext
    · change c * -p.y + d * p.x = 0
      linear_combination c * hy - d * hx
    · change -d * -p.y + c * p.x = s
      linear_combination (-d) * hy - c * hx + s * h
    · rfl

/-! ## C08: spherical points -/

/-- **C08.** Cartesian → spherical → Cartesian is the identity at every point. -/
theorem sphToCart_cartToSph (p : V3 ℝ) : sphToCart (cartToSph p) = p := by
  have hr : p.len = Real.sqrt (p.z ^ 2 + Real.sqrt (p.x ^ 2 + p.y ^ 2) ^ 2) := by
    rw [V3.len, Real.sq_sqrt (by positivity)]; congr 1; ring
  have hc := sqrt_mul_cos_arctan2 (Real.sqrt (p.x ^ 2 + p.y ^ 2)) p.z
  have hs := sqrt_mul_sin_arctan2 (Real.sqrt (p.x ^ 2 + p.y ^ 2)) p.z
  rw [← hr] at hc hs
  ext
  · simp only [sphToCart, cartToSph]; rw [hs]; exact sqrt_mul_cos_arctan2 p.y p.x
  · simp only [sphToCart, cartToSph]; rw [hs]; exact sqrt_mul_sin_arctan2 p.y p.x
  · exact hc

/-- **C08.** Spherical → Cartesian → spherical is the identity for `r > 0`, `-π < φ ≤ π`, `0 < θ < π`. -/
theorem cartToSph_sphToCart (q : V3 ℝ) (hr : 0 < q.x) (h1 : -Real.pi < q.y) (h2 : q.y ≤ Real.pi)
    (h3 : 0 < q.z) (h4 : q.z < Real.pi) : cartToSph (sphToCart q) = q := by
  have hs : 0 < Real.sin q.z := Real.sin_pos_of_pos_of_lt_pi h3 h4
  have hrs : 0 < q.x * Real.sin q.z := mul_pos hr hs
  have e := sqrt_polar hrs.le q.y
  ext
  · simp only [cartToSph, sphToCart, V3.len]
    rw [show (q.x * Real.sin q.z * Real.cos q.y) ^ 2 + (q.x * Real.sin q.z * Real.sin q.y) ^ 2 +
      (q.x * Real.cos q.z) ^ 2 = q.x ^ 2 by
        linear_combination (q.x * Real.sin q.z) ^ 2 * Real.sin_sq_add_cos_sq q.y +
          q.x ^ 2 * Real.sin_sq_add_cos_sq q.z]
    exact Real.sqrt_sq hr.le
  · simp only [cartToSph, sphToCart]; exact arctan2_polar hrs h1 h2
  · simp only [cartToSph, sphToCart]; rw [e]
    exact arctan2_polar hr (by linarith) h4.le

/-- **C08.** Ranges of the spherical coordinates; the first one is the distance from the origin. -/
theorem cartToSph_range (p : V3 ℝ) :
    0 ≤ (cartToSph p).x ∧ -Real.pi < (cartToSph p).y ∧ (cartToSph p).y ≤ Real.pi ∧
      0 ≤ (cartToSph p).z ∧ (cartToSph p).z ≤ Real.pi ∧
      (cartToSph p).x ^ 2 = p.x ^ 2 + p.y ^ 2 + p.z ^ 2 :=
  ⟨V3.len_nonneg _, (arctan2_mem _ _).1, (arctan2_mem _ _).2,
    arctan2_nonneg (Real.sqrt_nonneg _) _, (arctan2_mem _ _).2, V3.len_sq _⟩

/-- Non-vacuity: the south pole, and a general point. -/
example : sphToCart (cartToSph ⟨0, 0, -3⟩) = ⟨0, 0, -3⟩ := sphToCart_cartToSph _
example : ∃ q : V3 ℝ, 0 < q.x ∧ -Real.pi < q.y ∧ q.y ≤ Real.pi ∧ 0 < q.z ∧ q.z < Real.pi :=
  ⟨⟨2, 1, 2⟩, by norm_num, by dsimp; linarith [Real.pi_pos], by dsimp; linarith [Real.pi_gt_three],
    by norm_num, by dsimp; linarith [Real.pi_gt_three]⟩

/-! ## C09: spherical vectors

The full property: at the spherical coordinates `g` of a point,
`sphToCartVec g v = v_r e_r + v_phi e_phi + v_theta e_theta` and `cartToSphVec` takes the products with the
same frame, so the two are inverse to each other.  It is false of the code (spatial.py:306 and 400). -/

/-- **C09 fails.** At `(r, φ, θ) = (1, 0, π/2)`, i.e. the point `(1, 0, 0)`, the unit azimuthal vector should become
`(0, 1, 0)`; the code returns the zero vector. -/
theorem sphToCartVec_azimuth_lost :
    sphToCartVec ⟨1, 0, Real.pi / 2⟩ ⟨0, 1, 0⟩ = 0 ∧
      azimuth 0 = ⟨0, 1, 0⟩ := by
  constructor
  · ext <;> simp [sphToCartVec]
  · ext <;> simp [azimuth]

/-- **C09 fails.** The conversion to Cartesian does not preserve length. -/
theorem sphToCartVec_not_isometry :
    ∃ g v : V3 ℝ, 0 < g.x ∧ 0 < g.z ∧ g.z < Real.pi ∧ (sphToCartVec g v).len ≠ v.len := by
  refine ⟨⟨1, 0, Real.pi / 2⟩, ⟨0, 1, 0⟩, one_pos, ?_, ?_, ?_⟩
  · dsimp; linarith [Real.pi_pos]
  · dsimp; linarith [Real.pi_pos]
  · rw [sphToCartVec_azimuth_lost.1]; simp [V3.len]

/-- **C09 fails.** At the point `(1, 0, 1)` the vector `(1, π, 1)`, which is `√2 e_r + π e_φ` and so has no polar
component, is given a non-zero polar component. -/
theorem cartToSphVec_spurious_polar :
    ∃ p v : V3 ℝ, (polar (cartToSph p).y (cartToSph p).z).dot v = 0 ∧ (cartToSphVec p v).z ≠ 0 := by
  have hphi : arctan2 0 1 = 0 := by
    have := arctan2_polar (r := 1) (t := 0) one_pos (by linarith [Real.pi_pos]) Real.pi_pos.le
    simpa using this
  have hs : Real.sqrt ((1 : ℝ) ^ 2 + 0 ^ 2) = 1 := by simp
  refine ⟨⟨1, 0, 1⟩, ⟨1, Real.pi, 1⟩, ?_, ?_⟩
  · have h1 := sqrt_mul_cos_arctan2 1 1
    have h2 := sqrt_mul_sin_arctan2 1 1
    have h0 : Real.sqrt ((1 : ℝ) ^ 2 + 1 ^ 2) ≠ 0 := by positivity
    have : Real.cos (arctan2 1 1) = Real.sin (arctan2 1 1) :=
      mul_left_cancel₀ h0 (h1.trans h2.symm)
    simp only [polar, cartToSph, hphi, V3.dot, hs]
    rw [this]; simp
  · have h1 := sqrt_mul_cos_arctan2 1 1
    have h2 := sqrt_mul_sin_arctan2 1 1
    have h0 : Real.sqrt ((1 : ℝ) ^ 2 + 1 ^ 2) ≠ 0 := by positivity
    have e : Real.cos (arctan2 1 1) = Real.sin (arctan2 1 1) :=
      mul_left_cancel₀ h0 (h1.trans h2.symm)
    have hne : Real.sin (arctan2 1 1) ≠ 0 := fun h => by rw [h] at h2; simp at h2
    simp only [cartToSphVec, hphi, hs, e]
    simp
    intro h; apply hne; linarith

/-- **C09, the part that holds** for `spherical_to_cartesian`: the radial and polar directions are right
everywhere; the azimuthal one only where `cos θ = cos φ`. -/
theorem sphToCartVec_frame_partial (g v : V3 ℝ) (h : v.y = 0 ∨ Real.cos g.z = Real.cos g.y) :
    sphToCartVec g v = v.x • sphR g.y g.z + v.y • azimuth g.y + v.z • polar g.y g.z := by
  rcases h with h | h
  · ext <;> simp [sphToCartVec, sphR, azimuth, polar, h] <;> ring
  · ext <;> simp [sphToCartVec, sphR, azimuth, polar, h] <;> ring

/-- Exactly how far `spherical_to_cartesian` is off: the `y` component is wrong by `v_φ (cos θ - cos φ)`. -/
theorem sphToCartVec_error_partial (g v : V3 ℝ) :
    sphToCartVec g v - (v.x • sphR g.y g.z + v.y • azimuth g.y + v.z • polar g.y g.z) =
      ⟨0, v.y * (Real.cos g.z - Real.cos g.y), 0⟩ := by
  ext <;> simp [sphToCartVec, sphR, azimuth, polar] <;> ring

/-- **C09, the part that holds** for `cartesian_to_spherical`: the radial and azimuthal components are right
everywhere. -/
theorem cartToSphVec_frame_partial (p v : V3 ℝ) :
    (cartToSphVec p v).x = (sphR (cartToSph p).y (cartToSph p).z).dot v ∧
      (cartToSphVec p v).y = (azimuth (cartToSph p).y).dot v := by
  constructor <;> simp [cartToSphVec, cartToSph, sphR, azimuth, V3.dot] <;> ring

/-- **C09, the part that holds**: the polar component is right when the overwritten variable happens to equal
the azimuth, `v_φ = φ`. -/
theorem cartToSphVec_polar_partial (p v : V3 ℝ)
    (h : (azimuth (cartToSph p).y).dot v = (cartToSph p).y) :
    (cartToSphVec p v).z = (polar (cartToSph p).y (cartToSph p).z).dot v := by
  simp only [azimuth, V3.dot, cartToSph] at h
  simp only [cartToSphVec, cartToSph, polar, V3.dot]
  rw [show -v.x * Real.sin (arctan2 p.y p.x) + v.y * Real.cos (arctan2 p.y p.x) =
    arctan2 p.y p.x by linear_combination h]
  ring

/-- **C09, the part that holds**: the round trip works for vectors in the meridian plane of points with azimuth 0
(both bugs are then invisible). -/
theorem sphVec_roundtrip_partial (p v : V3 ℝ) (hx : 0 < p.x) (hy : p.y = 0) (hv : v.y = 0) :
    sphToCartVec (cartToSph p) (cartToSphVec p v) = v := by
  have hphi : arctan2 p.y p.x = 0 := by
    have := arctan2_polar (r := p.x) (t := 0) hx (by linarith [Real.pi_pos]) Real.pi_pos.le
    rw [hy]; simpa using this
  have h := Real.sin_sq_add_cos_sq (arctan2 (Real.sqrt (p.x ^ 2 + p.y ^ 2)) p.z)
  ext
  · simp only [sphToCartVec, cartToSph, cartToSphVec, hphi, hv]
    simp
    linear_combination v.x * h
  · simp only [sphToCartVec, cartToSph, cartToSphVec, hphi, hv]; simp
  · simp only [sphToCartVec, cartToSph, cartToSphVec, hphi, hv]; simp
    linear_combination v.z * h

/-- Non-vacuity of the partial theorems. -/
example : ∃ p v : V3 ℝ, 0 < p.x ∧ p.y = 0 ∧ v.y = 0 ∧ v ≠ 0 :=
  ⟨⟨1, 0, 2⟩, ⟨3, 0, 4⟩, by norm_num, rfl, rfl, by simp [V3.ext_iff]⟩

end Verif.Spatial
