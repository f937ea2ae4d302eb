import Verif.Lemmas.FarField
import Verif.Props.PrismTensor
import Verif.Model.StaticWholeSpace

/-!
# C102: far from a prism its response is that of a point at its centre; near it, its sign and size are bounded
-/

namespace Verif.Prism

open Real Set MeasureTheory Gravity FarField

/-- Half the diagonal of the box: no point of the box is farther from the centre. -/
noncomputable def Box.halfDiagonal (b : Box) : ℝ := (b.max - b.min).len / 2

/-- The point mass that replaces a prism: all its mass at its centre, as the API reports them. -/
noncomputable def GravPrism.lumped (s : GravPrism) : PointMass := ⟨s.mass, s.box.location⟩

theorem closed_near (b : Box) {q : ℝ × ℝ × ℝ} (hq : q ∈ b.closed) : (vec q - b.location).len ≤ b.halfDiagonal := by
  obtain ⟨⟨x1, x2⟩, ⟨y1, y2⟩, z1, z2⟩ := hq
  have e : b.halfDiagonal = ((1 / 2 : ℝ) • (b.max - b.min)).len := by
    rw [Box.halfDiagonal, V3.len_smul, abs_of_pos (by norm_num)]
    ring
  rw [e]
  have hl : b.location = ⟨(b.min.x + b.max.x) / 2, (b.min.y + b.max.y) / 2, (b.min.z + b.max.z) / 2⟩ := by
    simp only [Box.location, V3.add_x, V3.add_y, V3.add_z, V3.mk.injEq]
    refine ⟨?_, ?_, ?_⟩ <;> ring
  rw [hl]
  have sq : ∀ {u c d : ℝ}, -d ≤ u - c → u - c ≤ d → (u - c) ^ 2 ≤ d ^ 2 := fun h1 h2 => sq_le_sq' h1 h2
  refine Real.sqrt_le_sqrt ?_
  simp only [vec, V3.sub_x, V3.sub_y, V3.sub_z, V3.smul_x, V3.smul_y, V3.smul_z, smul_eq_mul]
  refine add_le_add (add_le_add (sq ?_ ?_) (sq ?_ ?_)) (sq ?_ ?_) <;> linarith

theorem points_closed (b : Box) : b.points ⊆ b.closed := by
  rintro q ⟨⟨x1, x2⟩, ⟨y1, y2⟩, z1, z2⟩
  exact ⟨⟨x1.le, x2⟩, ⟨y1.le, y2⟩, ⟨z1.le, z2⟩⟩

theorem near_location (b : Box) {q : ℝ × ℝ × ℝ} (hq : q ∈ b.points) : (vec q - b.location).len ≤ b.halfDiagonal :=
  closed_near b (points_closed b hq)

theorem integral_near {b : Box} (h : b.Proper) {f : ℝ × ℝ × ℝ → ℝ} (hf : IntegrableOn f b.points) {c C : ℝ}
    (hc : ∀ q ∈ b.points, |f q - c| ≤ C) : |(∫ q in b.points, f q) - b.volume * c| ≤ C * b.volume := by
  obtain ⟨hv, hp⟩ := volume_is_measure b h
  have hfin : volume b.points < ⊤ := by
    refine lt_top_iff_ne_top.2 fun ht => ?_
    rw [ht] at hv
    simp at hv
    linarith
  have hcst : IntegrableOn (fun _ : ℝ × ℝ × ℝ => c) b.points := integrableOn_const hfin.ne
  have e : (∫ q in b.points, f q) - b.volume * c = ∫ q in b.points, (f q - c) := by
    rw [integral_sub hf hcst, setIntegral_const, Measure.real, hv, smul_eq_mul]
  rw [e, ← hv]
  exact norm_setIntegral_le_of_norm_le_const (f := fun q => f q - c) hfin hc

theorem near_of (b : Box) (p : V3 ℝ) (hp : b.halfDiagonal < (p - b.location).len) {q : ℝ × ℝ × ℝ} (hq : q ∈ b.points) :
    Near (vec q - p) (b.location - p) ((p - b.location).len - b.halfDiagonal) b.halfDiagonal := by
  have hd := near_location b hq
  have e1 : (b.location - p).len = (p - b.location).len := by rw [← neg_sub, V3.len_neg]
  have e2 : vec q - p - (b.location - p) = vec q - b.location := by abel
  have h0 : 0 ≤ b.halfDiagonal := (V3.len_nonneg _).trans hd
  refine ⟨by linarith, ?_, by linarith, by rw [e2]; exact hd⟩
  have := abs_len_sub_le (b.location - p) (vec q - p)
  rw [show b.location - p - (vec q - p) = -(vec q - b.location) by abel, V3.len_neg] at this
  have := (abs_le.1 (this.trans hd)).2
  linarith

theorem far_outside (b : Box) (p : V3 ℝ) (hp : b.halfDiagonal < (p - b.location).len) : (p.x, p.y, p.z) ∉ b.closed :=
  fun hc => absurd hp (not_lt.2 (closed_near b hc))

theorem G_pos : 0 < G := by norm_num [G]

theorem integrable_coord (b : Box) :
    IntegrableOn (fun q : ℝ × ℝ × ℝ => q.1) b.points ∧ IntegrableOn (fun q : ℝ × ℝ × ℝ => q.2.1) b.points ∧
      IntegrableOn (fun q : ℝ × ℝ × ℝ => q.2.2) b.points := by
  have hs : b.points ⊆ Icc (b.min.x, b.min.y, b.min.z) (b.max.x, b.max.y, b.max.z) := by
    rintro ⟨x, y, z⟩ ⟨⟨x1, x2⟩, ⟨y1, y2⟩, z1, z2⟩
    exact ⟨⟨x1.le, y1.le, z1.le⟩, ⟨x2, y2, z2⟩⟩
  have hc : IsCompact (Icc (b.min.x, b.min.y, b.min.z) (b.max.x, b.max.y, b.max.z)) := isCompact_Icc
  exact ⟨(continuous_fst.continuousOn.integrableOn_compact hc).mono_set hs,
    ((continuous_fst.comp continuous_snd).continuousOn.integrableOn_compact hc).mono_set hs,
    ((continuous_snd.comp continuous_snd).continuousOn.integrableOn_compact hc).mono_set hs⟩

/-- **C102.** Outside the sphere about the box, the potential is that of the mass at the centre, up to a relative error that falls off with
the *square* of the distance. -/
theorem gravPrism_potential_far (s : GravPrism) (h : s.box.Proper) (p : V3 ℝ)
    (hp : s.box.halfDiagonal < (p - s.box.location).len) :
    |s.gravitationalPotential p - s.lumped.gravitationalPotential p| ≤
      2 * (G * |s.mass|) * s.box.halfDiagonal ^ 2 / ((p - s.box.location).len - s.box.halfDiagonal) ^ 3 := by
  set b := s.box with hb
  set c := b.location with hcdef
  set m := (p - c).len - b.halfDiagonal with hm
  obtain ⟨⟨hi, he⟩, -⟩ := newton_box b h p
  obtain ⟨cx, cy, cz⟩ := location_is_centroid b h
  obtain ⟨ix, iy, iz⟩ := integrable_coord b
  obtain ⟨hv, hvp⟩ := volume_is_measure b h
  have hfin : volume b.points < ⊤ := by
    refine lt_top_iff_ne_top.2 fun ht => ?_
    rw [ht] at hv
    simp at hv
    linarith
  have ic : ∀ k : ℝ, IntegrableOn (fun _ : ℝ × ℝ × ℝ => k) b.points := fun k => integrableOn_const hfin.ne
  have cst : ∀ k : ℝ, ∫ _ in b.points, k = b.volume * k := fun k => by
    rw [setIntegral_const, Measure.real, hv, smul_eq_mul]
  -- the first-order term integrates to nothing
  set u := c - p with hu
  have lin : ∀ q : ℝ × ℝ × ℝ, u.dot (vec q - p - u) / u.len ^ 3 =
      1 / u.len ^ 3 * (u.x * (q.1 - c.x) + u.y * (q.2.1 - c.y) + u.z * (q.2.2 - c.z)) := by
    intro q
    simp only [hu, V3.dot, V3.sub_x, V3.sub_y, V3.sub_z, vec]
    ring
  have jx : IntegrableOn (fun q : ℝ × ℝ × ℝ => u.x * (q.1 - c.x)) b.points := (ix.sub (ic _)).const_mul _
  have jy : IntegrableOn (fun q : ℝ × ℝ × ℝ => u.y * (q.2.1 - c.y)) b.points := (iy.sub (ic _)).const_mul _
  have jz : IntegrableOn (fun q : ℝ × ℝ × ℝ => u.z * (q.2.2 - c.z)) b.points := (iz.sub (ic _)).const_mul _
  have ilin : IntegrableOn (fun q => u.dot (vec q - p - u) / u.len ^ 3) b.points := by
    simp only [lin]
    exact ((jx.add jy).add jz).const_mul _
  have zero : ∫ q in b.points, u.dot (vec q - p - u) / u.len ^ 3 = 0 := by
    simp only [lin]
    rw [integral_const_mul, integral_add (f := fun q : ℝ × ℝ × ℝ => u.x * (q.1 - c.x) + u.y * (q.2.1 - c.y)) (jx.add jy) jz,
      integral_add jx jy, integral_const_mul, integral_const_mul, integral_const_mul, integral_sub ix (ic _), integral_sub iy (ic _),
      integral_sub iz (ic _), cst, cst, cst, cx, cy, cz]
    ring
  have key := integral_near h (f := fun q => 1 / (vec q - p).len + u.dot (vec q - p - u) / u.len ^ 3) (hi.add ilin) (c := 1 / u.len)
    (C := 2 * b.halfDiagonal ^ 2 / m ^ 3) fun q hq => by
      have := (near_of b p hp hq).second_order
      rwa [show 1 / (vec q - p).len + u.dot (vec q - p - u) / u.len ^ 3 - 1 / u.len =
        1 / (vec q - p).len - 1 / u.len + u.dot (vec q - p - u) / u.len ^ 3 by ring]
  rw [integral_add hi ilin, zero, add_zero, he] at key
  have e1 : u.len = (p - c).len := by rw [hu, ← neg_sub, V3.len_neg]
  have e : s.gravitationalPotential p - s.lumped.gravitationalPotential p =
      G * s.rho * (-b.evalDefInt Py.prismF p 0 - b.volume * (1 / u.len)) := by
    simp only [GravPrism.gravitationalPotential, GravPrism.lumped, PointMass.gravitationalPotential, GravPrism.mass, e1, ← hb, ← hcdef]
    ring
  rw [e, abs_mul, abs_mul, abs_of_pos G_pos]
  refine (mul_le_mul_of_nonneg_left key (mul_nonneg G_pos.le (abs_nonneg _))).trans (le_of_eq ?_)
  rw [GravPrism.mass, abs_mul, ← hb, abs_of_pos hvp]
  ring

theorem tidal_near {a b : V3 ℝ} {m δ : ℝ} (h : Near a b m δ) :
    ((|(tidal a).x.x - (tidal b).x.x| ≤ 24 * δ / m ^ 4 ∧ |(tidal a).x.y - (tidal b).x.y| ≤ 24 * δ / m ^ 4 ∧
      |(tidal a).x.z - (tidal b).x.z| ≤ 24 * δ / m ^ 4) ∧
    (|(tidal a).y.x - (tidal b).y.x| ≤ 24 * δ / m ^ 4 ∧ |(tidal a).y.y - (tidal b).y.y| ≤ 24 * δ / m ^ 4 ∧
      |(tidal a).y.z - (tidal b).y.z| ≤ 24 * δ / m ^ 4) ∧
    (|(tidal a).z.x - (tidal b).z.x| ≤ 24 * δ / m ^ 4 ∧ |(tidal a).z.y - (tidal b).z.y| ≤ 24 * δ / m ^ 4 ∧
      |(tidal a).z.z - (tidal b).z.z| ≤ 24 * δ / m ^ 4)) := by
  have hx : |a.x - b.x| ≤ δ := (abs_x_le (a - b)).trans h.diff
  have hy : |a.y - b.y| ≤ δ := (abs_y_le (a - b)).trans h.diff
  have hz : |a.z - b.z| ≤ δ := (abs_z_le (a - b)).trans h.diff
  have c := h.cube_sub
  have hm := h.pos
  have h3 : 3 * δ / m ^ 4 = 3 * (δ / m ^ 4) := by ring
  have h21 : 21 * δ / m ^ 4 = 21 * (δ / m ^ 4) := by ring
  have h24 : 24 * δ / m ^ 4 = 24 * (δ / m ^ 4) := by ring
  have hn : 0 ≤ δ / m ^ 4 := div_nonneg h.dnn (by positivity)
  rw [h3] at c
  have off : ∀ {u v s t : ℝ}, |u| ≤ a.len → |v| ≤ b.len → |u - v| ≤ δ → |s| ≤ a.len → |t| ≤ b.len → |s - t| ≤ δ →
      |3 * u * s / a.len ^ 5 - 3 * v * t / b.len ^ 5| ≤ 24 * δ / m ^ 4 := fun h1 h2 h3 h4 h5 h6 => by
    have := h.outer_sub h1 h2 h3 h4 h5 h6
    rw [h21] at this
    rw [h24]
    linarith
  have dia : ∀ {u v : ℝ}, |u| ≤ a.len → |v| ≤ b.len → |u - v| ≤ δ →
      |3 * u * u / a.len ^ 5 - 1 / a.len ^ 3 - (3 * v * v / b.len ^ 5 - 1 / b.len ^ 3)| ≤ 24 * δ / m ^ 4 := fun h1 h2 h3 => by
    have := h.outer_sub h1 h2 h3 h1 h2 h3
    rw [h21] at this
    rw [h24, show ∀ p q r s : ℝ, p - q - (r - s) = (p - r) - (q - s) from fun p q r s => by ring]
    exact (abs_sub _ _).trans (by linarith)
  have ax := abs_x_le a
  have ay := abs_y_le a
  have az := abs_z_le a
  have bx := abs_x_le b
  have b_y := abs_y_le b
  have bz := abs_z_le b
  exact ⟨⟨dia ax bx hx, off ax bx hx ay b_y hy, off ax bx hx az bz hz⟩, ⟨off ay b_y hy ax bx hx, dia ay b_y hy, off ay b_y hy az bz hz⟩,
    off az bz hz ax bx hx, off az bz hz ay b_y hy, dia az bz hz⟩

/-- What an integral of `k * f` over the box differs from `k * volume * c` when `f` stays close to `c`. -/
theorem scaled_near {b : Box} (h : b.Proper) {f : ℝ × ℝ × ℝ → ℝ} (hf : IntegrableOn f b.points) {c C : ℝ} (k : ℝ)
    (hc : ∀ q ∈ b.points, |f q - c| ≤ C) : |(∫ q in b.points, k * f q) - b.volume * k * c| ≤ |k| * b.volume * C := by
  have := integral_near h hf hc
  rw [integral_const_mul, show ∀ I : ℝ, k * I - b.volume * k * c = k * (I - b.volume * c) from fun I => by ring, abs_mul]
  exact (mul_le_mul_of_nonneg_left this (abs_nonneg _)).trans (le_of_eq (by ring))

/-- **C102.** … and so is every component of the field. -/
theorem gravPrism_field_far (s : GravPrism) (h : s.box.Proper) (p : V3 ℝ)
    (hp : s.box.halfDiagonal < (p - s.box.location).len) :
    let e := 4 * (G * |s.mass|) * s.box.halfDiagonal / ((p - s.box.location).len - s.box.halfDiagonal) ^ 3
    |(s.gravitationalField p).x - (s.lumped.gravitationalField p).x| ≤ e ∧
    |(s.gravitationalField p).y - (s.lumped.gravitationalField p).y| ≤ e ∧
    |(s.gravitationalField p).z - (s.lumped.gravitationalField p).z| ≤ e := by
  intro e
  obtain ⟨fx, fy, fz⟩ := gravPrism_field_is_integral s h p
  obtain ⟨-, ⟨ix, -⟩, ⟨iy, -⟩, iz, -⟩ := newton_box s.box h p
  obtain ⟨-, hvp⟩ := volume_is_measure s.box h
  have e1 : (s.box.location - p).len = (p - s.box.location).len := by rw [← neg_sub, V3.len_neg]
  have hl : (p - s.box.location).len ≠ 0 := by
    have : 0 ≤ s.box.halfDiagonal := div_nonneg (V3.len_nonneg _) (by norm_num)
    linarith
  have ee : e = |G * s.rho| * s.box.volume * (4 * s.box.halfDiagonal / ((p - s.box.location).len - s.box.halfDiagonal) ^ 3) := by
    simp only [e, GravPrism.mass, abs_mul, abs_of_pos hvp, abs_of_pos G_pos]
    ring
  have px : (s.lumped.gravitationalField p).x = s.box.volume * (G * s.rho) * ((s.box.location - p).x / (s.box.location - p).len ^ 3) := by
    simp only [GravPrism.lumped, PointMass.gravitationalField, V3.map, GravPrism.mass, e1, V3.sub_x]
    field_simp
    ring
  have py : (s.lumped.gravitationalField p).y = s.box.volume * (G * s.rho) * ((s.box.location - p).y / (s.box.location - p).len ^ 3) := by
    simp only [GravPrism.lumped, PointMass.gravitationalField, V3.map, GravPrism.mass, e1, V3.sub_y]
    field_simp
    ring
  have pz : (s.lumped.gravitationalField p).z = s.box.volume * (G * s.rho) * ((s.box.location - p).z / (s.box.location - p).len ^ 3) := by
    simp only [GravPrism.lumped, PointMass.gravitationalField, V3.map, GravPrism.mass, e1, V3.sub_z]
    field_simp
    ring
  simp only [mul_div_assoc] at fx fy fz
  rw [ee, fx, fy, fz, px, py, pz]
  refine ⟨scaled_near h ix _ fun q hq => ?_, scaled_near h iy _ fun q hq => ?_, scaled_near h iz _ fun q hq => ?_⟩
  · have n := near_of s.box p hp hq
    exact n.newton_sub (abs_x_le (vec q - p)) (abs_x_le _) ((abs_x_le (vec q - p - (s.box.location - p))).trans n.diff)
  · have n := near_of s.box p hp hq
    exact n.newton_sub (abs_y_le (vec q - p)) (abs_y_le _) ((abs_y_le (vec q - p - (s.box.location - p))).trans n.diff)
  · have n := near_of s.box p hp hq
    exact n.newton_sub (abs_z_le (vec q - p)) (abs_z_le _) ((abs_z_le (vec q - p - (s.box.location - p))).trans n.diff)

/-- Every entry of one matrix is within `e` of the same entry of the other. -/
def Within (e : ℝ) (A B : M3 ℝ) : Prop :=
  (|A.x.x - B.x.x| ≤ e ∧ |A.x.y - B.x.y| ≤ e ∧ |A.x.z - B.x.z| ≤ e) ∧
  (|A.y.x - B.y.x| ≤ e ∧ |A.y.y - B.y.y| ≤ e ∧ |A.y.z - B.y.z| ≤ e) ∧
  (|A.z.x - B.z.x| ≤ e ∧ |A.z.y - B.z.y| ≤ e ∧ |A.z.z - B.z.z| ≤ e)

/-- **C102.** … and every entry of the gradient tensor. -/
theorem gravPrism_gradient_far (s : GravPrism) (h : s.box.Proper) (p : V3 ℝ)
    (hp : s.box.halfDiagonal < (p - s.box.location).len) :
    Within (24 * (G * |s.mass|) * s.box.halfDiagonal / ((p - s.box.location).len - s.box.halfDiagonal) ^ 4)
      (s.gravitationalGradient p) (s.lumped.gravitationalGradient p) := by
  have hout := far_outside s.box p hp
  obtain ⟨⟨ixx, ixy, ixz⟩, ⟨iyx, iyy, iyz⟩, izx, izy, izz⟩ := tidal_integrable s.box p hout
  obtain ⟨-, hvp⟩ := volume_is_measure s.box h
  have e1 : (s.box.location - p).len = (p - s.box.location).len := by rw [← neg_sub, V3.len_neg]
  have hl : (p - s.box.location).len ≠ 0 := by
    have : 0 ≤ s.box.halfDiagonal := div_nonneg (V3.len_nonneg _) (by norm_num)
    linarith
  have ee : 24 * (G * |s.mass|) * s.box.halfDiagonal / ((p - s.box.location).len - s.box.halfDiagonal) ^ 4 =
      |G * s.rho| * s.box.volume * (24 * s.box.halfDiagonal / ((p - s.box.location).len - s.box.halfDiagonal) ^ 4) := by
    simp only [GravPrism.mass, abs_mul, abs_of_pos hvp, abs_of_pos G_pos]
    ring
  have lump : s.lumped.gravitationalGradient p =
      (tidal (s.box.location - p)).map fun row => row.map (s.box.volume * (G * s.rho) * ·) := by
    simp only [GravPrism.lumped, PointMass.gravitationalGradient, GravPrism.mass, tidal, V3.map, e1, V3.sub_x, V3.sub_y, V3.sub_z,
      V3.mk.injEq]
    generalize (p - s.box.location).len = l at hl
    refine ⟨⟨?_, ?_, ?_⟩, ⟨?_, ?_, ?_⟩, ?_, ?_, ?_⟩ <;> field_simp <;> ring
  rw [ee, gravPrism_gradient_is_integral s h p hout, lump]
  refine ⟨⟨?_, ?_, ?_⟩, ⟨?_, ?_, ?_⟩, ?_, ?_, ?_⟩
  · exact scaled_near h ixx _ fun q hq => (tidal_near (near_of s.box p hp hq)).1.1
  · exact scaled_near h ixy _ fun q hq => (tidal_near (near_of s.box p hp hq)).1.2.1
  · exact scaled_near h ixz _ fun q hq => (tidal_near (near_of s.box p hp hq)).1.2.2
  · exact scaled_near h iyx _ fun q hq => (tidal_near (near_of s.box p hp hq)).2.1.1
  · exact scaled_near h iyy _ fun q hq => (tidal_near (near_of s.box p hp hq)).2.1.2.1
  · exact scaled_near h iyz _ fun q hq => (tidal_near (near_of s.box p hp hq)).2.1.2.2
  · exact scaled_near h izx _ fun q hq => (tidal_near (near_of s.box p hp hq)).2.2.1
  · exact scaled_near h izy _ fun q hq => (tidal_near (near_of s.box p hp hq)).2.2.2.1
  · exact scaled_near h izz _ fun q hq => (tidal_near (near_of s.box p hp hq)).2.2.2.2

/-! ### Magnetic prism -/

/-- The sum of the sizes of the components of a vector. -/
noncomputable def size1 (v : V3 ℝ) : ℝ := |v.x| + |v.y| + |v.z|

theorem three_terms {x y z a b c e k : ℝ} (m : V3 ℝ) (hk : 0 ≤ k) (hx : |x - a| ≤ e) (hy : |y - b| ≤ e) (hz : |z - c| ≤ e) :
    |k * (m.x * x + m.y * y + m.z * z) - k * (m.x * a + m.y * b + m.z * c)| ≤ k * size1 m * e := by
  have e1 : k * (m.x * x + m.y * y + m.z * z) - k * (m.x * a + m.y * b + m.z * c) =
      k * (m.x * (x - a) + m.y * (y - b) + m.z * (z - c)) := by ring
  rw [e1, abs_mul, abs_of_nonneg hk, mul_assoc]
  refine mul_le_mul_of_nonneg_left ?_ hk
  have t : ∀ {m u : ℝ}, |u| ≤ e → |m * u| ≤ |m| * e := fun h => by rw [abs_mul]; exact mul_le_mul_of_nonneg_left h (abs_nonneg _)
  refine (abs_add_three _ _ _).trans ?_
  have := add_le_add (add_le_add (t (m := m.x) hx) (t (m := m.y) hy)) (t (m := m.z) hz)
  simp only [size1]
  linarith

/-- A dipole at the centre of the prism whose moment is the one the API reports for the prism. -/
structure IsLumped (s : MagPrism) (d : Static.MagDipole) : Prop where
  location : d.location = s.box.location
  mu : 0 < d.mu
  x : d.moment * d.orientation.x = s.moment.x
  y : d.moment * d.orientation.y = s.moment.y
  z : d.moment * d.orientation.z = s.moment.z

theorem lumped_field {s : MagPrism} {d : Static.MagDipole} (hd : IsLumped s d) {p : V3 ℝ} (hl : (p - s.box.location).len ≠ 0) :
    d.magneticField p = (dipoleH s.magnetization (s.box.location - p)).map (s.box.volume * ·) := by
  obtain ⟨h1, h2, hx, hy, hz⟩ := hd
  have e1 : (s.box.location - p).len = (p - s.box.location).len := by rw [← neg_sub, V3.len_neg]
  have h3 := h2.ne'
  simp only [MagPrism.moment, V3.map] at hx hy hz
  have hpi := Real.pi_pos.ne'
  simp only [Static.MagDipole.magneticField, Static.MagDipole.magneticFluxDensity, dipoleH, V3.map, V3.dot, V3.sub_x, V3.sub_y, V3.sub_z,
    h1, e1, V3.mk.injEq]
  generalize (p - s.box.location).len = l at hl
  generalize s.box.volume = v at *
  generalize s.box.location = c at *
  generalize s.magnetization = m at *
  refine ⟨?_, ?_, ?_⟩
  · field_simp
    linear_combination (3 * (p.x - c.x) * (p.x - c.x) - l ^ 2) * hx + 3 * (p.y - c.y) * (p.x - c.x) * hy + 3 * (p.z - c.z) * (p.x - c.x) * hz
  · field_simp
    linear_combination 3 * (p.x - c.x) * (p.y - c.y) * hx + (3 * (p.y - c.y) * (p.y - c.y) - l ^ 2) * hy + 3 * (p.z - c.z) * (p.y - c.y) * hz
  · field_simp
    linear_combination 3 * (p.x - c.x) * (p.z - c.z) * hx + 3 * (p.y - c.y) * (p.z - c.z) * hy + (3 * (p.z - c.z) * (p.z - c.z) - l ^ 2) * hz

theorem size_moment (s : MagPrism) (h : s.box.Proper) : size1 s.moment = s.box.volume * size1 s.magnetization := by
  obtain ⟨-, hv⟩ := volume_is_measure s.box h
  simp only [size1, MagPrism.moment, V3.map, abs_mul, abs_of_pos hv]
  ring

theorem tidal_terms_integrable (b : Box) (p m : V3 ℝ) (hp : (p.x, p.y, p.z) ∉ b.closed) (k : ℝ) :
    IntegrableOn (fun q => k * (m.x * (tidal (vec q - p)).x.x + m.y * (tidal (vec q - p)).x.y + m.z * (tidal (vec q - p)).x.z)) b.points ∧
    IntegrableOn (fun q => k * (m.x * (tidal (vec q - p)).y.x + m.y * (tidal (vec q - p)).y.y + m.z * (tidal (vec q - p)).y.z)) b.points ∧
    IntegrableOn (fun q => k * (m.x * (tidal (vec q - p)).z.x + m.y * (tidal (vec q - p)).z.y + m.z * (tidal (vec q - p)).z.z)) b.points := by
  obtain ⟨⟨ixx, ixy, ixz⟩, ⟨iyx, iyy, iyz⟩, izx, izy, izz⟩ := tidal_integrable b p hp
  exact ⟨(((ixx.const_mul _).add (ixy.const_mul _)).add (ixz.const_mul _)).const_mul _,
    (((iyx.const_mul _).add (iyy.const_mul _)).add (iyz.const_mul _)).const_mul _,
    (((izx.const_mul _).add (izy.const_mul _)).add (izz.const_mul _)).const_mul _⟩

/-- **C102.** Outside the sphere about the box, the magnetic field is that of the library's own dipole with the prism's moment at its centre,
up to a relative error that falls off with the distance. -/
theorem magPrism_field_far (s : MagPrism) (h : s.box.Proper) (d : Static.MagDipole) (hd : IsLumped s d) (p : V3 ℝ)
    (hp : s.box.halfDiagonal < (p - s.box.location).len) :
    let e := 24 * (size1 s.moment / (4 * π)) * s.box.halfDiagonal / ((p - s.box.location).len - s.box.halfDiagonal) ^ 4
    |(s.magneticField p).x - (d.magneticField p).x| ≤ e ∧
    |(s.magneticField p).y - (d.magneticField p).y| ≤ e ∧
    |(s.magneticField p).z - (d.magneticField p).z| ≤ e := by
  intro e
  have hout := far_outside s.box p hp
  have hl : (p - s.box.location).len ≠ 0 := by
    have : 0 ≤ s.box.halfDiagonal := div_nonneg (V3.len_nonneg _) (by norm_num)
    linarith
  have hk : 0 ≤ 1 / (4 * π) := by have := Real.pi_pos; positivity
  have ee : e = 1 / (4 * π) * size1 s.magnetization * (24 * s.box.halfDiagonal / ((p - s.box.location).len - s.box.halfDiagonal) ^ 4) *
      s.box.volume := by
    simp only [e, size_moment s h]
    ring
  obtain ⟨ix, iy, iz⟩ := tidal_terms_integrable s.box p s.magnetization hout (1 / (4 * π))
  rw [magPrism_field_is_integral s h p hout, lumped_field hd hl, ee]
  simp only [Box.integralV, dipoleH_eq, V3.map]
  refine ⟨?_, ?_, ?_⟩
  · refine integral_near h ix fun q hq => ?_
    obtain ⟨a, b, c⟩ := (tidal_near (near_of s.box p hp hq)).1
    exact three_terms _ hk a b c
  · refine integral_near h iy fun q hq => ?_
    obtain ⟨a, b, c⟩ := (tidal_near (near_of s.box p hp hq)).2.1
    exact three_terms _ hk a b c
  · refine integral_near h iz fun q hq => ?_
    obtain ⟨a, b, c⟩ := (tidal_near (near_of s.box p hp hq)).2.2
    exact three_terms _ hk a b c

/-- **C102.** The flux density, for a dipole in free space. -/
theorem magPrism_flux_far (s : MagPrism) (h : s.box.Proper) (d : Static.MagDipole) (hd : IsLumped s d) (hmu : d.mu = mu0) (p : V3 ℝ)
    (hp : s.box.halfDiagonal < (p - s.box.location).len) :
    let e := mu0 * (24 * (size1 s.moment / (4 * π)) * s.box.halfDiagonal / ((p - s.box.location).len - s.box.halfDiagonal) ^ 4)
    |(s.magneticFluxDensity p).x - (d.magneticFluxDensity p).x| ≤ e ∧
    |(s.magneticFluxDensity p).y - (d.magneticFluxDensity p).y| ≤ e ∧
    |(s.magneticFluxDensity p).z - (d.magneticFluxDensity p).z| ≤ e := by
  intro e
  obtain ⟨hx, hy, hz⟩ := magPrism_field_far s h d hd p hp
  have hout := far_outside s.box p hp
  have hin : ¬s.isInside p := fun hc => hout ⟨⟨hc.1.1, hc.2.1⟩, ⟨hc.1.2.1, hc.2.2.1⟩, ⟨hc.1.2.2, hc.2.2.2⟩⟩
  have hm := hd.mu
  have eb : d.magneticFluxDensity p = (d.magneticField p).map (mu0 * ·) := by
    simp only [Static.MagDipole.magneticField, V3.map, ← hmu, mul_div_cancel₀ _ hm.ne']
  rw [hmu] at hm
  rw [MagPrism.magneticFluxDensity, if_neg hin, eb]
  simp only [V3.map, ← mul_sub, abs_mul, abs_of_pos hm]
  exact ⟨mul_le_mul_of_nonneg_left hx hm.le, mul_le_mul_of_nonneg_left hy hm.le, mul_le_mul_of_nonneg_left hz hm.le⟩

/-- **C102.** The scalar potential is that of the moment at the centre (with the library's sign, `H = ∇φ`). -/
theorem magPrism_potential_far (s : MagPrism) (h : s.box.Proper) (p : V3 ℝ)
    (hp : s.box.halfDiagonal < (p - s.box.location).len) :
    |s.scalarPotential p - s.moment.dot (s.box.location - p) / (4 * π * (p - s.box.location).len ^ 3)| ≤
      4 * (size1 s.moment / (4 * π)) * s.box.halfDiagonal / ((p - s.box.location).len - s.box.halfDiagonal) ^ 3 := by
  obtain ⟨-, ⟨ix, -⟩, ⟨iy, -⟩, iz, -⟩ := newton_box s.box h p
  have hk : 0 ≤ 1 / (4 * π) := by have := Real.pi_pos; positivity
  have e1 : (s.box.location - p).len = (p - s.box.location).len := by rw [← neg_sub, V3.len_neg]
  have e : ∀ v : V3 ℝ, 1 / (4 * π) * s.magnetization.dot v / v.len ^ 3 =
      1 / (4 * π) * (s.magnetization.x * (v.x / v.len ^ 3) + s.magnetization.y * (v.y / v.len ^ 3) +
        s.magnetization.z * (v.z / v.len ^ 3)) := by
    intro v
    generalize v.len = l
    simp only [V3.dot]
    ring
  have el : s.moment.dot (s.box.location - p) / (4 * π * (p - s.box.location).len ^ 3) =
      s.box.volume * (1 / (4 * π) * s.magnetization.dot (s.box.location - p) / (s.box.location - p).len ^ 3) := by
    rw [e1]
    generalize (p - s.box.location).len = l
    simp only [V3.dot, MagPrism.moment, V3.map]
    field_simp
  have er : 4 * (size1 s.moment / (4 * π)) * s.box.halfDiagonal / ((p - s.box.location).len - s.box.halfDiagonal) ^ 3 =
      1 / (4 * π) * size1 s.magnetization * (4 * s.box.halfDiagonal / ((p - s.box.location).len - s.box.halfDiagonal) ^ 3) *
        s.box.volume := by
    rw [size_moment s h]
    ring
  rw [magPrism_potential_is_integral s h p, el, er]
  simp only [e]
  refine integral_near h ((((ix.const_mul _).add (iy.const_mul _)).add (iz.const_mul _)).const_mul _) fun q hq => ?_
  have n := near_of s.box p hp hq
  exact three_terms _ hk
    (n.newton_sub (abs_x_le (vec q - p)) (abs_x_le _) ((abs_x_le (vec q - p - (s.box.location - p))).trans n.diff))
    (n.newton_sub (abs_y_le (vec q - p)) (abs_y_le _) ((abs_y_le (vec q - p - (s.box.location - p))).trans n.diff))
    (n.newton_sub (abs_z_le (vec q - p)) (abs_z_le _) ((abs_z_le (vec q - p - (s.box.location - p))).trans n.diff))

/-! ### Bounds and signs at every point -/

/-- **C102.** If every point of the box is at distance between `r` and `R` of the observation point, the potential of a prism of
non-negative density is between those of its mass at distance `R` and at distance `r`. -/
theorem gravPrism_potential_between (s : GravPrism) (h : s.box.Proper) (hrho : 0 ≤ s.rho) (p : V3 ℝ) {r R : ℝ} (hr : 0 < r)
    (hb : ∀ q ∈ s.box.closed, r ≤ (vec q - p).len ∧ (vec q - p).len ≤ R) :
    G * s.mass / R ≤ s.gravitationalPotential p ∧ s.gravitationalPotential p ≤ G * s.mass / r := by
  obtain ⟨⟨hi, he⟩, -⟩ := newton_box s.box h p
  obtain ⟨hv, hvp⟩ := volume_is_measure s.box h
  have hfin : volume s.box.points < ⊤ := by
    refine lt_top_iff_ne_top.2 fun ht => ?_
    rw [ht] at hv
    simp at hv
    linarith
  have ic : ∀ k : ℝ, IntegrableOn (fun _ : ℝ × ℝ × ℝ => k) s.box.points := fun k => integrableOn_const hfin.ne
  have cst : ∀ k : ℝ, ∫ _ in s.box.points, k = s.box.volume * k := fun k => by
    rw [setIntegral_const, Measure.real, hv, smul_eq_mul]
  have hms : MeasurableSet s.box.points := measurableSet_Ioc.prod (measurableSet_Ioc.prod measurableSet_Ioc)
  have lo := setIntegral_mono_on (ic (1 / R)) hi hms fun q hq =>
    one_div_le_one_div_of_le (hr.trans_le (hb q (points_closed _ hq)).1) (hb q (points_closed _ hq)).2
  have hi' := setIntegral_mono_on hi (ic (1 / r)) hms fun q hq => one_div_le_one_div_of_le hr (hb q (points_closed _ hq)).1
  rw [cst, he] at lo
  rw [cst, he] at hi'
  have hg : 0 ≤ G * s.rho := mul_nonneg G_pos.le hrho
  have e : s.gravitationalPotential p = G * s.rho * -s.box.evalDefInt Py.prismF p 0 := by
    simp only [GravPrism.gravitationalPotential]
    ring
  have em : ∀ t : ℝ, G * s.mass / t = G * s.rho * (s.box.volume * (1 / t)) := fun t => by
    simp only [GravPrism.mass]
    ring
  rw [e, em, em]
  exact ⟨mul_le_mul_of_nonneg_left lo hg, mul_le_mul_of_nonneg_left hi' hg⟩

theorem integral_positive {b c : Box} (hc : c.Proper) (hcb : c.points ⊆ b.points) {f : ℝ × ℝ × ℝ → ℝ} (hf : IntegrableOn f b.points)
    (h0 : ∀ q ∈ b.points, 0 ≤ f q) (h1 : ∀ q ∈ c.points, 0 < f q) : 0 < ∫ q in b.points, f q := by
  have hms : MeasurableSet b.points := measurableSet_Ioc.prod (measurableSet_Ioc.prod measurableSet_Ioc)
  rw [setIntegral_pos_iff_support_of_nonneg_ae (ae_restrict_of_forall_mem hms h0) hf]
  obtain ⟨hv, hvp⟩ := volume_is_measure c hc
  have : 0 < volume c.points := by
    rw [pos_iff_ne_zero]
    intro h
    rw [h] at hv
    simp at hv
    linarith
  exact this.trans_le (measure_mono fun q hq => ⟨(h1 q hq).ne', hcb hq⟩)

/-- **C102.** The potential of a prism of positive density is positive everywhere: outside, on its surface and inside. -/
theorem gravPrism_potential_pos (s : GravPrism) (h : s.box.Proper) (hrho : 0 < s.rho) (p : V3 ℝ) : 0 < s.gravitationalPotential p := by
  obtain ⟨⟨hi, he⟩, -⟩ := newton_box s.box h p
  have key : 0 < ∫ q in s.box.points, 1 / (vec q - p).len := by
    by_cases hz : p.z ≤ (s.box.min.z + s.box.max.z) / 2
    · refine integral_positive (c := ⟨⟨s.box.min.x, s.box.min.y, (s.box.min.z + s.box.max.z) / 2⟩, s.box.max⟩)
        ⟨h.1, h.2.1, by have := h.2.2; simp only; linarith⟩ ?_ hi (fun q _ => by have := V3.len_nonneg (vec q - p); positivity) ?_
      · rintro q ⟨hx, hy, z1, z2⟩
        exact ⟨hx, hy, by have := h.2.2; simp only at z1; linarith, z2⟩
      · rintro q ⟨hx, hy, z1, z2⟩
        refine one_div_pos.2 (V3.len_sub_pos fun e => ?_)
        have : q.2.2 = p.z := congrArg V3.z e
        simp only at z1
        linarith
    · refine integral_positive (c := ⟨s.box.min, ⟨s.box.max.x, s.box.max.y, (s.box.min.z + s.box.max.z) / 2⟩⟩)
        ⟨h.1, h.2.1, by have := h.2.2; simp only; linarith⟩ ?_ hi (fun q _ => by have := V3.len_nonneg (vec q - p); positivity) ?_
      · rintro q ⟨hx, hy, z1, z2⟩
        exact ⟨hx, hy, z1, by have := h.2.2; simp only at z2; linarith⟩
      · rintro q ⟨hx, hy, z1, z2⟩
        refine one_div_pos.2 (V3.len_sub_pos fun e => ?_)
        have : q.2.2 = p.z := congrArg V3.z e
        simp only at z2
        linarith
  rw [he] at key
  have := mul_pos (mul_pos G_pos hrho) key
  simp only [GravPrism.gravitationalPotential]
  linarith

/-- **C102.** A prism of positive density attracts: on or beyond a face, the component of the field across that face points to the prism. -/
theorem gravPrism_attracts (s : GravPrism) (h : s.box.Proper) (hrho : 0 < s.rho) (p : V3 ℝ) :
    (p.x ≤ s.box.min.x → 0 < (s.gravitationalField p).x) ∧ (s.box.max.x ≤ p.x → (s.gravitationalField p).x < 0) ∧
    (p.y ≤ s.box.min.y → 0 < (s.gravitationalField p).y) ∧ (s.box.max.y ≤ p.y → (s.gravitationalField p).y < 0) ∧
    (p.z ≤ s.box.min.z → 0 < (s.gravitationalField p).z) ∧ (s.box.max.z ≤ p.z → (s.gravitationalField p).z < 0) := by
  obtain ⟨-, ⟨ix, hx⟩, ⟨iy, hy⟩, iz, hz⟩ := newton_box s.box h p
  have hg := mul_pos G_pos hrho
  have ex : (s.gravitationalField p).x = G * s.rho * -s.box.evalDefInt Py.prismFz p 1 := by
    simp only [GravPrism.gravitationalField]; ring
  have ey : (s.gravitationalField p).y = G * s.rho * -s.box.evalDefInt Py.prismFz p 2 := by
    simp only [GravPrism.gravitationalField]; ring
  have ez : (s.gravitationalField p).z = G * s.rho * -s.box.evalDefInt Py.prismFz p 0 := by
    simp only [GravPrism.gravitationalField]; ring
  have nn : ∀ {u : ℝ} {q : ℝ × ℝ × ℝ}, 0 ≤ u → 0 ≤ u / (vec q - p).len ^ 3 := fun hu => div_nonneg hu (pow_nonneg (V3.len_nonneg _) 3)
  have pp : ∀ {u : ℝ} {q : ℝ × ℝ × ℝ}, 0 < u → vec q ≠ p → 0 < u / (vec q - p).len ^ 3 := fun hu hne =>
    div_pos hu (pow_pos (V3.len_sub_pos hne) 3)
  have flip : ∀ {f : ℝ × ℝ × ℝ → ℝ}, 0 < ∫ q in s.box.points, -f q → (∫ q in s.box.points, f q) < 0 := fun hf => by
    rw [integral_neg] at hf; linarith
  rw [ex, ey, ez, ← hx, ← hy, ← hz]
  refine ⟨fun hp => mul_pos hg ?_, fun hp => mul_neg_of_pos_of_neg hg (flip ?_), fun hp => mul_pos hg ?_,
    fun hp => mul_neg_of_pos_of_neg hg (flip ?_), fun hp => mul_pos hg ?_, fun hp => mul_neg_of_pos_of_neg hg (flip ?_)⟩
  · refine integral_positive h subset_rfl ix (fun q hq => nn (by linarith [hq.1.1])) fun q hq => pp (by linarith [hq.1.1]) fun e => ?_
    have : q.1 = p.x := congrArg V3.x e
    linarith [hq.1.1]
  · refine integral_positive (c := ⟨s.box.min, ⟨(s.box.min.x + s.box.max.x) / 2, s.box.max.y, s.box.max.z⟩⟩)
      ⟨by have := h.1; simp only; linarith, h.2⟩ ?_ ix.neg (fun q hq => ?_) fun q hq => ?_
    · rintro q ⟨⟨a, b⟩, c⟩
      exact ⟨⟨a, by have := h.1; simp only at b; linarith⟩, c⟩
    · rw [← neg_div]
      exact nn (by linarith [hq.1.2])
    · obtain ⟨⟨a, b⟩, c⟩ := hq
      have := h.1
      simp only at b
      rw [← neg_div]
      refine pp (by linarith) fun e => ?_
      have : q.1 = p.x := congrArg V3.x e
      linarith
  · refine integral_positive h subset_rfl iy (fun q hq => nn (by linarith [hq.2.1.1])) fun q hq => pp (by linarith [hq.2.1.1]) fun e => ?_
    have : q.2.1 = p.y := congrArg V3.y e
    linarith [hq.2.1.1]
  · refine integral_positive (c := ⟨s.box.min, ⟨s.box.max.x, (s.box.min.y + s.box.max.y) / 2, s.box.max.z⟩⟩)
      ⟨h.1, by have := h.2.1; simp only; linarith, h.2.2⟩ ?_ iy.neg (fun q hq => ?_) fun q hq => ?_
    · rintro q ⟨c, ⟨a, b⟩, d⟩
      exact ⟨c, ⟨a, by have := h.2.1; simp only at b; linarith⟩, d⟩
    · rw [← neg_div]
      exact nn (by linarith [hq.2.1.2])
    · obtain ⟨c, ⟨a, b⟩, d⟩ := hq
      have := h.2.1
      simp only at b
      rw [← neg_div]
      refine pp (by linarith) fun e => ?_
      have : q.2.1 = p.y := congrArg V3.y e
      linarith
  · refine integral_positive h subset_rfl iz (fun q hq => nn (by linarith [hq.2.2.1])) fun q hq => pp (by linarith [hq.2.2.1]) fun e => ?_
    have : q.2.2 = p.z := congrArg V3.z e
    linarith [hq.2.2.1]
  · refine integral_positive (c := ⟨s.box.min, ⟨s.box.max.x, s.box.max.y, (s.box.min.z + s.box.max.z) / 2⟩⟩)
      ⟨h.1, h.2.1, by have := h.2.2; simp only; linarith⟩ ?_ iz.neg (fun q hq => ?_) fun q hq => ?_
    · rintro q ⟨c, d, a, b⟩
      exact ⟨c, d, a, by have := h.2.2; simp only at b; linarith⟩
    · rw [← neg_div]
      exact nn (by linarith [hq.2.2.2])
    · obtain ⟨c, d, a, b⟩ := hq
      have := h.2.2
      simp only at b
      rw [← neg_div]
      refine pp (by linarith) fun e => ?_
      have : q.2.2 = p.z := congrArg V3.z e
      linarith

/-- The hypotheses are met: a cube of side 2 seen from 10 along `z`, and a dipole that replaces it. -/
example : (⟨⟨-1, -1, -1⟩, ⟨1, 1, 1⟩⟩ : Box).Proper ∧
    (⟨⟨-1, -1, -1⟩, ⟨1, 1, 1⟩⟩ : Box).halfDiagonal < ((⟨0, 0, 10⟩ : V3 ℝ) - (⟨⟨-1, -1, -1⟩, ⟨1, 1, 1⟩⟩ : Box).location).len ∧
    IsLumped ⟨⟨⟨-1, -1, -1⟩, ⟨1, 1, 1⟩⟩, ⟨0, 0, 3⟩⟩ ⟨mu0, 24, ⟨0, 0, 0⟩, ⟨0, 0, 1⟩⟩ := by
  refine ⟨⟨by norm_num, by norm_num, by norm_num⟩, ?_, ?_⟩
  · have h1 : (⟨⟨-1, -1, -1⟩, ⟨1, 1, 1⟩⟩ : Box).halfDiagonal ≤ 2 := by
      rw [Box.halfDiagonal, div_le_iff₀ (by norm_num)]
      refine Real.sqrt_le_iff.2 ⟨by norm_num, ?_⟩
      norm_num
    refine h1.trans_lt ?_
    refine Real.lt_sqrt_of_sq_lt ?_
    norm_num [Box.location]
  · constructor <;> norm_num [Box.location, mu0, MagPrism.moment, V3.map, Box.volume]

end Verif.Prism
