import Verif.Lemmas.WireIntegrals

/-!
# The circular current loop (C28, C38, C39, C74)

The axis of the loop is the unit vector along its orientation.  Inside a cone of half-angle about `1e-20` around the vertical
`rotation_matrix_from_normals` replaces the orientation by the exact vertical; `OffBand` excludes those orientations from
the theorems that name the axis, and `flux_is_curl_any` covers them with the axis that is then used.
-/

namespace Verif.Static

open Spatial Real

namespace Loop

variable (s : Loop)

/-- The axis. -/
noncomputable def axis : V3 ℝ := unit s.orientation

/-- The orientation is nonzero, and vertical or at least the tolerance away from vertical. -/
def OffBand : Prop :=
  s.orientation ≠ 0 ∧ ((s.axis.cross ⟨0, 0, 1⟩).len = 0 ∨ defaultTol ≤ (s.axis.cross ⟨0, 0, 1⟩).len)

/-- With `rho` the distance from the axis `n` and `z` the height above the loop's plane: the point is not in the region
`rho² < 1e-6 (a² + z²)` where a series replaces the elliptic integrals. -/
def AwayFromAxis (n q : V3 ℝ) : Prop :=
  1e-6 * (s.radius ^ 2 + n.dot (q - s.location) ^ 2) < (n.cross (q - s.location)).len ^ 2

/-- The point is not on the wire. -/
def OffWire (n q : V3 ℝ) : Prop := ¬ (n.dot (q - s.location) = 0 ∧ (n.cross (q - s.location)).len = s.radius)

/-! ## helper: the frame -/

/-- The loop is computed about the axis `n`. -/
def Frame (n : V3 ℝ) : Prop :=
  n.len = 1 ∧ ∀ (f : ℝ → ℝ → Option (V3 ℝ)) (q : V3 ℝ),
    (0 < axisDist n (q - s.location) ∨ ∀ v, f 0 (n.dot (q - s.location)) = some v → v.x = 0 ∧ v.y = 0) →
    s.inFrame f q = .ok ((f (axisDist n (q - s.location)) (n.dot (q - s.location))).map (fromCyl n (q - s.location)))

variable {s}

theorem OffBand.frame (h : s.OffBand) : s.Frame s.axis := by
  obtain ⟨n, h1, -, h3, h4⟩ := loop_frame s h.1
  have := h3 h.2
  subst this
  exact ⟨h1, h4⟩

theorem off_iff {n q : V3 ℝ} (hn : n.len = 1) :
    s.OffWire n q ↔ (s.radius - axisDist n (q - s.location)) ^ 2 + n.dot (q - s.location) ^ 2 ≠ 0 := by
  rw [OffWire, axisDist_eq_cross hn, not_iff_not]
  constructor
  · rintro ⟨h1, h2⟩; rw [h1, h2]; ring
  · intro h
    have h1 : n.dot (q - s.location) ^ 2 = 0 := by nlinarith [sq_nonneg (s.radius - (n.cross (q - s.location)).len), sq_nonneg (n.dot (q - s.location))]
    have h2 : (s.radius - (n.cross (q - s.location)).len) ^ 2 = 0 := by rw [h1] at h; linarith
    exact ⟨pow_eq_zero_iff two_ne_zero |>.1 h1, by linarith [pow_eq_zero_iff two_ne_zero |>.1 h2]⟩

theorem plain {n q : V3 ℝ} (hn : n.len = 1) (h1 : s.AwayFromAxis n q) (h2 : s.OffWire n q) :
    Plain s.radius (axisDist n (q - s.location)) (n.dot (q - s.location)) :=
  ⟨by rw [axisDist_eq_cross hn]; exact h1.le, (off_iff hn).1 h2⟩

theorem Frame.potential {n : V3 ℝ} (hf : s.Frame n) (ha : 0 < s.radius) {q : V3 ℝ} (h1 : s.AwayFromAxis n q)
    (h2 : s.OffWire n q) :
    s.vectorPotential q = .ok (some ((s.mu * s.current / π) • freeA n s.radius (q - s.location))) := by
  have hp := plain hf.1 h1 h2
  have hr := hp.pos ha (axisDist_nonneg _ _)
  rw [vectorPotential, hf.2 _ _ (.inl hr), potentialPhi_plain ha hp hr.le]
  simp only [Option.map_some, fromCyl, freeA]
  congr 2
  module

theorem Frame.flux {n : V3 ℝ} (hf : s.Frame n) (ha : 0 < s.radius) {q : V3 ℝ} (h1 : s.AwayFromAxis n q)
    (h2 : s.OffWire n q) :
    s.magneticFluxDensity q = .ok (some ((s.mu * s.current / π) • freeB n s.radius (q - s.location))) := by
  have hp := plain hf.1 h1 h2
  have hr := hp.pos ha (axisDist_nonneg _ _)
  rw [magneticFluxDensity, hf.2 _ _ (.inl hr), fluxRhoZ_plain ha hp hr.le]
  simp only [Option.map_some, fromCyl, freeB]
  congr 2
  module

theorem eventually_regular {n p : V3 ℝ} (hn : n.len = 1) (hr : 0 < axisDist n (p - s.location)) (h1 : s.AwayFromAxis n p) (h2 : s.OffWire n p)
    (v : V3 ℝ) : ∀ᶠ t : ℝ in nhds 0, s.AwayFromAxis n (p + t • v) ∧ s.OffWire n (p + t • v) := by
  have e : ∀ t : ℝ, p + t • v - s.location = (p - s.location) + t • v := fun t => by abel
  obtain ⟨c1, c2⟩ := hasDerivAt_axis hn (p - s.location) v hr
  have c1 := c1.continuousAt
  have c2 := c2.continuousAt
  rw [off_iff hn] at h2
  have k1 : ∀ᶠ t : ℝ in nhds 0, 1e-6 * (s.radius ^ 2 + n.dot ((p - s.location) + t • v) ^ 2) <
      axisDist n ((p - s.location) + t • v) ^ 2 := by
    refine ContinuousAt.eventually_lt ?_ (c1.pow 2) ?_
    · exact continuousAt_const.mul (continuousAt_const.add (c2.pow 2))
    · simp only [zero_smul, add_zero]; rw [axisDist_eq_cross hn]; exact h1
  have k2 : ∀ᶠ t : ℝ in nhds 0, (s.radius - axisDist n ((p - s.location) + t • v)) ^ 2 + n.dot ((p - s.location) + t • v) ^ 2 ≠ 0 := by
    refine ContinuousAt.eventually_ne (((continuousAt_const.sub c1).pow 2).add (c2.pow 2)) ?_
    simpa using h2
  filter_upwards [k1, k2] with t t1 t2
  refine ⟨?_, ?_⟩
  · rw [AwayFromAxis, e, ← axisDist_eq_cross hn]; exact t1
  · rw [off_iff hn, e]; exact t2

theorem Frame.curl {n : V3 ℝ} (hf : s.Frame n) (ha : 0 < s.radius) :
    ∃ A : V3 ℝ → V3 ℝ, (∀ q, s.AwayFromAxis n q → s.OffWire n q → s.vectorPotential q = .ok (some (A q))) ∧
      ∀ p, s.AwayFromAxis n p → s.OffWire n p →
        ∃ b, s.magneticFluxDensity p = .ok (some b) ∧ HasCurl A b p := by
  refine ⟨fun q => (s.mu * s.current / π) • freeA n s.radius (q - s.location), fun q h1 h2 => hf.potential ha h1 h2,
    fun p h1 h2 => ⟨_, hf.flux ha h1 h2, ?_⟩⟩
  have hp := plain hf.1 h1 h2
  exact HasCurl.const_smul _ (freeA_curl hf.1 ha s.location p (hp.pos ha (axisDist_nonneg _ _)) hp.off)

/-! ## C39 -/

/-- **C39.** Off the wire and outside the near-axis region both fields are finite, and the flux density is the curl of the
vector potential: whatever function `A` agrees with `vector_potential` on that region. -/
theorem flux_is_curl (hb : s.OffBand) (ha : 0 < s.radius) (A : V3 ℝ → V3 ℝ)
    (hA : ∀ q, s.AwayFromAxis s.axis q → s.OffWire s.axis q → s.vectorPotential q = .ok (some (A q))) (p : V3 ℝ)
    (h1 : s.AwayFromAxis s.axis p) (h2 : s.OffWire s.axis p) :
    ∃ b, s.magneticFluxDensity p = .ok (some b) ∧ HasCurl A b p := by
  obtain ⟨A', hA', hB⟩ := hb.frame.curl ha
  obtain ⟨b, hb1, hb2⟩ := hB p h1 h2
  have hr := (plain hb.frame.1 h1 h2).pos ha (axisDist_nonneg _ _)
  refine ⟨b, hb1, HasCurl.congr_lines hb2 fun v => ?_⟩
  filter_upwards [eventually_regular hb.frame.1 hr h1 h2 v] with t ht
  have := (hA _ ht.1 ht.2).symm.trans (hA' _ ht.1 ht.2)
  simpa using this

/-- **C39**, existence: such a function `A` exists, so both fields are finite on that region. -/
theorem potential_finite (hb : s.OffBand) (ha : 0 < s.radius) (q : V3 ℝ) (h1 : s.AwayFromAxis s.axis q)
    (h2 : s.OffWire s.axis q) : ∃ a, s.vectorPotential q = .ok (some a) := ⟨_, hb.frame.potential ha h1 h2⟩

/-- **C39** for every nonzero orientation, with the axis that is actually used: within `4e-20` of the orientation. -/
theorem flux_is_curl_any (s : Loop) (ho : s.orientation ≠ 0) (ha : 0 < s.radius) :
    ∃ n : V3 ℝ, n.len = 1 ∧ (n - unit s.orientation).len ≤ 4 * defaultTol ∧
      ∃ A : V3 ℝ → V3 ℝ, (∀ q, s.AwayFromAxis n q → s.OffWire n q → s.vectorPotential q = .ok (some (A q))) ∧
        ∀ p, s.AwayFromAxis n p → s.OffWire n p →
          ∃ b, s.magneticFluxDensity p = .ok (some b) ∧ HasCurl A b p := by
  obtain ⟨n, h1, h2, -, h4⟩ := loop_frame s ho
  exact ⟨n, h1, h2, Frame.curl ⟨h1, h4⟩ ha⟩

/-! ## C74: the line integrals -/

/-- **C74.** Off the wire and outside the near-axis region, `vector_potential` is `mu I/(4π) ∮ dl/|q - s|` and
`magnetic_flux_density` is the Biot–Savart integral `mu I/(4π) ∮ dl × (q - s)/|q - s|³` around the circle, run through
counterclockwise about the orientation. -/
theorem biot_savart (hb : s.OffBand) (ha : 0 < s.radius) {e1 e2 : V3 ℝ} (he : CircularWire.IsFrame e1 e2 s.axis) (q : V3 ℝ)
    (h1 : s.AwayFromAxis s.axis q) (h2 : s.OffWire s.axis q) :
    s.vectorPotential q = .ok (some ((s.mu * s.current / (4 * π)) • CircularWire.potential s.location e1 e2 s.radius q)) ∧
    s.magneticFluxDensity q = .ok (some ((s.mu * s.current / (4 * π)) • CircularWire.flux s.location e1 e2 s.radius q)) := by
  have hf := hb.frame
  have hp := plain hf.1 h1 h2
  have hr := hp.pos ha (axisDist_nonneg _ _)
  obtain ⟨u, w, hu, hw, -, i1, i2⟩ := CircularWire.wire_integrals (c := s.location) (q := q) he ha.le hp.off
  obtain ⟨l1, l2, l3⟩ := loop_integrals ha hr hp.off
  rw [hf.potential ha h1 h2, hf.flux ha h1 h2, i1, i2, freeA, freeB, ← hu, ← hw, ← l1, ← l2, ← l3]
  constructor
  · congr 2
    match_scalars; field_simp
  · congr 2
    match_scalars <;> field_simp

/-- On the axis the distance from it is zero. -/
theorem axisDist_zero {n : V3 ℝ} (hn : n.len = 1) {d : V3 ℝ} (h : n.cross d = 0) : axisDist n d = 0 := by
  rw [axisDist_eq_cross hn, h]; simp [V3.len]

theorem loopBz_axis {a z : ℝ} (ha : 0 < a) : loopBz a 0 z = π * a ^ 2 / (2 * √(a ^ 2 + z ^ 2) ^ 3) := by
  have hp : 0 < a ^ 2 + z ^ 2 := by positivity
  have hq := sq_sqrt hp.le
  have hs : 0 < √(a ^ 2 + z ^ 2) := sqrt_pos.2 hp
  simp only [loopBz, sub_zero, add_zero, div_self hp.ne', sub_self, ellipK_zero, ellipE_zero]
  generalize √(a ^ 2 + z ^ 2) = T at *
  rw [← hq]
  field_simp
  linear_combination hq

theorem fluxRhoZ_axial (ha : 0 < s.radius) {rho z : ℝ} (hr : 0 ≤ rho) (hne : (s.radius - rho) ^ 2 + z ^ 2 ≠ 0) :
    ∃ br, s.fluxRhoZ rho z = some (br, s.mu * s.current / π * loopBz s.radius rho z) ∧ (rho = 0 → br = 0) := by
  have hb : ¬ ((s.radius + rho) ^ 2 + z ^ 2 = 0 ∨ (s.radius - rho) ^ 2 + z ^ 2 = 0) := by
    rintro (h1 | h1)
    · have : 0 < (s.radius + rho) ^ 2 + z ^ 2 := by positivity
      exact this.ne' h1
    · exact hne h1
  have e : ∀ x y C br : ℝ, some (br, C / x * y) = some (br, C * (1 / x * y)) := fun x y C br => by congr 2; ring
  simp only [fluxRhoZ, if_neg hb, loopBz]
  split
  · exact ⟨_, e _ _ _ _, by rintro rfl; simp⟩
  · exact ⟨_, e _ _ _ _, by rintro rfl; simp⟩

/-- **C74.** At every point off the wire, near the axis too, the flux density is finite and its component along the
orientation is that of the Biot–Savart integral. -/
theorem biot_savart_axial (hb : s.OffBand) (ha : 0 < s.radius) {e1 e2 : V3 ℝ} (he : CircularWire.IsFrame e1 e2 s.axis) (q : V3 ℝ)
    (h2 : s.OffWire s.axis q) :
    ∃ b, s.magneticFluxDensity q = .ok (some b) ∧
      s.axis.dot b = s.mu * s.current / (4 * π) * s.axis.dot (CircularWire.flux s.location e1 e2 s.radius q) := by
  have hf := hb.frame
  have hne := (off_iff hf.1).1 h2
  have hr := axisDist_nonneg s.axis (q - s.location)
  obtain ⟨br, hbr, hz⟩ := fluxRhoZ_axial (z := s.axis.dot (q - s.location)) ha hr hne
  have hn2 : s.axis.dot s.axis = 1 := by rw [V3.dot_self, hf.1]; norm_num
  refine ⟨fromCyl s.axis (q - s.location) ⟨br, 0, s.mu * s.current / π *
    loopBz s.radius (axisDist s.axis (q - s.location)) (s.axis.dot (q - s.location))⟩, ?_, ?_⟩
  · rw [magneticFluxDensity, hf.2]
    · rw [hbr]; rfl
    · rcases hr.lt_or_eq with h | h
      · exact .inl h
      · right
        intro v hv
        rw [← h] at hbr
        rw [hbr] at hv
        simp only [Option.map_some, Option.some.injEq] at hv
        rw [← hv]
        exact ⟨hz h.symm, rfl⟩
  · obtain ⟨u, w, hu, hw, hdw, -, i2⟩ := CircularWire.wire_integrals (c := s.location) (q := q) he ha.le hne
    have hd : ∀ (x y : ℝ) (v : V3 ℝ), s.axis.dot (x • v + y • s.axis) = x * s.axis.dot v + y * s.axis.dot s.axis := by
      intro x y v; simp [V3.dot]; ring
    rw [i2, hd, hdw, hn2]
    simp only [fromCyl, zero_div, zero_smul, add_zero]
    rw [← hw, hd, hn2]
    have hd2 : ∀ (x : ℝ) (v : V3 ℝ), s.axis.dot (x • v) = x * s.axis.dot v := by intro x v; simp [V3.dot]; ring
    rw [hd2, hdw]
    simp only [mul_zero, zero_add, mul_one]
    rcases hr.lt_or_eq with h | h
    · obtain ⟨-, -, l3⟩ := loop_integrals ha h hne
      rw [← l3]; field_simp
    · rw [← h, loopBz_axis ha]
      have hp : 0 < s.radius ^ 2 + s.axis.dot (q - s.location) ^ 2 := by positivity
      have hs := sqrt_pos.2 hp
      simp [wireDistSq]
      field_simp
      ring

/-! ## C38 -/

/-- **C38.** On the axis, at signed height `z` above the centre, the flux density is `mu I a²/(2 (a² + z²)^(3/2))` along the
orientation. -/
theorem axis_flux (hb : s.OffBand) (ha : 0 < s.radius) (q : V3 ℝ) (hq : s.axis.cross (q - s.location) = 0) :
    s.magneticFluxDensity q = .ok (some ((s.mu * s.current * s.radius ^ 2 /
      (2 * √(s.radius ^ 2 + s.axis.dot (q - s.location) ^ 2) ^ 3)) • s.axis)) := by
  have hf := hb.frame
  have h0 := axisDist_zero hf.1 hq
  obtain ⟨br, hbr, hz⟩ := fluxRhoZ_axial (s := s) (rho := 0) (z := s.axis.dot (q - s.location)) ha le_rfl
    (by simp only [sub_zero]; positivity)
  rw [hz rfl, loopBz_axis ha] at hbr
  rw [magneticFluxDensity, hf.2]
  · rw [h0, hbr]
    simp only [Option.map_some, fromCyl]
    congr 2
    simp only [zero_div, zero_smul, zero_add]
    congr 1
    field_simp
  · right
    intro v hv
    rw [hbr] at hv
    simp only [Option.map_some, Option.some.injEq] at hv
    rw [← hv]
    exact ⟨rfl, rfl⟩

theorem potentialPhi_axis (ha : 0 < s.radius) (z : ℝ) :
    s.potentialPhi 0 z = if s.radius ^ 2 - 4 * z ^ 2 = 0 then none else some 0 := by
  have hs : smallRho s.radius 0 z := by
    rw [smallRho_iff ha]
    have : 0 < s.radius ^ 2 + z ^ 2 := by positivity
    norm_num; linarith
  simp only [potentialPhi, if_pos hs]
  split <;> simp_all

/-- **C38**, the part that holds.  Missing: the two axis points at height `± a/2`, see `axis_potential_not_finite`. -/
theorem axis_potential_partial (hb : s.OffBand) (ha : 0 < s.radius) (q : V3 ℝ) (hq : s.axis.cross (q - s.location) = 0)
    (hz : s.axis.dot (q - s.location) ≠ s.radius / 2) (hz' : s.axis.dot (q - s.location) ≠ -(s.radius / 2)) :
    s.vectorPotential q = .ok (some 0) := by
  have hf := hb.frame
  have h0 := axisDist_zero hf.1 hq
  have hne : ¬ (s.radius ^ 2 - 4 * s.axis.dot (q - s.location) ^ 2 = 0) := by
    intro h
    have : (s.axis.dot (q - s.location) - s.radius / 2) * (s.axis.dot (q - s.location) + s.radius / 2) = 0 := by linarith
    rcases mul_eq_zero.1 this with h | h
    · exact hz (by linarith)
    · exact hz' (by linarith)
  have hphi := potentialPhi_axis (s := s) ha (s.axis.dot (q - s.location))
  rw [if_neg hne] at hphi
  rw [vectorPotential, hf.2]
  · rw [h0, hphi]
    simp only [Option.map_some, fromCyl]
    congr 2
    simp
  · right
    intro v hv
    rw [hphi] at hv
    simp only [Option.map_some, Option.some.injEq] at hv
    rw [← hv]
    exact ⟨rfl, rfl⟩

/-- **C38** fails: on the axis of every loop there are two points, at height `± a/2`, where the vector potential is not
finite. -/
theorem axis_potential_not_finite (hb : s.OffBand) (ha : 0 < s.radius) (q : V3 ℝ) (hq : s.axis.cross (q - s.location) = 0)
    (hz : s.axis.dot (q - s.location) = s.radius / 2 ∨ s.axis.dot (q - s.location) = -(s.radius / 2)) :
    s.vectorPotential q = .ok none := by
  have hf := hb.frame
  have h0 := axisDist_zero hf.1 hq
  have hphi := potentialPhi_axis (s := s) ha (s.axis.dot (q - s.location))
  rw [if_pos (by rcases hz with h | h <;> rw [h] <;> ring)] at hphi
  rw [vectorPotential, hf.2]
  · rw [h0, hphi]; rfl
  · right; rw [hphi]; simp

/-! ## C28: the coordinates flag -/

/-- **C28.** `coordinates='cylindrical'`, in any capitalisation, on the cylindrical coordinates of `p`: the cylindrical
components at `p` of the Cartesian result at `p`. -/
theorem in_cylindrical (s : Loop) (c : String) (hc : c.toLower = "cylindrical") (p : V3 ℝ) :
    s.vectorPotentialIn c (cartToCyl p) = (s.vectorPotential p).map (·.map (cartToCylVec p)) ∧
      s.magneticFluxDensityIn c (cartToCyl p) = (s.magneticFluxDensity p).map (·.map (cartToCylVec p)) := by
  have e := cylToCart_cartToCyl p
  constructor
  · simp only [vectorPotentialIn, hc, e, or_true, not_true, if_true, if_false]
    cases s.vectorPotential p <;> rfl
  · simp only [magneticFluxDensityIn, hc, e, or_true, not_true, if_true, if_false]
    cases s.magneticFluxDensity p <;> rfl

/-- **C28.** `coordinates='cartesian'` in any capitalisation is the plain method. -/
theorem in_cartesian (s : Loop) (c : String) (hc : c.toLower = "cartesian") (p : V3 ℝ) :
    s.vectorPotentialIn c p = s.vectorPotential p ∧ s.magneticFluxDensityIn c p = s.magneticFluxDensity p := by
  constructor
  · simp [vectorPotentialIn, hc]
  · simp [magneticFluxDensityIn, hc]

/-- **C28.** Any other word is rejected. -/
theorem in_other (s : Loop) (c : String) (h1 : c.toLower ≠ "cartesian") (h2 : c.toLower ≠ "cylindrical") (p : V3 ℝ) :
    s.vectorPotentialIn c p = .error .assertionError ∧ s.magneticFluxDensityIn c p = .error .typeError ∧
      s.magneticFieldIn c p = .error .typeError := by
  refine ⟨?_, ?_, ?_⟩ <;> simp [vectorPotentialIn, magneticFluxDensityIn, magneticFieldIn, h1, h2, bind, Except.bind]

/-- `magnetic_field` times the permeability is `magnetic_flux_density`, in either coordinate system. -/
theorem flux_eq_mu_field (s : Loop) (hmu : 0 < s.mu) (c : String) (p b : V3 ℝ) (h : s.magneticFluxDensityIn c p = .ok (some b)) :
    ∃ f, s.magneticFieldIn c p = .ok (some f) ∧ s.mu • f = b := by
  refine ⟨b.map (· / s.mu), by simp [magneticFieldIn, h, bind, Except.bind, pure, Except.pure], ?_⟩
  ext <;> simp <;> field_simp

/-! ## Near the axis -/

/-- A unit loop about the vertical axis. -/
noncomputable def unitLoop : Loop := ⟨1, 1, 1, 0, ⟨0, 0, 1⟩⟩

theorem unitLoop_axis : unitLoop.axis = ⟨0, 0, 1⟩ := by ext <;> simp [axis, unitLoop, unit, V3.len]

theorem unitLoop_offBand : unitLoop.OffBand :=
  ⟨by simp [unitLoop, V3.ext_iff], by rw [unitLoop_axis]; left; simp [V3.len]⟩

/-- The hypotheses of `flux_is_curl` and `biot_savart` are met, for instance at twice the radius. -/
example : unitLoop.OffBand ∧ 0 < unitLoop.radius ∧ unitLoop.AwayFromAxis unitLoop.axis ⟨2, 0, 0⟩ ∧
    unitLoop.OffWire unitLoop.axis ⟨2, 0, 0⟩ ∧ CircularWire.IsFrame ⟨1, 0, 0⟩ ⟨0, 1, 0⟩ unitLoop.axis := by
  refine ⟨unitLoop_offBand, by simp [unitLoop], ?_, ?_, ?_⟩
  · rw [AwayFromAxis, unitLoop_axis, V3.len_sq]; norm_num [unitLoop, V3.dot]
  · rw [OffWire, unitLoop_axis]
    rintro ⟨-, h⟩
    have h2 := V3.len_sq ((⟨0, 0, 1⟩ : V3 ℝ).cross (⟨2, 0, 0⟩ - unitLoop.location))
    rw [h] at h2
    norm_num [unitLoop] at h2
  · rw [unitLoop_axis]
    refine ⟨by simp [V3.dot], by simp [V3.dot], by simp [V3.dot], by ext <;> simp⟩

/-- The vector potential of the unit loop near the axis, in the plane `y = 0`. -/
theorem unitLoop_small {r : ℝ} (hr : 0 < r) {t : ℝ} (hs : r ^ 2 < 1e-6 * (1 + t ^ 2)) (ht : 1 - 4 * t ^ 2 ≠ 0) :
    unitLoop.vectorPotential ⟨r, 0, t⟩ =
      .ok (some ⟨0, r / (4 * √(1 + t ^ 2) ^ 3) + 3 * r ^ 3 / ((1 - 4 * t ^ 2) * (32 * √(1 + t ^ 2) ^ 7)), 0⟩) := by
  have hf := unitLoop_offBand.frame
  rw [unitLoop_axis] at hf
  have e0 : (⟨r, 0, t⟩ : V3 ℝ) - unitLoop.location = ⟨r, 0, t⟩ := by ext <;> simp [unitLoop]
  have er : axisDist ⟨0, 0, 1⟩ (⟨r, 0, t⟩ : V3 ℝ) = r := by
    rw [axisDist, V3.len_sq]
    simp [V3.dot, sqrt_sq hr.le]
  have ez : (⟨0, 0, 1⟩ : V3 ℝ).dot ⟨r, 0, t⟩ = t := by simp [V3.dot]
  have hsm : smallRho unitLoop.radius r t := by
    rw [smallRho_iff (by simp [unitLoop])]; simpa [unitLoop] using hs
  have hne : ¬ (unitLoop.radius ^ 2 - 4 * t ^ 2 = 0) := by simpa [unitLoop] using ht
  have hphi : unitLoop.potentialPhi r t =
      some (r / (4 * √(1 + t ^ 2) ^ 3) + 3 * r ^ 3 / ((1 - 4 * t ^ 2) * (32 * √(1 + t ^ 2) ^ 7))) := by
    simp only [potentialPhi, if_pos hsm, if_neg hne]
    have hp : 0 < √(1 + t ^ 2) := sqrt_pos.2 (by positivity)
    simp only [unitLoop, one_pow]
    have := pi_pos
    congr 1
    generalize √(1 + t ^ 2) = T at *
    field_simp
  rw [vectorPotential, hf.2 _ _ (.inl (by rw [e0, er]; exact hr)), e0, er, ez, hphi]
  simp only [Option.map_some, fromCyl, er]
  congr 2
  ext <;> simp [V3.dot]
  field_simp

/-- **C39** does not extend to the near-axis region: there the two series do not belong together.  For a unit loop, at
distance `1e-3` from the axis and height `3/4`, both fields are finite, and no function agreeing with `vector_potential`
where that is finite has the returned flux density as its curl. -/
theorem near_axis_not_curl :
    ∃ p b, unitLoop.magneticFluxDensity p = .ok (some b) ∧ (∃ a, unitLoop.vectorPotential p = .ok (some a)) ∧
      ∀ A : V3 ℝ → V3 ℝ, (∀ q a, unitLoop.vectorPotential q = .ok (some a) → A q = a) → ¬ HasCurl A b p := by
  have hf := unitLoop_offBand.frame
  rw [unitLoop_axis] at hf
  have hT : √(1 + (3 / 4 : ℝ) ^ 2) = 5 / 4 := by
    rw [show (1 : ℝ) + (3 / 4) ^ 2 = (5 / 4) ^ 2 by norm_num]; exact sqrt_sq (by norm_num)
  have e0 : (⟨1e-3, 0, 3 / 4⟩ : V3 ℝ) - unitLoop.location = ⟨1e-3, 0, 3 / 4⟩ := by ext <;> simp [unitLoop]
  have er : axisDist ⟨0, 0, 1⟩ (⟨1e-3, 0, 3 / 4⟩ : V3 ℝ) = 1e-3 := by
    rw [axisDist, V3.len_sq, show (⟨1e-3, 0, 3 / 4⟩ : V3 ℝ).x ^ 2 + (⟨1e-3, 0, 3 / 4⟩ : V3 ℝ).y ^ 2 +
      (⟨1e-3, 0, 3 / 4⟩ : V3 ℝ).z ^ 2 - (⟨0, 0, 1⟩ : V3 ℝ).dot ⟨1e-3, 0, 3 / 4⟩ ^ 2 = 1e-3 ^ 2 by norm_num [V3.dot]]
    exact sqrt_sq (by norm_num)
  have ez : (⟨0, 0, 1⟩ : V3 ℝ).dot ⟨1e-3, 0, 3 / 4⟩ = 3 / 4 := by norm_num [V3.dot]
  have hpot := unitLoop_small (r := 1e-3) (t := 3 / 4) (by norm_num) (by norm_num) (by norm_num)
  have hbr : ∃ bz, unitLoop.fluxRhoZ 1e-3 (3 / 4) = some (9 / 4 * (1e-3 / (4 * (5 / 4) ^ 5) +
      1e-3 ^ 3 * (15 - 20 * (3 / 4) ^ 2) / (32 * (5 / 4) ^ 9)), bz) := by
    have hsm : smallRho unitLoop.radius 1e-3 (3 / 4) := by
      rw [smallRho_iff (by simp [unitLoop])]; norm_num [unitLoop]
    have hnb : ¬ ((unitLoop.radius + 1e-3) ^ 2 + (3 / 4 : ℝ) ^ 2 = 0 ∨ (unitLoop.radius - 1e-3) ^ 2 + (3 / 4 : ℝ) ^ 2 = 0) := by
      norm_num [unitLoop]
    simp only [fluxRhoZ, if_neg hnb, if_pos hsm]
    have hw : ∀ x y x' : ℝ, x = x' → ∃ bz, some (x, y) = some (x', bz) := fun x y x' h => ⟨y, by rw [h]⟩
    refine hw _ _ _ ?_
    simp only [unitLoop, one_pow, hT, mul_one]
    have := pi_pos
    field_simp
    norm_num
  obtain ⟨bz, hbr⟩ := hbr
  refine ⟨⟨1e-3, 0, 3 / 4⟩, fromCyl ⟨0, 0, 1⟩ ⟨1e-3, 0, 3 / 4⟩ ⟨9 / 4 * (1e-3 / (4 * (5 / 4) ^ 5) +
      1e-3 ^ 3 * (15 - 20 * (3 / 4) ^ 2) / (32 * (5 / 4) ^ 9)), 0, bz⟩, ?_, ⟨_, hpot⟩, ?_⟩
  · rw [magneticFluxDensity, hf.2 _ _ (.inl (by rw [e0, er]; norm_num)), e0, er, ez, hbr]; rfl
  · intro A hA hcurl
    obtain ⟨J, ⟨-, jy, jz⟩, hc⟩ := hcurl
    -- the vertical component of the potential vanishes, so its derivative does
    have hzy : J.z.y = 0 := by
      have h1 := jz.partials.2.1
      refine h1.unique ((hasDerivAt_const (0 : ℝ) (0 : ℝ)).congr_of_eventuallyEq ?_)
      have hcts : ContinuousAt (fun y : ℝ => 1e-3 ^ 2 + y ^ 2) 0 := by fun_prop
      have hev : ∀ᶠ y : ℝ in nhds 0, 1e-3 ^ 2 + y ^ 2 < 1e-6 * (1 + (3 / 4) ^ 2) :=
        hcts.eventually_lt continuousAt_const (by norm_num)
      filter_upwards [hev] with y hy
      have e0' : (⟨1e-3, y, 3 / 4⟩ : V3 ℝ) - unitLoop.location = ⟨1e-3, y, 3 / 4⟩ := by ext <;> simp [unitLoop]
      have er' : axisDist ⟨0, 0, 1⟩ (⟨1e-3, y, 3 / 4⟩ : V3 ℝ) = √(1e-3 ^ 2 + y ^ 2) := by
        rw [axisDist, V3.len_sq]; congr 1; simp [V3.dot]
      have ez' : (⟨0, 0, 1⟩ : V3 ℝ).dot ⟨1e-3, y, 3 / 4⟩ = 3 / 4 := by norm_num [V3.dot]
      have hp : (0 : ℝ) < √(1e-3 ^ 2 + y ^ 2) := sqrt_pos.2 (by positivity)
      have hsm : smallRho unitLoop.radius √(1e-3 ^ 2 + y ^ 2) (3 / 4) := by
        rw [smallRho_iff (by simp [unitLoop]), sq_sqrt (by positivity)]; simpa [unitLoop] using hy
      have hne : ¬ (unitLoop.radius ^ 2 - 4 * (3 / 4 : ℝ) ^ 2 = 0) := by norm_num [unitLoop]
      have hphi : ∃ a, unitLoop.potentialPhi √(1e-3 ^ 2 + y ^ 2) (3 / 4) = some a := by
        simp only [potentialPhi, if_pos hsm, if_neg hne]; exact ⟨_, rfl⟩
      obtain ⟨a, ha⟩ := hphi
      have := hA ⟨1e-3, y, 3 / 4⟩ (fromCyl ⟨0, 0, 1⟩ ⟨1e-3, y, 3 / 4⟩ ⟨0, a, 0⟩) (by
        rw [vectorPotential, hf.2 _ _ (.inl (by rw [e0', er']; exact hp)), e0', er', ez', ha]; rfl)
      change (A ⟨1e-3, y, 3 / 4⟩).z = 0
      rw [this]
      simp [fromCyl]
    have hyz : HasDerivAt (fun t : ℝ => 1e-3 / (4 * √(1 + t ^ 2) ^ 3) +
        3 * 1e-3 ^ 3 / ((1 - 4 * t ^ 2) * (32 * √(1 + t ^ 2) ^ 7))) J.y.z (3 / 4) := by
      have h1 := jy.partials.2.2
      refine h1.congr_of_eventuallyEq ?_
      have hc1 : ContinuousAt (fun t : ℝ => 1e-6 * (1 + t ^ 2)) (3 / 4) := by fun_prop
      have hc2 : ContinuousAt (fun t : ℝ => 1 - 4 * t ^ 2) (3 / 4) := by fun_prop
      have hev1 : ∀ᶠ t : ℝ in nhds (3 / 4), 1e-3 ^ 2 < 1e-6 * (1 + t ^ 2) :=
        continuousAt_const.eventually_lt hc1 (by norm_num)
      have hev2 : ∀ᶠ t : ℝ in nhds (3 / 4), 1 - 4 * t ^ 2 ≠ 0 := hc2.eventually_ne (by norm_num)
      filter_upwards [hev1, hev2] with t t1 t2
      rw [hA _ _ (unitLoop_small (by norm_num) t1 t2)]
    have hsq : HasDerivAt (fun t : ℝ => √(1 + t ^ 2)) (3 / 5) (3 / 4) := by
      have h1 : HasDerivAt (fun t : ℝ => 1 + t ^ 2) (2 * (3 / 4)) (3 / 4) := by
        simpa using ((hasDerivAt_id (3 / 4 : ℝ)).fun_pow 2).const_add 1
      refine (h1.sqrt (by norm_num)).congr_deriv ?_
      rw [hT]; norm_num
    have hlin : HasDerivAt (fun t : ℝ => 1 - 4 * t ^ 2) (-6) (3 / 4) := by
      refine ((((hasDerivAt_id (3 / 4 : ℝ)).fun_pow 2).const_mul 4).const_sub 1).congr_deriv ?_
      norm_num
    have hd := ((hasDerivAt_const (3 / 4 : ℝ) (1e-3 : ℝ)).fun_div ((hsq.fun_pow 3).const_mul 4) (by rw [hT]; norm_num)).fun_add
      ((hasDerivAt_const (3 / 4 : ℝ) (3 * 1e-3 ^ 3 : ℝ)).fun_div (hlin.fun_mul ((hsq.fun_pow 7).const_mul 32))
        (by rw [hT]; norm_num))
    have hval := hyz.unique hd
    have hx := congrArg V3.x hc
    simp only [M3.curl, hzy, hval, hT, fromCyl, er, ez] at hx
    norm_num at hx

end Loop

end Verif.Static
