import Verif.Props.Motion
import Verif.Props.UnitsStatic
import Verif.Props.CircularLoop

/-!
# C111: the results do not depend on the system of units (electrodes on a half-space, spheres, circular loops)
-/

namespace Verif

namespace Static

/-! ## The value on the wire -/

/-- The value on a segment. -/
theorem segmentPotential_on {p0 p1 q : V3 ℝ} (h : p0 ≠ p1) (hb : OffBand p0 p1) {t : ℝ} (h0 : 0 < t) (h1 : t < 1) (hq : q = p0 + t • (p1 - p0)) :
    segmentPotential p0 p1 q = .ok (-(Real.log (2 * (1 - t) * (p1 - p0).len) + Real.log (2 * t * (p1 - p0).len)) • tan p0 p1) := by
  obtain ⟨rot, h2, hr, hx⟩ := segment_rotation h
  have hx := hx hb
  have hl := V3.len_sub_pos h.symm
  have h2' : Spatial.rotationMatrixFromNormals (Spatial.arr3 ((p1 - p0).map (· / (p1 - p0).len))) (Spatial.arr3 ⟨1, 0, 0⟩)
      Spatial.defaultTol = .ok rot := h2
  have eT : p1 - p0 = (p1 - p0).len • tan p0 p1 := by ext <;> simp [Spatial.unit] <;> field_simp
  have e0 : rot.mulVec (q - p0) = ⟨t * (p1 - p0).len, 0, 0⟩ := by
    have e : q - p0 = (t * (p1 - p0).len) • tan p0 p1 := by
      rw [hq, add_sub_cancel_left, mul_smul, ← eT]
    rw [e, M3.mulVec_smul, hx]
    ext <;> simp
  have e1 : rot.mulVec (q - p0) - ⟨(p1 - p0).len, 0, 0⟩ = ⟨(t - 1) * (p1 - p0).len, 0, 0⟩ := by
    rw [e0]
    ext <;> simp
    ring
  simp only [segmentPotential, h2', bind, Except.bind, pure, Except.pure]
  congr 1
  rw [e1, e0]
  dsimp only
  have key : ∀ k : ℝ, (⟨k, 0, 0⟩ : V3 ℝ) = k • rot.mulVec (tan p0 p1) := by
    intro k; rw [hx]; ext <;> simp
  rw [key, M3.mulVec_smul, hr.transpose_mulVec, fzy_ahead (mul_pos h0 hl), fzy_behind (mul_neg_of_neg_of_pos (by linarith) hl)]
  congr 1
  rw [show -2 * ((t - 1) * (p1 - p0).len) = 2 * (1 - t) * (p1 - p0).len by ring, show 2 * (t * (p1 - p0).len) = 2 * t * (p1 - p0).len by ring]
  ring

/-- On the wire, where the potential is infinite, a finite number is returned, and it depends on the unit of length. -/
theorem LineCurrent.on_wire_depends_on_units : ∃ (s : LineCurrent) (q : V3 ℝ) (u : Units), Regular s.nodes ∧ WireIntegral.OnWire s.nodes q ∧
    (s.inUnits u).vectorPotential (u.length • q) ≠ ((u.fluxDensity * u.length) • ·) <$> s.vectorPotential q := by
  have len1 (a : ℝ) (ha : 0 < a) : ((⟨a, 0, 0⟩ : V3 ℝ) - 0).len = a := by
    rw [sub_zero, V3.len]
    simp [Real.sqrt_sq ha.le]
  have ht (a : ℝ) (ha : 0 < a) : tan 0 ⟨a, 0, 0⟩ = ⟨1, 0, 0⟩ := by
    have := len1 a ha
    rw [sub_zero] at this
    ext <;> simp [Spatial.unit, this, ha.ne']
  have hb (a : ℝ) (ha : 0 < a) : OffBand 0 ⟨a, 0, 0⟩ := Or.inl (by rw [ht a ha, V3.len_eq_zero]; ext <;> simp)
  have hn (a : ℝ) (ha : 0 < a) : (0 : V3 ℝ) ≠ ⟨a, 0, 0⟩ := fun h => ha.ne (congrArg V3.x h)
  have hseg (a : ℝ) (ha : 0 < a) : segmentPotential 0 ⟨a, 0, 0⟩ ⟨a / 2, 0, 0⟩ = .ok ⟨-(2 * Real.log a), 0, 0⟩ := by
    rw [segmentPotential_on (hn a ha) (hb a ha) (t := 1 / 2) (by norm_num) (by norm_num) (by ext <;> simp <;> ring), len1 a ha, ht a ha]
    refine congrArg Except.ok ?_
    ext <;> simp
    norm_num
    ring
  have hval (mu a : ℝ) (ha : 0 < a) : (⟨mu, 1, 1, [0, ⟨a, 0, 0⟩]⟩ : LineCurrent).vectorPotential ⟨a / 2, 0, 0⟩ =
      .ok ⟨2 * Real.log a * (mu / (4 * Real.pi)), 0, 0⟩ := by
    simp only [LineCurrent.vectorPotential, sumSegments, hseg a ha, bind, Except.bind, pure, Except.pure]
    refine congrArg Except.ok ?_
    ext <;> simp [V3.map]
    ring
  refine ⟨⟨1, 1, 1, [0, ⟨1, 0, 0⟩]⟩, ⟨1 / 2, 0, 0⟩, ⟨2, 1, 1, 1, by norm_num, by norm_num, by norm_num, by norm_num⟩,
    List.isChain_cons_cons.2 ⟨⟨hn 1 one_pos, hb 1 one_pos⟩, by simp⟩, .inl ⟨1 / 2, by norm_num, by norm_num, by ext <;> simp⟩, ?_⟩
  rw [hval 1 1 one_pos]
  have e1 : (2 : ℝ) • (⟨1 / 2, 0, 0⟩ : V3 ℝ) = ⟨2 / 2, 0, 0⟩ := by ext <;> simp
  have e2 : (2 : ℝ) • (⟨1, 0, 0⟩ : V3 ℝ) = ⟨2, 0, 0⟩ := by ext <;> simp
  have e3 : (2 : ℝ) • (0 : V3 ℝ) = 0 := smul_zero _
  have e4 : Units.conductivity ⟨2, 1, 1, 1, by norm_num, by norm_num, by norm_num, by norm_num⟩ * 1 = 8⁻¹ := by
    rw [Units.conductivity_eq]; norm_num
  intro h
  have hval' (sigma : ℝ) : (⟨2, sigma, 1, [0, ⟨2, 0, 0⟩]⟩ : LineCurrent).vectorPotential ⟨2 / 2, 0, 0⟩ = .ok ⟨2 * Real.log 2 * (2 / (4 * Real.pi)), 0, 0⟩ :=
    hval 2 2 two_pos
  simp only [LineCurrent.inUnits, List.map_cons, List.map_nil, e1, e2, e3, Units.permeability_eq] at h
  norm_num only at h
  have h' := h.symm.trans (by simpa using hval' _)
  have h := congrArg (fun v : V3 ℝ => v.x) (Except.ok.inj h')
  simp at h
  norm_num at h

/-! ## Electrodes on a half-space -/

/-- The electrode in other units. -/
noncomputable def PointHalf.inUnits (u : Units) (s : PointHalf) : PointHalf :=
  ⟨s.rho / u.conductivity, u.current * s.current, u.length • s.location, s.primary.inUnits u, s.image.inUnits u⟩

/-- The pair of electrodes in other units. -/
noncomputable def DipoleHalf.inUnits (u : Units) (s : DipoleHalf) : DipoleHalf :=
  ⟨s.rho / u.conductivity, u.current * s.current, u.length • s.locationA, u.length • s.locationB, s.a.inUnits u, s.b.inUnits u⟩

theorem Units.conductivity_pos (u : Units) : 0 < u.conductivity := u.conv_pos _ _ _ _

/-- **C111.** Building the electrode from numbers in other units gives the electrode in other units. -/
theorem PointHalf.new_units (u : Units) (mu0 rho current : ℝ) (location : V3 ℝ) :
    PointHalf.new (u.permeability * mu0) (rho / u.conductivity) (u.current * current) (u.length • location) =
      (PointHalf.inUnits u) <$> PointHalf.new mu0 rho current location := by
  have hc := Units.conductivity_pos u
  have hL := u.length_pos
  have h0 : rho / u.conductivity = 0 ↔ rho = 0 := by simp [hc.ne']
  have h1 : 1 / (rho / u.conductivity) ≤ 0 ↔ 1 / rho ≤ 0 := by
    rw [one_div_div, div_eq_mul_one_div]
    exact ⟨fun h => nonpos_of_mul_nonpos_right h hc, fun h => mul_nonpos_of_nonneg_of_nonpos hc.le h⟩
  have h2 : (u.length • location).z > 0 ↔ location.z > 0 := by
    rw [V3.smul_z, smul_eq_mul]
    exact mul_pos_iff_of_pos_left hL
  unfold PointHalf.new
  by_cases a0 : rho = 0
  · rw [if_pos a0, if_pos (h0.2 a0)]; rfl
  rw [if_neg a0, if_neg (mt h0.1 a0)]
  by_cases a1 : 1 / rho ≤ 0
  · rw [if_pos a1, if_pos (h1.2 a1)]; rfl
  rw [if_neg a1, if_neg (mt h1.1 a1)]
  by_cases a2 : location.z > 0
  · rw [if_pos a2, if_pos (h2.2 a2)]; rfl
  rw [if_neg a2, if_neg (mt h2.1 a2)]
  refine congrArg Except.ok ?_
  have e : 1 / (rho / u.conductivity) = u.conductivity * (1 / rho) := by field_simp
  have em : mirror (u.length • location) = u.length • mirror location := by
    ext <;> simp [mirror]
  simp only [PointHalf.inUnits, pointCurrent, LineCurrent.inUnits, e, em, List.map_cons, List.map_nil]

theorem above_iff {a : ℝ} (ha : 0 < a) (q : V3 ℝ) : (a • q).z > 0 ↔ q.z > 0 := by
  rw [V3.smul_z, smul_eq_mul]
  exact mul_pos_iff_of_pos_left ha

/-- **C111.** Electrode on a half-space. -/
theorem PointHalf.units (u : Units) (s : PointHalf) (q : V3 ℝ) :
    (s.inUnits u).potential (u.length • q) = (u.voltage * ·) <$> s.potential q ∧
    (s.inUnits u).electricField (u.length • q) = (u.electricField • ·) <$> s.electricField q ∧
    (s.inUnits u).currentDensity (u.length • q) = (u.currentDensity • ·) <$> s.currentDensity q := by
  have hL := u.length_pos; have hM := u.mass_pos; have hT := u.time_pos; have hI := u.current_pos
  have hz := above_iff hL q
  have h1 : (s.inUnits u).electricField (u.length • q) = (u.electricField • ·) <$> s.electricField q := by
    simp only [PointHalf.electricField, PointHalf.inUnits, pointElectricField, (LineCurrent.units u _ q).2.1]
    by_cases h : q.z > 0
    · rw [if_pos h, if_pos (hz.2 h)]; rfl
    · rw [if_neg h, if_neg (mt hz.1 h)]
      rcases s.primary.electricField q with e | v
      · rfl
      rcases s.image.electricField q with e | w
      · rfl
      exact congrArg Except.ok (smul_add _ _ _).symm
  refine ⟨?_, h1, ?_⟩
  · simp only [PointHalf.potential, PointHalf.inUnits, pointPotential, (LineCurrent.units u _ q).1]
    by_cases h : q.z > 0
    · rw [if_pos h, if_pos (hz.2 h)]; rfl
    · rw [if_neg h, if_neg (mt hz.1 h)]
      rcases s.primary.scalarPotential q with e | v
      · rfl
      rcases s.image.scalarPotential q with e | w
      · rfl
      exact congrArg Except.ok (mul_add _ _ _).symm
  · simp only [PointHalf.currentDensity, h1]
    rcases s.electricField q with e | v
    · rfl
    · refine congrArg Except.ok ?_
      simp only [PointHalf.inUnits, u.conductivity_eq, u.electricField_eq, u.currentDensity_eq]
      ext <;> simp only [V3.map, V3.smul_x, V3.smul_y, V3.smul_z, smul_eq_mul] <;> field_simp

/-- **C111.** Building the pair of electrodes from numbers in other units. -/
theorem DipoleHalf.new_units (u : Units) (mu0 rho : ℝ) (a b : V3 ℝ) (current : ℝ) :
    DipoleHalf.new (u.permeability * mu0) (rho / u.conductivity) (u.length • a) (u.length • b) (u.current * current) =
      (DipoleHalf.inUnits u) <$> DipoleHalf.new mu0 rho a b current := by
  simp only [DipoleHalf.new, PointHalf.new_units]
  rcases PointHalf.new mu0 rho current a with e | v
  · rfl
  rcases PointHalf.new mu0 rho current b with e | w
  · rfl
  rfl

/-- **C111.** Pair of electrodes on a half-space, with one or two receivers. -/
theorem DipoleHalf.units (u : Units) (s : DipoleHalf) (m : V3 ℝ) (n : Option (V3 ℝ)) :
    (s.inUnits u).potential (u.length • m) (n.map (u.length • ·)) = (u.voltage * ·) <$> s.potential m n ∧
    (s.inUnits u).electricField (u.length • m) (n.map (u.length • ·)) = (u.electricField • ·) <$> s.electricField m n ∧
    (s.inUnits u).currentDensity (u.length • m) (n.map (u.length • ·)) = (u.currentDensity • ·) <$> s.currentDensity m n := by
  have hL := u.length_pos; have hM := u.mass_pos; have hT := u.time_pos; have hI := u.current_pos
  have hz := fun q => above_iff hL q
  have h1 : (s.inUnits u).electricField (u.length • m) (n.map (u.length • ·)) = (u.electricField • ·) <$> s.electricField m n := by
    simp only [DipoleHalf.electricField, DipoleHalf.inUnits, (PointHalf.units u _ _).2.1]
    by_cases h : m.z > 0
    · rw [if_pos h, if_pos ((hz m).2 h)]; rfl
    rw [if_neg h, if_neg (mt (hz m).1 h)]
    cases n with
    | none =>
      simp only [Option.map_none]
      rcases s.a.electricField m with e | v
      · rfl
      rcases s.b.electricField m with e | w
      · rfl
      exact congrArg Except.ok (smul_sub _ _ _).symm
    | some n =>
      simp only [Option.map_some, (PointHalf.units u _ _).2.1]
      by_cases h : n.z > 0
      · rw [if_pos h, if_pos ((hz n).2 h)]; rfl
      rw [if_neg h, if_neg (mt (hz n).1 h)]
      rcases s.a.electricField m with e | v
      · rfl
      rcases s.b.electricField m with e | w
      · rfl
      rcases s.a.electricField n with e | v'
      · rfl
      rcases s.b.electricField n with e | w'
      · rfl
      refine congrArg Except.ok ?_
      simp only [smul_sub]
  refine ⟨?_, h1, ?_⟩
  · simp only [DipoleHalf.potential, DipoleHalf.inUnits, (PointHalf.units u _ _).1]
    by_cases h : m.z > 0
    · rw [if_pos h, if_pos ((hz m).2 h)]; rfl
    rw [if_neg h, if_neg (mt (hz m).1 h)]
    cases n with
    | none =>
      simp only [Option.map_none]
      rcases s.a.potential m with e | v
      · rfl
      rcases s.b.potential m with e | w
      · rfl
      exact congrArg Except.ok (mul_sub _ _ _).symm
    | some n =>
      simp only [Option.map_some, (PointHalf.units u _ _).1]
      by_cases h : n.z > 0
      · rw [if_pos h, if_pos ((hz n).2 h)]; rfl
      rw [if_neg h, if_neg (mt (hz n).1 h)]
      rcases s.a.potential m with e | v
      · rfl
      rcases s.b.potential m with e | w
      · rfl
      rcases s.a.potential n with e | v'
      · rfl
      rcases s.b.potential n with e | w'
      · rfl
      refine congrArg Except.ok ?_
      simp only [mul_sub]
  · simp only [DipoleHalf.currentDensity, h1]
    rcases s.electricField m n with e | v
    · rfl
    · refine congrArg Except.ok ?_
      simp only [DipoleHalf.inUnits, u.conductivity_eq, u.electricField_eq, u.currentDensity_eq]
      ext <;> simp only [V3.map, V3.smul_x, V3.smul_y, V3.smul_z, smul_eq_mul] <;> field_simp

/-! ## Circular loop -/

/-- The loop in other units. -/
noncomputable def Loop.inUnits (u : Units) (s : Loop) : Loop :=
  ⟨u.permeability * s.mu, u.current * s.current, u.length * s.radius, u.length • s.location, s.orientation⟩

theorem cartToCyl_smul {a : ℝ} (ha : 0 < a) (v : V3 ℝ) :
    Spatial.cartToCyl (a • v) = ⟨a * (Spatial.cartToCyl v).x, (Spatial.cartToCyl v).y, a * (Spatial.cartToCyl v).z⟩ := by
  simp only [Spatial.cartToCyl, V3.smul_x, V3.smul_y, V3.smul_z, smul_eq_mul, Tdem.arctan2_scale ha]
  congr 1
  rw [← Fdem.sqrt_scale ha]
  refine congrArg Real.sqrt ?_
  ring

theorem Loop.inFrame_units (u : Units) (s : Loop) (f g : ℝ → ℝ → Option (V3 ℝ)) (k : ℝ) (q : V3 ℝ)
    (h : ∀ rho z, 0 ≤ rho → g (u.length * rho) (u.length * z) = (f rho z).map (k • ·)) :
    (s.inUnits u).inFrame g (u.length • q) = (Option.map (k • ·)) <$> s.inFrame f q := by
  simp only [Loop.inFrame, Loop.inUnits, ← smul_sub]
  rcases Spatial.rotationMatrixFromNormals _ _ _ with e | rot
  · rfl
  refine congrArg Except.ok ?_
  simp only [M3.mulVec_smul, cartToCyl_smul u.length_pos]
  rw [h _ _ (show 0 ≤ (Spatial.cartToCyl (rot.mulVec (q - s.location))).x from Real.sqrt_nonneg _), Option.map_map]
  generalize f _ _ = o
  cases o with
  | none => rfl
  | some v =>
    refine congrArg some ?_
    simp only [Function.comp, ← M3.mulVec_smul]
    refine congrArg _ ?_
    ext <;> simp only [Spatial.cylToCartVec, V3.smul_x, V3.smul_y, V3.smul_z, smul_eq_mul] <;> ring

theorem smallRho_units {l : ℝ} (hl : 0 < l) (a rho z : ℝ) : smallRho (l * a) (l * rho) (l * z) ↔ smallRho a rho z := by
  have e : (l * a) ^ 2 + (l * z) ^ 2 = l ^ 2 * (a ^ 2 + z ^ 2) := by ring
  rw [smallRho, smallRho, e, mul_pow, mul_div_mul_left _ _ (by positivity)]
  simp [hl.ne']

/-- **C111.** Flux density of the circular loop, everywhere. -/
theorem Loop.units (u : Units) (s : Loop) (q : V3 ℝ) :
    (s.inUnits u).magneticFluxDensity (u.length • q) = (Option.map (u.fluxDensity • ·)) <$> s.magneticFluxDensity q := by
  have hL := u.length_pos; have hM := u.mass_pos; have hT := u.time_pos; have hI := u.current_pos
  refine Loop.inFrame_units u s _ _ _ q fun rho z hr => ?_
  simp only [Loop.fluxRhoZ, Loop.inUnits]
  have ea : (u.length * s.radius - u.length * rho) ^ 2 + (u.length * z) ^ 2 = u.length ^ 2 * ((s.radius - rho) ^ 2 + z ^ 2) := by ring
  have eb : (u.length * s.radius + u.length * rho) ^ 2 + (u.length * z) ^ 2 = u.length ^ 2 * ((s.radius + rho) ^ 2 + z ^ 2) := by ring
  have ec : (u.length * s.radius) ^ 2 + (u.length * z) ^ 2 = u.length ^ 2 * (s.radius ^ 2 + z ^ 2) := by ring
  simp only [ea, eb, ec, Fdem.sqrt_scale hL, mul_div_mul_left _ _ (pow_ne_zero 2 hL.ne')]
  have n1 (x : ℝ) : u.length ^ 2 * x = 0 ↔ x = 0 := by simp [hL.ne']
  have hs := smallRho_units hL s.radius rho z
  by_cases h : (s.radius + rho) ^ 2 + z ^ 2 = 0 ∨ (s.radius - rho) ^ 2 + z ^ 2 = 0
  · rw [if_pos h, if_pos (by rwa [n1, n1])]; rfl
  rw [if_neg h, if_neg (by rwa [n1, n1])]
  generalize ellipE _ = ek
  generalize ellipK _ = kk
  generalize √((s.radius + rho) ^ 2 + z ^ 2) = beta
  generalize (s.radius - rho) ^ 2 + z ^ 2 = alpha
  generalize √(s.radius ^ 2 + z ^ 2) = temp
  by_cases h' : smallRho s.radius rho z
  · have h'' := hs.2 h'
    simp only [h', h'', if_true, Option.map_some]
    refine congrArg some ?_
    simp only [u.permeability_eq, u.fluxDensity_eq]
    ext <;> simp only [V3.smul_x, V3.smul_y, V3.smul_z, smul_eq_mul, mul_zero] <;> field_simp
  · have h'' := mt hs.1 h'
    simp only [h', h'', if_false, Option.map_some]
    refine congrArg some ?_
    simp only [u.permeability_eq, u.fluxDensity_eq]
    ext <;> simp only [V3.smul_x, V3.smul_y, V3.smul_z, smul_eq_mul, mul_zero] <;> field_simp

/-- **C111.** Magnetic field of the circular loop, and both fields with the flag `coordinates` set to Cartesian. -/
theorem Loop.units_field (u : Units) (s : Loop) (q : V3 ℝ) (c : String) (hc : c.toLower = "cartesian") :
    (s.inUnits u).magneticFluxDensityIn c (u.length • q) = (Option.map (u.fluxDensity • ·)) <$> s.magneticFluxDensityIn c q ∧
    (s.inUnits u).magneticFieldIn c (u.length • q) = (Option.map (u.magneticField • ·)) <$> s.magneticFieldIn c q := by
  have hL := u.length_pos; have hM := u.mass_pos; have hT := u.time_pos; have hI := u.current_pos
  have h1 : (s.inUnits u).magneticFluxDensityIn c (u.length • q) = (Option.map (u.fluxDensity • ·)) <$> s.magneticFluxDensityIn c q := by
    rw [(Loop.in_cartesian _ c hc _).2, (Loop.in_cartesian _ c hc _).2, Loop.units]
  refine ⟨h1, ?_⟩
  simp only [Loop.magneticFieldIn, h1]
  rcases s.magneticFluxDensityIn c q with e | v
  · rfl
  refine congrArg Except.ok ?_
  cases v with
  | none => rfl
  | some v =>
    refine congrArg some ?_
    simp only [Loop.inUnits, u.permeability_eq, u.magneticField_eq, u.fluxDensity_eq]
    ext <;> simp only [V3.map, V3.smul_x, V3.smul_y, V3.smul_z, smul_eq_mul] <;> field_simp

theorem Loop.potentialPhi_units (u : Units) (s : Loop) {rho z : ℝ} (h : ¬ smallRho s.radius rho z) :
    (s.inUnits u).potentialPhi (u.length * rho) (u.length * z) = (s.potentialPhi rho z).map ((u.fluxDensity * u.length) * ·) := by
  have hL := u.length_pos; have hM := u.mass_pos; have hT := u.time_pos; have hI := u.current_pos
  simp only [Loop.potentialPhi, Loop.inUnits]
  have ea : (u.length * s.radius - u.length * rho) ^ 2 + (u.length * z) ^ 2 = u.length ^ 2 * ((s.radius - rho) ^ 2 + z ^ 2) := by ring
  have eb : (u.length * s.radius + u.length * rho) ^ 2 + (u.length * z) ^ 2 = u.length ^ 2 * ((s.radius + rho) ^ 2 + z ^ 2) := by ring
  simp only [ea, eb, Fdem.sqrt_scale hL, mul_div_mul_left _ _ (pow_ne_zero 2 hL.ne')]
  have n1 (x : ℝ) : u.length ^ 2 * x = 0 ↔ x = 0 := by simp [hL.ne']
  have h'' := mt (smallRho_units hL s.radius rho z).1 h
  simp only [h, h'', if_false]
  by_cases h : (s.radius + rho) ^ 2 + z ^ 2 = 0 ∨ (s.radius - rho) ^ 2 + z ^ 2 = 0
  · rw [if_pos h, if_pos (by rwa [n1, n1])]; rfl
  rw [if_neg h, if_neg (by rwa [n1, n1])]
  generalize ellipE _ = ek
  generalize ellipK _ = kk
  generalize √((s.radius + rho) ^ 2 + z ^ 2) = beta
  generalize (s.radius + rho) ^ 2 + z ^ 2 = beta2
  refine congrArg some ?_
  simp only [u.permeability_eq, u.fluxDensity_eq]
  field_simp

/-- **C111.** Vector potential of the circular loop, where the elliptic integrals are used. -/
theorem Loop.units_potential_partial (u : Units) (s : Loop) (hb : s.OffBand) (q : V3 ℝ) (h : s.AwayFromAxis s.axis q) :
    (s.inUnits u).vectorPotential (u.length • q) = (Option.map ((u.fluxDensity * u.length) • ·)) <$> s.vectorPotential q := by
  have hL := u.length_pos
  have hf := hb.frame
  have hb' : (s.inUnits u).OffBand := hb
  have hf' := hb'.frame
  have hd : (u.length • q - u.length • s.location) = u.length • (q - s.location) := (smul_sub _ _ _).symm
  have hz (n v : V3 ℝ) : n.dot (u.length • v) = u.length * n.dot v := by
    simp only [V3.dot, V3.smul_x, V3.smul_y, V3.smul_z, smul_eq_mul]
    ring
  have hr (n v : V3 ℝ) : axisDist n (u.length • v) = u.length * axisDist n v := by
    rw [axisDist, axisDist, hz, V3.len_smul, abs_of_pos hL, ← Fdem.sqrt_scale hL]
    congr 1
    ring
  have pos : 0 < axisDist s.axis (q - s.location) := by
    rw [axisDist_eq_cross hf.1]
    unfold Loop.AwayFromAxis at h
    by_contra h0
    have h0 := le_antisymm (not_lt.1 h0) (V3.len_nonneg _)
    rw [h0] at h
    nlinarith [sq_nonneg s.radius, sq_nonneg (s.axis.dot (q - s.location))]
  have ns : ¬ smallRho s.radius (axisDist s.axis (q - s.location)) (s.axis.dot (q - s.location)) := by
    rintro ⟨h1, h2⟩
    rw [axisDist_eq_cross hf.1, div_lt_iff₀ (by positivity)] at h2
    exact absurd h (not_lt.2 h2.le)
  have e : (s.inUnits u).axis = s.axis := rfl
  have el : (s.inUnits u).location = u.length • s.location := rfl
  rw [Loop.vectorPotential, Loop.vectorPotential, hf'.2 _ _ (.inl (by rw [e, el, hd, hr]; positivity)), hf.2 _ _ (.inl pos), e, el, hd, hr, hz,
    Loop.potentialPhi_units u s ns]
  refine congrArg Except.ok ?_
  generalize s.potentialPhi _ _ = o
  cases o with
  | none => rfl
  | some v =>
    refine congrArg some ?_
    simp only [fromCyl, hr, hz]
    generalize axisDist _ _ = r at *
    ext <;> simp only [V3.cross_x, V3.cross_y, V3.cross_z, V3.add_x, V3.add_y, V3.add_z, V3.sub_x, V3.sub_y, V3.sub_z, V3.smul_x, V3.smul_y, V3.smul_z, smul_eq_mul] <;> field_simp <;>
      ring

/-- The value near the axis of a vertical loop, at a point of the plane of the loop. -/
theorem Loop.vertical_small (mu current : ℝ) {a r : ℝ} (ha : 0 < a) (hr : 0 < r) (hs : r ^ 2 < 1e-6 * a ^ 2) :
    (⟨mu, current, a, 0, ⟨0, 0, 1⟩⟩ : Loop).vectorPotential ⟨r, 0, 0⟩ = .ok (some ⟨0, mu * current * (r / (4 * a) + 3 * r ^ 3 / (32 * a ^ 7)), 0⟩) := by
  set s : Loop := ⟨mu, current, a, 0, ⟨0, 0, 1⟩⟩ with hs'
  have hax : s.axis = ⟨0, 0, 1⟩ := by ext <;> simp [Loop.axis, hs', Spatial.unit, V3.len]
  have hof : s.OffBand := ⟨by simp [hs', V3.ext_iff], by rw [hax]; left; simp [V3.len]⟩
  have hf := hof.frame
  rw [hax] at hf
  have e0 : (⟨r, 0, 0⟩ : V3 ℝ) - s.location = ⟨r, 0, 0⟩ := by ext <;> simp [hs']
  have er : axisDist ⟨0, 0, 1⟩ (⟨r, 0, 0⟩ : V3 ℝ) = r := by
    rw [axisDist, V3.len_sq]
    simp [V3.dot, Real.sqrt_sq hr.le]
  have ez : (⟨0, 0, 1⟩ : V3 ℝ).dot ⟨r, 0, 0⟩ = 0 := by simp [V3.dot]
  have hsm : smallRho s.radius r 0 := by
    refine ⟨by simp [hs', ha.ne'], ?_⟩
    rw [div_lt_iff₀ (by simp [hs', ha])]
    simpa [hs'] using hs
  have hne : ¬ (s.radius ^ 2 - 4 * 0 ^ 2 = 0) := by simp [hs', ha.ne']
  have hphi : s.potentialPhi r 0 = some (mu * current * (r / (4 * a) + 3 * r ^ 3 / (32 * a ^ 7))) := by
    simp only [Loop.potentialPhi, if_pos hsm, if_neg hne]
    have hq : √(a ^ 2 + 0 ^ 2) = a := by rw [show a ^ 2 + 0 ^ 2 = a ^ 2 by ring, Real.sqrt_sq ha.le]
    simp only [hs', hq]
    have := Real.pi_pos
    congr 1
    rw [show a ^ 2 - 4 * 0 ^ 2 = a ^ 2 by ring]
    field_simp
  rw [Loop.vectorPotential, hf.2 _ _ (.inl (by rw [e0, er]; exact hr)), e0, er, ez, hphi]
  simp only [Option.map_some, fromCyl, er]
  congr 2
  ext <;> simp [V3.dot]
  field_simp

/-- Near the axis the vector potential depends on the unit of length. -/
theorem Loop.near_axis_depends_on_units : ∃ (s : Loop) (q : V3 ℝ) (u : Units), s.OffBand ∧ 0 < s.radius ∧
    (s.inUnits u).vectorPotential (u.length • q) ≠ (Option.map ((u.fluxDensity * u.length) • ·)) <$> s.vectorPotential q := by
  refine ⟨⟨1, 1, 1, 0, ⟨0, 0, 1⟩⟩, ⟨1 / 2000, 0, 0⟩, ⟨2, 1, 1, 1, by norm_num, by norm_num, by norm_num, by norm_num⟩, Loop.unitLoop_offBand, one_pos, ?_⟩
  rw [Loop.vertical_small 1 1 one_pos (by norm_num) (by norm_num)]
  have e1 : (2 : ℝ) • (⟨1 / 2000, 0, 0⟩ : V3 ℝ) = ⟨1 / 1000, 0, 0⟩ := by ext <;> simp; norm_num
  have e2 : (2 : ℝ) • (0 : V3 ℝ) = 0 := smul_zero _
  simp only [Loop.inUnits, e1, e2]
  rw [Loop.vertical_small _ _ (by norm_num) (by norm_num) (by norm_num)]
  intro h
  have h := congrArg (fun v : V3 ℝ => v.y) (Option.some.inj (Except.ok.inj h))
  simp only [V3.smul_y, smul_eq_mul, Units.permeability_eq, Units.fluxDensity_eq] at h
  norm_num at h

end Static

/-! ## Spheres -/

namespace Sphere

/-- The conductive sphere in other units. -/
noncomputable def Electro.inUnits (u : Units) (s : Electro) : Electro :=
  ⟨u.length * s.radius, u.conductivity * s.sigmaSphere, u.conductivity * s.sigmaBackground, u.electricField • s.primaryField, u.length • s.location⟩

/-- The permeable sphere in other units. -/
noncomputable def Magneto.inUnits (u : Units) (s : Magneto) : Magneto :=
  ⟨u.length * s.radius, u.permeability * s.muSphere, u.permeability * s.muBackground, u.magneticField • s.primaryField, u.length • s.location⟩

theorem select_map {α : Type} [Sub α] (f : α → α) (hf : ∀ a b, f (a - b) = f a - f b) (field : String) (a b : α) :
    select field (f a) (f b) = (select field a b).map f := by
  unfold select
  split_ifs <;> simp [Parts.map, hf]

theorem ratio_units {k : ℝ} (hk : k ≠ 0) (a b : ℝ) : (k * a - k * b) / (k * a + 2 * (k * b)) = (a - b) / (a + 2 * b) := by
  rw [← mul_div_mul_left (a - b) (a + 2 * b) hk]
  congr 1 <;> ring

theorem out_iff {l : ℝ} (hl : 0 < l) (r R : ℝ) : l * r > l * R ↔ r > R := mul_lt_mul_iff_right₀ hl

/-- **C111.** Potential of the conductive sphere. -/
theorem Electro.units_potential (u : Units) (s : Electro) (q : V3 ℝ) (field : String) :
    (s.inUnits u).potential (u.length • q) field = (s.potential q field).map (u.voltage * ·) := by
  have hL := u.length_pos; have hM := u.mass_pos; have hT := u.time_pos; have hI := u.current_pos
  have hc := (Static.Units.conductivity_pos u)
  have ev : u.voltage = u.length * u.electricField := by rw [u.voltage_eq, u.electricField_eq]; ring
  have hd : (u.length • q - u.length • s.location) = u.length • (q - s.location) := (smul_sub _ _ _).symm
  have hl : (u.length • (q - s.location)).len = u.length * (q - s.location).len := by rw [V3.len_smul, abs_of_pos hL]
  have e (v w : V3 ℝ) : (u.length • v).dot (-(u.electricField • w)) = u.voltage * v.dot (-w) := by
    rw [ev]
    simp only [V3.dot, V3.smul_x, V3.smul_y, V3.smul_z, V3.neg_x, V3.neg_y, V3.neg_z, smul_eq_mul]
    ring
  rw [Electro.potential, Electro.potential, ← select_map _ (fun a b => mul_sub _ _ _)]
  congr 1
  · simp only [Electro.potentialTotal, Electro.inUnits, hd, hl, e, ratio_units hc.ne']
    by_cases h : (q - s.location).len > s.radius
    · rw [if_pos h, if_pos ((out_iff hL _ _).2 h)]
      generalize (s.sigmaSphere - s.sigmaBackground) / (s.sigmaSphere + 2 * s.sigmaBackground) = k
      generalize (q - s.location).len = r
      field_simp
    · rw [if_neg h, if_neg (mt (out_iff hL _ _).1 h)]
      rw [show u.conductivity * s.sigmaSphere + 2 * (u.conductivity * s.sigmaBackground) = u.conductivity * (s.sigmaSphere + 2 * s.sigmaBackground) by ring]
      generalize s.sigmaSphere + 2 * s.sigmaBackground = d
      field_simp
  · simp only [Electro.potentialPrimary, Electro.inUnits, hd, e]

/-- **C111.** Inside the sphere the field and the current are also right. -/
theorem Electro.units_inside_partial (u : Units) (s : Electro) (q : V3 ℝ) (field : String) (h : (q - s.location).len ≤ s.radius) :
    (s.inUnits u).electricField (u.length • q) field = (s.electricField q field).map (u.electricField • ·) ∧
    (s.inUnits u).currentDensity (u.length • q) field = (s.currentDensity q field).map (u.currentDensity • ·) := by
  have hL := u.length_pos; have hM := u.mass_pos; have hT := u.time_pos; have hI := u.current_pos
  have hc := (Static.Units.conductivity_pos u)
  have hd : (u.length • q - u.length • s.location) = u.length • (q - s.location) := (smul_sub _ _ _).symm
  have hl : (u.length • (q - s.location)).len = u.length * (q - s.location).len := by rw [V3.len_smul, abs_of_pos hL]
  have h1 : (s.inUnits u).fieldTotal (u.length • q) = u.electricField • s.fieldTotal q := by
    simp only [Electro.fieldTotal, Electro.inUnits, hd, hl]
    rw [if_neg (not_lt.2 h), if_neg (mt (out_iff hL _ _).1 (not_lt.2 h))]
    rw [show u.conductivity * s.sigmaSphere + 2 * (u.conductivity * s.sigmaBackground) = u.conductivity * (s.sigmaSphere + 2 * s.sigmaBackground) by ring]
    generalize s.sigmaSphere + 2 * s.sigmaBackground = d
    ext <;> simp only [V3.map, V3.smul_x, V3.smul_y, V3.smul_z, smul_eq_mul] <;> field_simp
  have h2 : (s.inUnits u).fieldPrimary (u.length • q) = u.electricField • s.fieldPrimary q := by
    simp only [Electro.fieldPrimary, Electro.inUnits, zero_add]
  constructor
  · rw [Electro.electricField, Electro.electricField, ← select_map _ (fun a b => smul_sub _ _ _), h1, h2]
  · rw [Electro.currentDensity, Electro.currentDensity, ← select_map _ (fun a b => smul_sub _ _ _)]
    congr 1
    · simp only [Electro.currentTotal, h1]
      simp only [Electro.inUnits, hd, hl]
      rw [if_pos h, if_pos (mul_le_mul_of_nonneg_left h hL.le), u.conductivity_eq, u.electricField_eq, u.currentDensity_eq]
      ext <;> simp only [V3.map, V3.smul_x, V3.smul_y, V3.smul_z, smul_eq_mul] <;> field_simp
    · simp only [Electro.currentPrimary, h2]
      simp only [Electro.inUnits, u.conductivity_eq, u.electricField_eq, u.currentDensity_eq]
      ext <;> simp only [V3.map, V3.smul_x, V3.smul_y, V3.smul_z, smul_eq_mul] <;> field_simp

/-- **C111.** Surface charge of the conductive sphere. -/
theorem Electro.units_charge (u : Units) (eps0 : ℝ) (s : Electro) (q : V3 ℝ) (dr : Option ℝ) :
    (s.inUnits u).chargeDensity (u.permittivity * eps0) (u.length • q) (dr.map (u.length * ·)) = u.chargeDensity * s.chargeDensity eps0 q dr := by
  have hL := u.length_pos; have hM := u.mass_pos; have hT := u.time_pos; have hI := u.current_pos
  have hc := (Static.Units.conductivity_pos u)
  have hd : (u.length • q - u.length • s.location) = u.length • (q - s.location) := (smul_sub _ _ _).symm
  have hl : (u.length • (q - s.location)).len = u.length * (q - s.location).len := by rw [V3.len_smul, abs_of_pos hL]
  have e (v w : V3 ℝ) : (u.length • v).dot (u.electricField • w) = u.length * u.electricField * v.dot w := by
    simp only [V3.dot, V3.smul_x, V3.smul_y, V3.smul_z, smul_eq_mul]
    ring
  have edr : (dr.map (u.length * ·)).getD (0.05 * (u.length * s.radius)) = u.length * dr.getD (0.05 * s.radius) := by
    cases dr with
    | none => simp only [Option.map_none, Option.getD_none]; ring
    | some d => rfl
  have e1 (x : ℝ) : u.length * (q - s.location).len < u.length * s.radius + 0.5 * (u.length * x) ↔ (q - s.location).len < s.radius + 0.5 * x := by
    rw [show u.length * s.radius + 0.5 * (u.length * x) = u.length * (s.radius + 0.5 * x) by ring]
    exact mul_lt_mul_iff_right₀ hL
  have e2 (x : ℝ) : u.length * (q - s.location).len > u.length * s.radius - 0.5 * (u.length * x) ↔ (q - s.location).len > s.radius - 0.5 * x := by
    rw [show u.length * s.radius - 0.5 * (u.length * x) = u.length * (s.radius - 0.5 * x) by ring]
    exact mul_lt_mul_iff_right₀ hL
  simp only [Electro.chargeDensity, Electro.inUnits, hd, hl, e, edr, ratio_units hc.ne']
  generalize dr.getD (0.05 * s.radius) = x
  by_cases h : (q - s.location).len < s.radius + 0.5 * x ∧ (q - s.location).len > s.radius - 0.5 * x
  · have h' := (and_congr (e1 x) (e2 x)).2 h
    simp only [h, h', and_self, if_true]
    rw [u.permittivity_eq, u.electricField_eq, u.chargeDensity_eq]
    generalize (s.sigmaSphere - s.sigmaBackground) / (s.sigmaSphere + 2 * s.sigmaBackground) = k
    generalize (q - s.location).len = r
    field_simp
  · have h' := mt (and_congr (e1 x) (e2 x)).1 h
    simp only [h, h', if_false, mul_zero]

/-- Outside the sphere the electric field depends on the unit of length. -/
theorem Electro.outside_depends_on_units : ∃ (s : Electro) (q : V3 ℝ) (u : Units), 0 < s.radius ∧ 0 < s.sigmaSphere ∧ 0 < s.sigmaBackground ∧
    s.radius < (q - s.location).len ∧ (s.inUnits u).fieldTotal (u.length • q) ≠ u.electricField • s.fieldTotal q := by
  have hv (a c e : ℝ) (ha : 0 < a) (hc : 0 < c) : (⟨a, 4 * c, c, ⟨e, 0, 0⟩, 0⟩ : Electro).fieldTotal ⟨2 * a, 0, 0⟩ = ⟨e * (15 / 16 + 3 / 8 / a), 0, 0⟩ := by
    have hl : (⟨2 * a, 0, 0⟩ : V3 ℝ).len = 2 * a := by
      rw [V3.len]
      simp
      exact Real.sqrt_sq (by positivity)
    simp only [Electro.fieldTotal, sub_zero, hl]
    rw [if_pos (by linarith)]
    have e1 : (4 * c - c) / (4 * c + 2 * c) = 1 / 2 := by field_simp; norm_num
    rw [e1]
    ext <;> simp [V3.map, V3.dot]
    field_simp
    ring
  refine ⟨⟨1, 4 * 1, 1, ⟨1, 0, 0⟩, 0⟩, ⟨2 * 1, 0, 0⟩, ⟨2, 1, 1, 1, by norm_num, by norm_num, by norm_num, by norm_num⟩, one_pos, by norm_num, one_pos, ?_, ?_⟩
  · have h2 : (⟨2 * 1, 0, 0⟩ : V3 ℝ).len ^ 2 = 4 := by rw [V3.len_sq]; norm_num
    have h3 := V3.len_nonneg (⟨2 * 1, 0, 0⟩ : V3 ℝ)
    simp only [sub_zero]
    nlinarith
  · rw [hv 1 1 1 one_pos one_pos]
    have e1 : (2 : ℝ) • (⟨2 * 1, 0, 0⟩ : V3 ℝ) = ⟨2 * (2 * 1), 0, 0⟩ := by ext <;> simp
    have e2 (k : ℝ) : k • (⟨1, 0, 0⟩ : V3 ℝ) = ⟨k, 0, 0⟩ := by ext <;> simp
    have e3 : (2 : ℝ) • (0 : V3 ℝ) = 0 := smul_zero _
    simp only [Electro.inUnits, e1, e2, e3]
    rw [mul_left_comm _ (4 : ℝ), hv _ _ _ (by norm_num) (mul_pos (Static.Units.conductivity_pos _) one_pos)]
    intro h
    have h := congrArg V3.x h
    simp only [V3.smul_x, smul_eq_mul, Units.electricField_eq] at h
    norm_num at h

/-- **C111.** Potential of the permeable sphere, in amperes. -/
theorem Magneto.units_potential (u : Units) (s : Magneto) (q : V3 ℝ) (field : String) :
    (s.inUnits u).potential (u.length • q) field = (s.potential q field).map (u.current * ·) := by
  have hL := u.length_pos; have hM := u.mass_pos; have hT := u.time_pos; have hI := u.current_pos
  have hc : 0 < u.permeability := u.conv_pos _ _ _ _
  have ev : u.current = u.length * u.magneticField := by rw [u.magneticField_eq]; field_simp
  have hd : (u.length • q - u.length • s.location) = u.length • (q - s.location) := (smul_sub _ _ _).symm
  have hl : (u.length • (q - s.location)).len = u.length * (q - s.location).len := by rw [V3.len_smul, abs_of_pos hL]
  have e (v w : V3 ℝ) : (u.length • v).dot (-(u.magneticField • w)) = u.current * v.dot (-w) := by
    rw [ev]
    simp only [V3.dot, V3.smul_x, V3.smul_y, V3.smul_z, V3.neg_x, V3.neg_y, V3.neg_z, smul_eq_mul]
    ring
  rw [Magneto.potential, Magneto.potential, ← select_map _ (fun a b => mul_sub _ _ _)]
  congr 1
  · simp only [Magneto.potentialTotal, Magneto.inUnits, hd, hl, e, ratio_units hc.ne']
    by_cases h : (q - s.location).len > s.radius
    · rw [if_pos h, if_pos ((out_iff hL _ _).2 h)]
      generalize (s.muSphere - s.muBackground) / (s.muSphere + 2 * s.muBackground) = k
      generalize (q - s.location).len = r
      field_simp
    · rw [if_neg h, if_neg (mt (out_iff hL _ _).1 h)]
      rw [show u.permeability * s.muSphere + 2 * (u.permeability * s.muBackground) = u.permeability * (s.muSphere + 2 * s.muBackground) by ring]
      generalize s.muSphere + 2 * s.muBackground = d
      field_simp
  · simp only [Magneto.potentialPrimary, Magneto.inUnits, hd, e]

/-- **C111.** Inside the permeable sphere. -/
theorem Magneto.units_inside_partial (u : Units) (s : Magneto) (q : V3 ℝ) (field : String) (h : (q - s.location).len ≤ s.radius) :
    (s.inUnits u).magneticField (u.length • q) field = (s.magneticField q field).map (u.magneticField • ·) ∧
    (s.inUnits u).magneticFluxDensity (u.length • q) field = (s.magneticFluxDensity q field).map (u.fluxDensity • ·) := by
  have hL := u.length_pos; have hM := u.mass_pos; have hT := u.time_pos; have hI := u.current_pos
  have hc : 0 < u.permeability := u.conv_pos _ _ _ _
  have hd : (u.length • q - u.length • s.location) = u.length • (q - s.location) := (smul_sub _ _ _).symm
  have hl : (u.length • (q - s.location)).len = u.length * (q - s.location).len := by rw [V3.len_smul, abs_of_pos hL]
  have h1 : (s.inUnits u).fieldTotal (u.length • q) = u.magneticField • s.fieldTotal q := by
    simp only [Magneto.fieldTotal, Magneto.inUnits, hd, hl]
    rw [if_neg (not_lt.2 h), if_neg (mt (out_iff hL _ _).1 (not_lt.2 h))]
    rw [show u.permeability * s.muSphere + 2 * (u.permeability * s.muBackground) = u.permeability * (s.muSphere + 2 * s.muBackground) by ring]
    generalize s.muSphere + 2 * s.muBackground = d
    ext <;> simp only [V3.map, V3.smul_x, V3.smul_y, V3.smul_z, smul_eq_mul] <;> field_simp
  have h2 : (s.inUnits u).fieldPrimary (u.length • q) = u.magneticField • s.fieldPrimary q := by
    simp only [Magneto.fieldPrimary, Magneto.inUnits, zero_add]
  constructor
  · rw [Magneto.magneticField, Magneto.magneticField, ← select_map _ (fun a b => smul_sub _ _ _), h1, h2]
  · rw [Magneto.magneticFluxDensity, Magneto.magneticFluxDensity, ← select_map _ (fun a b => smul_sub _ _ _)]
    congr 1
    · simp only [Magneto.fluxTotal, h1]
      simp only [Magneto.inUnits, hd, hl]
      rw [if_pos h, if_pos (mul_le_mul_of_nonneg_left h hL.le), u.permeability_eq, u.magneticField_eq, u.fluxDensity_eq]
      ext <;> simp only [V3.map, V3.smul_x, V3.smul_y, V3.smul_z, smul_eq_mul] <;> field_simp
    · simp only [Magneto.fluxPrimary, h2]
      simp only [Magneto.inUnits, u.permeability_eq, u.magneticField_eq, u.fluxDensity_eq]
      ext <;> simp only [V3.map, V3.smul_x, V3.smul_y, V3.smul_z, smul_eq_mul] <;> field_simp

/-- Outside the permeable sphere the magnetic field depends on the unit of length. -/
theorem Magneto.outside_depends_on_units : ∃ (s : Magneto) (q : V3 ℝ) (u : Units), 0 < s.radius ∧ 0 < s.muSphere ∧ 0 < s.muBackground ∧
    s.radius < (q - s.location).len ∧ (s.inUnits u).fieldTotal (u.length • q) ≠ u.magneticField • s.fieldTotal q := by
  have hv (a c e : ℝ) (ha : 0 < a) (hc : 0 < c) : (⟨a, 4 * c, c, ⟨e, 0, 0⟩, 0⟩ : Magneto).fieldTotal ⟨2 * a, 0, 0⟩ = ⟨e * (15 / 16 + 3 / 8 / a), 0, 0⟩ := by
    have hl : (⟨2 * a, 0, 0⟩ : V3 ℝ).len = 2 * a := by
      rw [V3.len]
      simp
      exact Real.sqrt_sq (by positivity)
    simp only [Magneto.fieldTotal, sub_zero, hl]
    rw [if_pos (by linarith)]
    have e1 : (4 * c - c) / (4 * c + 2 * c) = 1 / 2 := by field_simp; norm_num
    rw [e1]
    ext <;> simp [V3.map, V3.dot]
    field_simp
    ring
  refine ⟨⟨1, 4 * 1, 1, ⟨1, 0, 0⟩, 0⟩, ⟨2 * 1, 0, 0⟩, ⟨2, 1, 1, 1, by norm_num, by norm_num, by norm_num, by norm_num⟩, one_pos, by norm_num, one_pos, ?_, ?_⟩
  · have h2 : (⟨2 * 1, 0, 0⟩ : V3 ℝ).len ^ 2 = 4 := by rw [V3.len_sq]; norm_num
    have h3 := V3.len_nonneg (⟨2 * 1, 0, 0⟩ : V3 ℝ)
    simp only [sub_zero]
    nlinarith
  · rw [hv 1 1 1 one_pos one_pos]
    have e1 : (2 : ℝ) • (⟨2 * 1, 0, 0⟩ : V3 ℝ) = ⟨2 * (2 * 1), 0, 0⟩ := by ext <;> simp
    have e2 (k : ℝ) : k • (⟨1, 0, 0⟩ : V3 ℝ) = ⟨k, 0, 0⟩ := by ext <;> simp
    have e3 : (2 : ℝ) • (0 : V3 ℝ) = 0 := smul_zero _
    simp only [Magneto.inUnits, e1, e2, e3]
    rw [mul_left_comm _ (4 : ℝ), hv _ _ _ (by norm_num) (mul_pos (show 0 < Units.permeability _ from Units.conv_pos _ _ _ _ _) one_pos)]
    intro h
    have h := congrArg V3.x h
    simp only [V3.smul_x, smul_eq_mul, Units.magneticField_eq] at h
    norm_num at h

end Sphere
end Verif
