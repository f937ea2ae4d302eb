import Verif.Props.Mirror
import Verif.Props.MotionHalf

/-!
# C119: mirror images — sources over a half-space and plane waves

Only mirror images in vertical planes are considered, possibly turned about a vertical axis and shifted horizontally.
-/

namespace Verif

namespace Static

theorem mirror_mirrored {g : Motion} (h : g.Horizontal) (v : V3 ℝ) : mirror (g.mirror v) = g.mirror (mirror v) := by
  rw [Motion.mirror, mirror_moved h]
  rfl

/-- The source, mirrored. -/
noncomputable def PointHalf.mirrored (g : Motion) (s : PointHalf) : PointHalf :=
  ⟨s.rho, s.current, g.mirror s.location, s.primary.mirrored g, s.image.mirrored g⟩

theorem PointHalf.new_mirrored {g : Motion} (h : g.Horizontal) (mu0 rho current : ℝ) (location : V3 ℝ) :
    PointHalf.new mu0 rho current (g.mirror location) = mapPy (PointHalf.mirrored g) (PointHalf.new mu0 rho current location) := by
  classical
  simp only [PointHalf.new, h.mirror_z]
  split_ifs
  · rfl
  · rfl
  · rfl
  · simp only [mapPy, PointHalf.mirrored, pointCurrent, LineCurrent.mirrored, mirror_mirrored h, List.map]

/-- **C119.** Point current over a half-space. -/
theorem PointHalf.point_mirrored {g : Motion} (h : g.Horizontal) (s : PointHalf) (p : V3 ℝ) :
    (s.mirrored g).potential (g.mirror p) = s.potential p ∧
    (s.mirrored g).electricField (g.mirror p) = mapPy g.polar (s.electricField p) ∧
    (s.mirrored g).currentDensity (g.mirror p) = mapPy g.polar (s.currentDensity p) := by
  classical
  have hE : (s.mirrored g).electricField (g.mirror p) = mapPy g.polar (s.electricField p) := by
    simp only [electricField, h.mirror_z, mirrored, pointElectricField, (LineCurrent.electric_mirrored g _ p).2.1]
    split_ifs
    · rfl
    · refine mapPy_bind fun a => mapPy_bind fun b => ?_
      simp only [g.polar_add, pure, Except.pure, mapPy]
  refine ⟨?_, hE, ?_⟩
  · simp only [potential, h.mirror_z, mirrored, pointPotential, (LineCurrent.electric_mirrored g _ p).1]
  · simp only [currentDensity, hE]
    exact mapPy_bind fun a => congrArg Except.ok (unit_polar g a s.rho)

/-- The pair of electrodes, mirrored. -/
noncomputable def DipoleHalf.mirrored (g : Motion) (s : DipoleHalf) : DipoleHalf :=
  ⟨s.rho, s.current, g.mirror s.locationA, g.mirror s.locationB, s.a.mirrored g, s.b.mirrored g⟩

theorem DipoleHalf.new_mirrored {g : Motion} (h : g.Horizontal) (mu0 rho : ℝ) (a b : V3 ℝ) (current : ℝ) :
    DipoleHalf.new mu0 rho (g.mirror a) (g.mirror b) current = mapPy (DipoleHalf.mirrored g) (DipoleHalf.new mu0 rho a b current) := by
  simp only [DipoleHalf.new, PointHalf.new_mirrored h]
  exact mapPy_bind fun a => mapPy_bind fun b => rfl

/-- **C119.** Pair of electrodes over a half-space, one receiver or two. -/
theorem DipoleHalf.dipole_mirrored {g : Motion} (h : g.Horizontal) (s : DipoleHalf) (m : V3 ℝ) (n : Option (V3 ℝ)) :
    (s.mirrored g).potential (g.mirror m) (n.map g.mirror) = s.potential m n ∧
    (s.mirrored g).electricField (g.mirror m) (n.map g.mirror) = mapPy g.polar (s.electricField m n) ∧
    (s.mirrored g).currentDensity (g.mirror m) (n.map g.mirror) = mapPy g.polar (s.currentDensity m n) := by
  classical
  have hE : (s.mirrored g).electricField (g.mirror m) (n.map g.mirror) = mapPy g.polar (s.electricField m n) := by
    cases n with
    | none =>
      simp only [electricField, Option.map, h.mirror_z, mirrored, (PointHalf.point_mirrored h _ _).2.1]
      split_ifs
      · rfl
      · refine mapPy_bind fun a => mapPy_bind fun b => ?_
        simp only [g.polar_sub, pure, Except.pure, mapPy]
    | some n =>
      simp only [electricField, Option.map, h.mirror_z, mirrored, (PointHalf.point_mirrored h _ _).2.1]
      split_ifs
      · rfl
      · rfl
      · refine mapPy_bind fun a => mapPy_bind fun b => mapPy_bind fun c => mapPy_bind fun d => ?_
        simp only [g.polar_sub, pure, Except.pure, mapPy]
  refine ⟨?_, hE, ?_⟩
  · cases n with
    | none => simp only [potential, Option.map, h.mirror_z, mirrored, (PointHalf.point_mirrored h _ _).1]
    | some n => simp only [potential, Option.map, h.mirror_z, mirrored, (PointHalf.point_mirrored h _ _).1]
  · simp only [currentDensity, hE]
    exact mapPy_bind fun a => congrArg Except.ok (unit_polar g a s.rho)

end Static

namespace Fdem

/-- The dipole, mirrored. -/
def HalfDipole.mirrored (g : Motion) (s : HalfDipole) : HalfDipole :=
  { s with location := g.mirror s.location, orientation := g.axial s.orientation }

/-- The dipole, mirrored. -/
def LayeredDipole.mirrored (g : Motion) (s : LayeredDipole) : LayeredDipole :=
  { s with location := g.mirror s.location, orientation := g.axial s.orientation }

/-- Reflected in the plane `y = 0`. -/
theorem HalfDipole.dipole_flipped (iv kv : ℕ → ℂ → ℂ) (mu0 : ℝ) (s : HalfDipole) (p : V3 ℝ)
    (hr : p.x ≠ s.location.x ∨ p.y ≠ s.location.y) (field : String) :
    ({ s with location := s.location.flip, orientation := s.orientation.antiflip } : HalfDipole).magneticField iv kv mu0 p.flip field =
      (s.magneticField iv kv mu0 p field).antiflip := by
  obtain ⟨A, B, C, D, h⟩ := halfEm_form iv kv (s.k mu0) _ (offset_pos hr) field
  have h1 := h s.orientation _ _ rfl
  have h2 := h s.orientation.antiflip (p.x - s.location.x) (-(p.y - s.location.y)) (by rw [neg_sq])
  simp only [HalfDipole.k] at h1 h2
  simp only [HalfDipole.magneticField, HalfDipole.k, V3.flip, show -p.y - -s.location.y = -(p.y - s.location.y) by ring]
  rw [h1, h2]
  ext <;> simp only [V3.antiflip, V3.smul_x, V3.smul_y, V3.smul_z, smul_eq_mul] <;> push_cast <;> ring

/-- **C119.** Magnetic dipole on a half-space. -/
theorem HalfDipole.dipole_mirrored {g : Motion} (h : g.Horizontal) (iv kv : ℕ → ℂ → ℂ) (mu0 : ℝ) (s : HalfDipole) (p : V3 ℝ)
    (hr : p.x ≠ s.location.x ∨ p.y ≠ s.location.y) (field : String) :
    (s.mirrored g).magneticField iv kv mu0 (g.mirror p) field = g.axialC (s.magneticField iv kv mu0 p field) :=
  (HalfDipole.dipole_moved h iv kv mu0 { s with location := s.location.flip, orientation := s.orientation.antiflip } p.flip
    (by simpa only [V3.flip, ne_eq, neg_inj] using hr) field).trans (congrArg g.turnC (dipole_flipped iv kv mu0 s p hr field))

/-- Reflected in the plane `y = 0`. -/
theorem LayeredDipole.dipole_flipped (filter : List Tap) (mu0 : ℝ) (s : LayeredDipole) (p : V3 ℝ) (field : String) :
    ({ s with location := s.location.flip, orientation := s.orientation.antiflip } : LayeredDipole).fieldAt filter mu0 p.flip field =
      (s.fieldAt filter mu0 p field).antiflip := by
  obtain ⟨A, B, C, D, h⟩ := fieldAt_form filter (s.rTE mu0) (Real.sqrt ((p.x - s.location.x) ^ 2 + (p.y - s.location.y) ^ 2))
    (p.z + s.location.z)
  have ey : p.flip.y - s.location.flip.y = -(p.y - s.location.y) := by simp only [V3.flip]; ring
  have ex : p.flip.x - s.location.flip.x = p.x - s.location.x := rfl
  have ez : p.flip.z - s.location.flip.z = p.z - s.location.z := rfl
  have hlen : (p.flip - s.location.flip).len = (p - s.location).len := by
    simp only [V3.len, V3.sub_x, V3.sub_y, V3.sub_z, ex, ey, ez, neg_sq]
  rw [h mu0 s p rfl rfl rfl,
    h mu0 ({ s with location := s.location.flip, orientation := s.orientation.antiflip } : LayeredDipole) p.flip rfl
      (by simp only [ex, ey, neg_sq]) rfl]
  simp only [ex, ey, ez, hlen]
  by_cases hf : field = "total"
  · simp only [hf, if_true]
    ext <;> simp only [V3.antiflip, V3.smul_x, V3.smul_y, V3.smul_z, smul_eq_mul, V3.add_x, V3.add_y, V3.add_z, V3.map_x, V3.map_y,
      V3.map_z] <;> push_cast <;> ring
  · simp only [hf, if_false]
    ext <;> simp only [V3.antiflip, V3.smul_x, V3.smul_y, V3.smul_z, smul_eq_mul, V3.add_x, V3.add_y, V3.add_z, V3.zero_x, V3.zero_y,
      V3.zero_z] <;> push_cast <;> ring

/-- **C119.** Magnetic dipole over layers, for one point and for a list of points with its refusal of points below the surface. -/
theorem LayeredDipole.dipole_mirrored {g : Motion} (h : g.Horizontal) (filter : List Tap) (mu0 : ℝ) (s : LayeredDipole) (field : String) :
    (∀ p, (s.mirrored g).fieldAt filter mu0 (g.mirror p) field = g.axialC (s.fieldAt filter mu0 p field)) ∧
    ∀ points : List (V3 ℝ), (s.mirrored g).magneticField filter mu0 (points.map g.mirror) field =
      Static.mapPy (List.map g.axialC) (s.magneticField filter mu0 points field) := by
  classical
  have key : ∀ p, (s.mirrored g).fieldAt filter mu0 (g.mirror p) field = g.axialC (s.fieldAt filter mu0 p field) := fun p =>
    ((LayeredDipole.dipole_moved h filter mu0 { s with location := s.location.flip, orientation := s.orientation.antiflip } field).1
      p.flip).trans (congrArg g.turnC (dipole_flipped filter mu0 s p field))
  refine ⟨key, fun points => ?_⟩
  simp only [LayeredDipole.magneticField, List.mem_map, exists_exists_and_eq_and, h.mirror_z]
  split_ifs
  · rfl
  · simp only [Static.mapPy, List.map_map]
    congr 2
    funext p
    exact key p

/-- The wave, mirrored: its polarisation is polar. -/
def PlaneWave.mirrored (g : Motion) (s : PlaneWave) : PlaneWave := { s with orientation := g.polar s.orientation }

theorem polar_down {g : Motion} (h : g.Horizontal) : g.polar ⟨0, 0, -1⟩ = ⟨0, 0, -1⟩ := by
  rw [Motion.polar, show (⟨0, 0, -1⟩ : V3 ℝ).flip = ⟨0, 0, -1⟩ by simp [V3.flip], turn_down h]

/-- **C119.** Harmonic plane wave. -/
theorem PlaneWave.wave_mirrored {g : Motion} (h : g.Horizontal) (s : PlaneWave) (p : V3 ℝ) :
    (s.mirrored g).electricField (g.mirror p) = g.polarC (s.electricField p) ∧
    (s.mirrored g).currentDensity (g.mirror p) = g.polarC (s.currentDensity p) ∧
    (s.mirrored g).magneticField (g.mirror p) = g.axialC (s.magneticField p) ∧
    (s.mirrored g).magneticFluxDensity (g.mirror p) = g.axialC (s.magneticFluxDensity p) := by
  have ek : (s.mirrored g).wavenumber = s.wavenumber := rfl
  have ew : (s.mirrored g).omega = s.omega := rfl
  have hE : (s.mirrored g).electricField (g.mirror p) = g.polarC (s.electricField p) := by
    simp only [electricField, ek, h.mirror_z]
    rw [g.polarC_map _ _ (s.amplitude * Complex.exp (Complex.I * s.wavenumber * p.z)) fun c => by ring]
    rfl
  have hB : (s.mirrored g).magneticFluxDensity (g.mirror p) = g.axialC (s.magneticFluxDensity p) := by
    simp only [magneticFluxDensity, ek, ew, h.mirror_z]
    rw [g.axialC_map _ _ (-(s.amplitude : ℂ) * s.wavenumber / s.omega * Complex.exp (Complex.I * (s.wavenumber * p.z))) fun c => by ring,
      ← g.polar_cross, polar_down h]
    rfl
  refine ⟨hE, ?_, ?_, hB⟩
  · rw [currentDensity, currentDensity, hE, g.polarC_mapC _ _ _ fun c => rfl]; rfl
  · rw [magneticField, magneticField, hB, g.axialC_mapC _ _ (1 / s.mu) fun c => by ring]; rfl

end Fdem

namespace Tdem

/-- The wave, mirrored: its polarisation is polar. -/
def PlaneWave.mirrored (g : Motion) (s : PlaneWave) : PlaneWave := { s with orientation := g.polar s.orientation }

/-- **C119.** Transient plane wave. -/
theorem PlaneWave.wave_mirrored {g : Motion} (h : g.Horizontal) (s : PlaneWave) (p : V3 ℝ) :
    (s.mirrored g).electricField (g.mirror p) = g.polar (s.electricField p) ∧
    (s.mirrored g).currentDensity (g.mirror p) = g.polar (s.currentDensity p) ∧
    (s.mirrored g).magneticField (g.mirror p) = g.axial (s.magneticField p) ∧
    (s.mirrored g).magneticFluxDensity (g.mirror p) = g.axial (s.magneticFluxDensity p) := by
  have hE : (s.mirrored g).electricField (g.mirror p) = g.polar (s.electricField p) := by
    simp only [electricField, h.mirror_z]
    rw [g.polar_map _ _ _ fun c => mul_comm _ _]
    rfl
  have hB : (s.mirrored g).magneticFluxDensity (g.mirror p) = g.axial (s.magneticFluxDensity p) := by
    simp only [magneticFluxDensity, h.mirror_z]
    rw [g.axial_map _ _ _ fun c => mul_comm _ _, ← g.polar_cross, Fdem.polar_down h]
    rfl
  refine ⟨hE, ?_, ?_, hB⟩
  · rw [currentDensity, currentDensity, hE, g.polar_map _ _ _ fun c => rfl]; rfl
  · rw [magneticField, magneticField, hB, g.axial_map _ _ (1 / s.mu) fun c => by ring]; rfl

/-- The vertical dipole, mirrored: its moment is reversed. -/
def HalfspaceDipole.mirrored (g : Motion) (s : HalfspaceDipole) : HalfspaceDipole :=
  { s with location := g.mirror s.location, moment := -s.moment }

theorem surface_flip (f z : ℝ → ℝ) (m n : ℝ) (hm : n = -m) (x y : ℝ) (hd : x ≠ 0 ∨ y ≠ 0) :
    (n • (⟨Real.cos (Spatial.arctan2 (-y) x) * f (√(x ^ 2 + (-y) ^ 2)), Real.sin (Spatial.arctan2 (-y) x) * f (√(x ^ 2 + (-y) ^ 2)),
      z (√(x ^ 2 + (-y) ^ 2))⟩ : V3 ℝ)) =
    V3.antiflip (m • ⟨Real.cos (Spatial.arctan2 y x) * f (√(x ^ 2 + y ^ 2)), Real.sin (Spatial.arctan2 y x) * f (√(x ^ 2 + y ^ 2)),
      z (√(x ^ 2 + y ^ 2))⟩) := by
  subst hm
  have hpos : 0 < √(x ^ 2 + y ^ 2) := by
    refine Real.sqrt_pos.2 ?_
    rcases hd with h | h
    · nlinarith [sq_nonneg y, sq_pos_of_ne_zero h]
    · nlinarith [sq_nonneg x, sq_pos_of_ne_zero h]
  obtain ⟨c1, s1⟩ := Static.polar_cos_sin x y
  obtain ⟨c2, s2⟩ := Static.polar_cos_sin x (-y)
  rw [neg_sq] at c2 s2 ⊢
  have C1 := eq_div_of_mul_eq hpos.ne' ((mul_comm _ _).trans c1)
  have S1 := eq_div_of_mul_eq hpos.ne' ((mul_comm _ _).trans s1)
  have C2 := eq_div_of_mul_eq hpos.ne' ((mul_comm _ _).trans c2)
  have S2 := eq_div_of_mul_eq hpos.ne' ((mul_comm _ _).trans s2)
  rw [C1, S1, C2, S2]
  ext <;> simp only [V3.antiflip, V3.smul_x, V3.smul_y, V3.smul_z, smul_eq_mul] <;> ring

/-- Reflected in the plane `y = 0`. -/
theorem HalfspaceDipole.dipole_flipped (s : HalfspaceDipole) (p : V3 ℝ) (hr : p.x ≠ s.location.x ∨ p.y ≠ s.location.y) :
    ({ s with location := s.location.flip, moment := -s.moment } : HalfspaceDipole).magneticField p.x (-p.y) =
      (s.magneticField p.x p.y).antiflip ∧
    ({ s with location := s.location.flip, moment := -s.moment } : HalfspaceDipole).magneticFieldTimeDerivative p.x (-p.y) =
      (s.magneticFieldTimeDerivative p.x p.y).antiflip := by
  have hd : p.x - s.location.x ≠ 0 ∨ p.y - s.location.y ≠ 0 := hr.imp sub_ne_zero.2 sub_ne_zero.2
  constructor
  · simp only [magneticField, V3.flip, show -p.y - -s.location.y = -(p.y - s.location.y) by ring]
    exact surface_flip (fun r => 2 * (theta s.time s.sigma s.mu * r) ^ 2 / r ^ 3 *
      (besselIe 1 ((theta s.time s.sigma s.mu * r) ^ 2 / 2) - besselIe 2 ((theta s.time s.sigma s.mu * r) ^ 2 / 2)))
      (fun r => 1 / r ^ 3 * ((9 / (2 * (theta s.time s.sigma s.mu * r) ^ 2) - 1) * erf (theta s.time s.sigma s.mu * r) -
        (9 / (theta s.time s.sigma s.mu * r) + 4 * (theta s.time s.sigma s.mu * r)) / √Real.pi *
          Real.exp (-(theta s.time s.sigma s.mu * r) ^ 2))) (s.moment / (4 * Real.pi)) _ (neg_div _ _) _ _ hd
  · simp only [magneticFieldTimeDerivative, V3.flip, show -p.y - -s.location.y = -(p.y - s.location.y) by ring]
    exact surface_flip (fun r => -2 * (theta s.time s.sigma s.mu * r) ^ 2 / (r ^ 3 * s.time) *
      ((1 + (theta s.time s.sigma s.mu * r) ^ 2) * besselIe 0 ((theta s.time s.sigma s.mu * r) ^ 2 / 2) -
        (2 + (theta s.time s.sigma s.mu * r) ^ 2 + 4 / (theta s.time s.sigma s.mu * r) ^ 2) *
          besselIe 1 ((theta s.time s.sigma s.mu * r) ^ 2 / 2)))
      (fun r => 1 / (r ^ 3 * s.time) * (9 / (2 * (theta s.time s.sigma s.mu * r) ^ 2) * erf (theta s.time s.sigma s.mu * r) -
        (4 * (theta s.time s.sigma s.mu * r) ^ 3 + 6 * (theta s.time s.sigma s.mu * r) + 9 / (theta s.time s.sigma s.mu * r)) / √Real.pi *
          Real.exp (-(theta s.time s.sigma s.mu * r) ^ 2))) (s.moment / (4 * Real.pi)) _ (neg_div _ _) _ _ hd

/-- **C119.** Transient vertical dipole on a half-space. -/
theorem HalfspaceDipole.dipole_mirrored {g : Motion} (h : g.Horizontal) (s : HalfspaceDipole) (p : V3 ℝ)
    (hr : p.x ≠ s.location.x ∨ p.y ≠ s.location.y) :
    (s.mirrored g).magneticField (g.mirror p).x (g.mirror p).y = g.axial (s.magneticField p.x p.y) ∧
    (s.mirrored g).magneticFluxDensity (g.mirror p).x (g.mirror p).y = g.axial (s.magneticFluxDensity p.x p.y) ∧
    (s.mirrored g).magneticFieldTimeDerivative (g.mirror p).x (g.mirror p).y = g.axial (s.magneticFieldTimeDerivative p.x p.y) ∧
    (s.mirrored g).magneticFluxTimeDerivative (g.mirror p).x (g.mirror p).y = g.axial (s.magneticFluxTimeDerivative p.x p.y) := by
  obtain ⟨h1, -, h3, -⟩ := HalfspaceDipole.dipole_moved h { s with location := s.location.flip, moment := -s.moment } p.flip
    (by simpa only [V3.flip, ne_eq, neg_inj] using hr)
  obtain ⟨k1, k2⟩ := s.dipole_flipped p hr
  have hB : (s.mirrored g).magneticField (g.mirror p).x (g.mirror p).y = g.axial (s.magneticField p.x p.y) := h1.trans (congrArg g.turn k1)
  have hD : (s.mirrored g).magneticFieldTimeDerivative (g.mirror p).x (g.mirror p).y = g.axial (s.magneticFieldTimeDerivative p.x p.y) :=
    h3.trans (congrArg g.turn k2)
  refine ⟨hB, ?_, hD, ?_⟩
  · rw [magneticFluxDensity, magneticFluxDensity, hB, g.axial_smul]; rfl
  · rw [magneticFluxTimeDerivative, magneticFluxTimeDerivative, hD, g.axial_smul]; rfl

end Tdem

/-- A mirror image in a vertical plane through the vertical axis. -/
example : ∃ g : Motion, g.Horizontal ∧ g.mirror ⟨1, 2, -3⟩ = ⟨2, 1, -3⟩ := by
  refine ⟨⟨⟨⟨0, -1, 0⟩, ⟨1, 0, 0⟩, ⟨0, 0, 1⟩⟩, 0, ?_, ?_⟩, ⟨?_, rfl⟩, ?_⟩
  · ext <;> simp [M3.mul, M3.transpose, M3.one, M3.mulVec, V3.dot]
  · simp [M3.det, V3.dot, V3.cross]
  · ext <;> simp [M3.mulVec, V3.dot]
  · ext <;> simp [Motion.mirror, V3.flip, Motion.act, M3.mulVec, V3.dot]

end Verif
