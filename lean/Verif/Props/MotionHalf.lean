import Verif.Props.Motion
import Verif.Props.StaticHalfspace
import Verif.Props.FdemLayered
import Verif.Model.TdemSimple

/-!
# C103: the responses do not depend on where the origin is and how the axes point — sources over a half-space and plane waves

Only motions that keep the surface of the earth are considered: a turn about a vertical axis and a horizontal shift.
-/

namespace Verif

namespace Static

theorem mirror_moved {g : Motion} (h : g.Horizontal) (v : V3 ℝ) : mirror (g.act v) = g.act (mirror v) := by
  obtain ⟨h1, h2, h3, h4, h5⟩ := h.entries
  ext <;> simp only [mirror, Motion.act, M3.mulVec, V3.dot, V3.add_x, V3.add_y, V3.add_z, h1, h2, h3, h4, h5, h.2] <;> ring

theorem mapPy_bind {α β γ δ : Type*} {f : α → β} {x : Py α} {k : β → Py γ} {k' : α → Py δ} {f' : δ → γ}
    (h : ∀ a, k (f a) = mapPy f' (k' a)) : (mapPy f x).bind k = mapPy f' (x.bind k') := by
  cases x with
  | error e => rfl
  | ok a => exact h a

/-- The source, moved. -/
noncomputable def PointHalf.moved (g : Motion) (s : PointHalf) : PointHalf :=
  ⟨s.rho, s.current, g.act s.location, s.primary.moved g, s.image.moved g⟩

theorem PointHalf.new_moved {g : Motion} (h : g.Horizontal) (mu0 rho current : ℝ) (location : V3 ℝ) :
    PointHalf.new mu0 rho current (g.act location) = mapPy (PointHalf.moved g) (PointHalf.new mu0 rho current location) := by
  classical
  simp only [PointHalf.new, h.act_z]
  split_ifs
  · rfl
  · rfl
  · rfl
  · simp only [mapPy, PointHalf.moved, pointCurrent, LineCurrent.moved, mirror_moved h, List.map]

/-- **C103.** Point current over a half-space: constructing it at the moved location, and every field, at every point, whether it is
returned or refused. -/
theorem PointHalf.point_moved {g : Motion} (h : g.Horizontal) (s : PointHalf) (p : V3 ℝ) :
    (s.moved g).potential (g.act p) = s.potential p ∧
    (s.moved g).electricField (g.act p) = mapPy g.turn (s.electricField p) ∧
    (s.moved g).currentDensity (g.act p) = mapPy g.turn (s.currentDensity p) := by
  classical
  have hE : (s.moved g).electricField (g.act p) = mapPy g.turn (s.electricField p) := by
    simp only [electricField, h.act_z, moved, pointElectricField, (LineCurrent.electric_moved g _ p).2.1]
    split_ifs
    · rfl
    · refine mapPy_bind fun a => mapPy_bind fun b => ?_
      simp only [g.turn_add, pure, Except.pure, mapPy]
  refine ⟨?_, hE, ?_⟩
  · simp only [potential, h.act_z, moved, pointPotential, (LineCurrent.electric_moved g _ p).1]
  · simp only [currentDensity, hE]
    exact mapPy_bind fun a => congrArg Except.ok (unit_turn g a s.rho)

/-- The pair of electrodes, moved. -/
noncomputable def DipoleHalf.moved (g : Motion) (s : DipoleHalf) : DipoleHalf :=
  ⟨s.rho, s.current, g.act s.locationA, g.act s.locationB, s.a.moved g, s.b.moved g⟩

theorem DipoleHalf.new_moved {g : Motion} (h : g.Horizontal) (mu0 rho : ℝ) (a b : V3 ℝ) (current : ℝ) :
    DipoleHalf.new mu0 rho (g.act a) (g.act b) current = mapPy (DipoleHalf.moved g) (DipoleHalf.new mu0 rho a b current) := by
  simp only [DipoleHalf.new, PointHalf.new_moved h]
  exact mapPy_bind fun a => mapPy_bind fun b => rfl

/-- **C103.** Pair of electrodes over a half-space, one receiver or two. -/
theorem DipoleHalf.dipole_moved {g : Motion} (h : g.Horizontal) (s : DipoleHalf) (m : V3 ℝ) (n : Option (V3 ℝ)) :
    (s.moved g).potential (g.act m) (n.map g.act) = s.potential m n ∧
    (s.moved g).electricField (g.act m) (n.map g.act) = mapPy g.turn (s.electricField m n) ∧
    (s.moved g).currentDensity (g.act m) (n.map g.act) = mapPy g.turn (s.currentDensity m n) := by
  classical
  have hE : (s.moved g).electricField (g.act m) (n.map g.act) = mapPy g.turn (s.electricField m n) := by
    cases n with
    | none =>
      simp only [electricField, Option.map, h.act_z, moved, (PointHalf.point_moved h _ _).2.1]
      split_ifs
      · rfl
      · refine mapPy_bind fun a => mapPy_bind fun b => ?_
        simp only [g.turn_sub, pure, Except.pure, mapPy]
    | some n =>
      simp only [electricField, Option.map, h.act_z, moved, (PointHalf.point_moved h _ _).2.1]
      split_ifs
      · rfl
      · rfl
      · refine mapPy_bind fun a => mapPy_bind fun b => mapPy_bind fun c => mapPy_bind fun d => ?_
        simp only [g.turn_sub, pure, Except.pure, mapPy]
  refine ⟨?_, hE, ?_⟩
  · cases n with
    | none => simp only [potential, Option.map, h.act_z, moved, (PointHalf.point_moved h _ _).1]
    | some n => simp only [potential, Option.map, h.act_z, moved, (PointHalf.point_moved h _ _).1]
  · simp only [currentDensity, hE]
    exact mapPy_bind fun a => congrArg Except.ok (unit_turn g a s.rho)

end Static

/-- A turn about the vertical, as an angle. -/
theorem Motion.Horizontal.angle {g : Motion} (h : g.Horizontal) : ∃ a : ℝ, (∀ v, g.turn v = Fdem.turn a v) ∧ (∀ v, g.turnC v = Fdem.turnC a v) ∧
    ∀ p, g.act p = Fdem.turn a p + ⟨g.shift.x, g.shift.y, 0⟩ := by
  obtain ⟨h1, h2, h3, h4, h5⟩ := h.entries
  obtain ⟨p1, p2, p3⟩ := h.plane
  have hn : ‖(⟨g.rot.x.x, g.rot.y.x⟩ : ℂ)‖ = 1 := by
    rw [Complex.norm_def, Complex.normSq_mk, ← sq, ← sq, p3, Real.sqrt_one]
  have hc := Complex.norm_mul_cos_arg (⟨g.rot.x.x, g.rot.y.x⟩ : ℂ)
  have hs := Complex.norm_mul_sin_arg (⟨g.rot.x.x, g.rot.y.x⟩ : ℂ)
  rw [hn, one_mul] at hc hs
  have e : ∀ v, g.turn v = Fdem.turn (Complex.arg ⟨g.rot.x.x, g.rot.y.x⟩) v := fun v => by
    ext <;> simp only [Motion.turn, M3.mulVec, V3.dot, Fdem.turn, hc, hs, h1, h2, h3, h4, h5, p1, p2] <;> ring
  refine ⟨_, e, fun v => ?_, fun p => ?_⟩
  · ext <;> simp only [Motion.turnC, M3.mulVec, V3.dot, V3.map, Fdem.turnC, hc, hs, h1, h2, h3, h4, h5, p1, p2] <;> push_cast <;> ring
  · rw [Motion.act, ← Motion.turn, e]
    ext <;> simp [h.2]

namespace Fdem

/-- The dipole, moved. -/
def HalfDipole.moved (g : Motion) (s : HalfDipole) : HalfDipole :=
  { s with location := g.act s.location, orientation := g.turn s.orientation }

/-- The dipole, moved. -/
def LayeredDipole.moved (g : Motion) (s : LayeredDipole) : LayeredDipole :=
  { s with location := g.act s.location, orientation := g.turn s.orientation }

/-- **C103.** Magnetic dipole on a half-space. -/
theorem HalfDipole.dipole_moved {g : Motion} (h : g.Horizontal) (iv kv : ℕ → ℂ → ℂ) (mu0 : ℝ) (s : HalfDipole) (p : V3 ℝ)
    (hr : p.x ≠ s.location.x ∨ p.y ≠ s.location.y) (field : String) :
    (s.moved g).magneticField iv kv mu0 (g.act p) field = g.turnC (s.magneticField iv kv mu0 p field) := by
  obtain ⟨a, h1, h2, h3⟩ := h.angle
  rw [h2, ← half_turns iv kv mu0 s p hr a field, HalfDipole.moved, h1, h3, h3]
  exact half_moves iv kv mu0 { s with location := turn a s.location, orientation := turn a s.orientation } (turn a p)
    ⟨g.shift.x, g.shift.y, 0⟩ 0 field

/-- **C103.** Magnetic dipole over layers, for one point and for a list of points with its refusal of points below the surface. -/
theorem LayeredDipole.dipole_moved {g : Motion} (h : g.Horizontal) (filter : List Tap) (mu0 : ℝ) (s : LayeredDipole) (field : String) :
    (∀ p, (s.moved g).fieldAt filter mu0 (g.act p) field = g.turnC (s.fieldAt filter mu0 p field)) ∧
    ∀ points : List (V3 ℝ), (s.moved g).magneticField filter mu0 (points.map g.act) field =
      Static.mapPy (List.map g.turnC) (s.magneticField filter mu0 points field) := by
  classical
  have key : ∀ p, (s.moved g).fieldAt filter mu0 (g.act p) field = g.turnC (s.fieldAt filter mu0 p field) := by
    intro p
    obtain ⟨a, h1, h2, h3⟩ := h.angle
    rw [h2, ← layered_turns filter mu0 s p a field, LayeredDipole.moved, h1, h3, h3]
    exact (layered_moves filter mu0 { s with location := turn a s.location, orientation := turn a s.orientation } (turn a p)
      g.shift.x g.shift.y 0 field).1
  refine ⟨key, fun points => ?_⟩
  simp only [LayeredDipole.magneticField, List.mem_map, exists_exists_and_eq_and, h.act_z]
  split_ifs
  · rfl
  · simp only [Static.mapPy, List.map_map]
    congr 2
    funext p
    exact key p

/-- The wave with its polarisation turned. -/
def PlaneWave.moved (g : Motion) (s : PlaneWave) : PlaneWave := { s with orientation := g.turn s.orientation }

theorem turn_down {g : Motion} (h : g.Horizontal) : g.turn ⟨0, 0, -1⟩ = ⟨0, 0, -1⟩ := by
  obtain ⟨h1, h2, h3, h4, h5⟩ := h.entries
  ext <;> simp [Motion.turn, M3.mulVec, V3.dot, h1, h2, h5]

/-- **C103.** Harmonic plane wave. -/
theorem PlaneWave.wave_moved {g : Motion} (h : g.Horizontal) (s : PlaneWave) (p : V3 ℝ) :
    (s.moved g).electricField (g.act p) = g.turnC (s.electricField p) ∧
    (s.moved g).currentDensity (g.act p) = g.turnC (s.currentDensity p) ∧
    (s.moved g).magneticField (g.act p) = g.turnC (s.magneticField p) ∧
    (s.moved g).magneticFluxDensity (g.act p) = g.turnC (s.magneticFluxDensity p) := by
  have ek : (s.moved g).wavenumber = s.wavenumber := rfl
  have ew : (s.moved g).omega = s.omega := rfl
  have hE : (s.moved g).electricField (g.act p) = g.turnC (s.electricField p) := by
    simp only [electricField, ek, h.act_z]
    rw [g.turnC_map _ _ (s.amplitude * Complex.exp (Complex.I * s.wavenumber * p.z)) fun c => by ring]
    rfl
  have hB : (s.moved g).magneticFluxDensity (g.act p) = g.turnC (s.magneticFluxDensity p) := by
    simp only [magneticFluxDensity, ek, ew, h.act_z]
    rw [g.turnC_map _ _ (-(s.amplitude : ℂ) * s.wavenumber / s.omega * Complex.exp (Complex.I * (s.wavenumber * p.z))) fun c => by ring,
      ← g.turn_cross, turn_down h]
    rfl
  refine ⟨hE, ?_, ?_, hB⟩
  · rw [currentDensity, currentDensity, hE, g.turnC_mapC _ _ _ fun c => rfl]; rfl
  · rw [magneticField, magneticField, hB, g.turnC_mapC _ _ (1 / s.mu) fun c => by ring]; rfl

end Fdem

namespace Tdem

/-- The wave with its polarisation turned. -/
def PlaneWave.moved (g : Motion) (s : PlaneWave) : PlaneWave := { s with orientation := g.turn s.orientation }

/-- **C103.** Transient plane wave. -/
theorem PlaneWave.wave_moved {g : Motion} (h : g.Horizontal) (s : PlaneWave) (p : V3 ℝ) :
    (s.moved g).electricField (g.act p) = g.turn (s.electricField p) ∧
    (s.moved g).currentDensity (g.act p) = g.turn (s.currentDensity p) ∧
    (s.moved g).magneticField (g.act p) = g.turn (s.magneticField p) ∧
    (s.moved g).magneticFluxDensity (g.act p) = g.turn (s.magneticFluxDensity p) := by
  have hE : (s.moved g).electricField (g.act p) = g.turn (s.electricField p) := by
    simp only [electricField, h.act_z]
    rw [g.turn_map _ _ _ fun c => mul_comm _ _]
    rfl
  have hB : (s.moved g).magneticFluxDensity (g.act p) = g.turn (s.magneticFluxDensity p) := by
    simp only [magneticFluxDensity, h.act_z]
    rw [g.turn_map _ _ _ fun c => mul_comm _ _, ← g.turn_cross, Fdem.turn_down h]
    rfl
  refine ⟨hE, ?_, ?_, hB⟩
  · rw [currentDensity, currentDensity, hE, g.turn_map _ _ _ fun c => rfl]; rfl
  · rw [magneticField, magneticField, hB, g.turn_map _ _ (1 / s.mu) fun c => by ring]; rfl

/-- The vertical dipole, moved. -/
def HalfspaceDipole.moved (g : Motion) (s : HalfspaceDipole) : HalfspaceDipole := { s with location := g.act s.location }

theorem dipole_surface {g : Motion} (h : g.Horizontal) (f z : ℝ → ℝ) (m : ℝ) (d : V3 ℝ) (hd : d.x ≠ 0 ∨ d.y ≠ 0) :
    (m • (⟨Real.cos (Spatial.arctan2 (g.turn d).y (g.turn d).x) * f (√((g.turn d).x ^ 2 + (g.turn d).y ^ 2)),
      Real.sin (Spatial.arctan2 (g.turn d).y (g.turn d).x) * f (√((g.turn d).x ^ 2 + (g.turn d).y ^ 2)),
      z (√((g.turn d).x ^ 2 + (g.turn d).y ^ 2))⟩ : V3 ℝ)) =
    g.turn (m • ⟨Real.cos (Spatial.arctan2 d.y d.x) * f (√(d.x ^ 2 + d.y ^ 2)), Real.sin (Spatial.arctan2 d.y d.x) * f (√(d.x ^ 2 + d.y ^ 2)),
      z (√(d.x ^ 2 + d.y ^ 2))⟩) := by
  obtain ⟨h1, h2, h3, h4, h5⟩ := h.entries
  obtain ⟨p1, p2, p3⟩ := h.plane
  have hr : √((g.turn d).x ^ 2 + (g.turn d).y ^ 2) = √(d.x ^ 2 + d.y ^ 2) := by
    congr 1
    simp only [Motion.turn, M3.mulVec, V3.dot, h1, h2, p1, p2]
    linear_combination (d.x ^ 2 + d.y ^ 2) * p3
  have hpos : 0 < √(d.x ^ 2 + d.y ^ 2) := by
    refine Real.sqrt_pos.2 ?_
    rcases hd with h | h
    · nlinarith [sq_nonneg d.y, sq_pos_of_ne_zero h]
    · nlinarith [sq_nonneg d.x, sq_pos_of_ne_zero h]
  obtain ⟨c1, s1⟩ := Static.polar_cos_sin d.x d.y
  obtain ⟨c2, s2⟩ := Static.polar_cos_sin (g.turn d).x (g.turn d).y
  rw [hr] at c2 s2 ⊢
  have C1 := eq_div_of_mul_eq hpos.ne' ((mul_comm _ _).trans c1)
  have S1 := eq_div_of_mul_eq hpos.ne' ((mul_comm _ _).trans s1)
  have C2 := eq_div_of_mul_eq hpos.ne' ((mul_comm _ _).trans c2)
  have S2 := eq_div_of_mul_eq hpos.ne' ((mul_comm _ _).trans s2)
  rw [C1, S1, C2, S2]
  ext <;> simp only [Motion.turn, M3.mulVec, V3.dot, V3.smul_x, V3.smul_y, V3.smul_z, smul_eq_mul, h1, h2, h3, h4, h5] <;> ring

/-- **C103.** Transient vertical dipole on a half-space. -/
theorem HalfspaceDipole.dipole_moved {g : Motion} (h : g.Horizontal) (s : HalfspaceDipole) (p : V3 ℝ)
    (hr : p.x ≠ s.location.x ∨ p.y ≠ s.location.y) :
    (s.moved g).magneticField (g.act p).x (g.act p).y = g.turn (s.magneticField p.x p.y) ∧
    (s.moved g).magneticFluxDensity (g.act p).x (g.act p).y = g.turn (s.magneticFluxDensity p.x p.y) ∧
    (s.moved g).magneticFieldTimeDerivative (g.act p).x (g.act p).y = g.turn (s.magneticFieldTimeDerivative p.x p.y) ∧
    (s.moved g).magneticFluxTimeDerivative (g.act p).x (g.act p).y = g.turn (s.magneticFluxTimeDerivative p.x p.y) := by
  have hd : (p - s.location).x ≠ 0 ∨ (p - s.location).y ≠ 0 := hr.imp sub_ne_zero.2 sub_ne_zero.2
  have ex : (g.act p).x - (g.act s.location).x = (g.turn (p - s.location)).x := by rw [← g.act_sub]; rfl
  have ey : (g.act p).y - (g.act s.location).y = (g.turn (p - s.location)).y := by rw [← g.act_sub]; rfl
  have hB : (s.moved g).magneticField (g.act p).x (g.act p).y = g.turn (s.magneticField p.x p.y) := by
    simp only [magneticField, moved, ex, ey]
    exact dipole_surface h (fun r => 2 * (theta s.time s.sigma s.mu * r) ^ 2 / r ^ 3 *
      (besselIe 1 ((theta s.time s.sigma s.mu * r) ^ 2 / 2) - besselIe 2 ((theta s.time s.sigma s.mu * r) ^ 2 / 2)))
      (fun r => 1 / r ^ 3 * ((9 / (2 * (theta s.time s.sigma s.mu * r) ^ 2) - 1) * erf (theta s.time s.sigma s.mu * r) -
        (9 / (theta s.time s.sigma s.mu * r) + 4 * (theta s.time s.sigma s.mu * r)) / √Real.pi *
          Real.exp (-(theta s.time s.sigma s.mu * r) ^ 2))) (s.moment / (4 * Real.pi)) _ hd
  have hD : (s.moved g).magneticFieldTimeDerivative (g.act p).x (g.act p).y = g.turn (s.magneticFieldTimeDerivative p.x p.y) := by
    simp only [magneticFieldTimeDerivative, moved, ex, ey]
    exact dipole_surface h (fun r => -2 * (theta s.time s.sigma s.mu * r) ^ 2 / (r ^ 3 * s.time) *
      ((1 + (theta s.time s.sigma s.mu * r) ^ 2) * besselIe 0 ((theta s.time s.sigma s.mu * r) ^ 2 / 2) -
        (2 + (theta s.time s.sigma s.mu * r) ^ 2 + 4 / (theta s.time s.sigma s.mu * r) ^ 2) *
          besselIe 1 ((theta s.time s.sigma s.mu * r) ^ 2 / 2)))
      (fun r => 1 / (r ^ 3 * s.time) * (9 / (2 * (theta s.time s.sigma s.mu * r) ^ 2) * erf (theta s.time s.sigma s.mu * r) -
        (4 * (theta s.time s.sigma s.mu * r) ^ 3 + 6 * (theta s.time s.sigma s.mu * r) + 9 / (theta s.time s.sigma s.mu * r)) / √Real.pi *
          Real.exp (-(theta s.time s.sigma s.mu * r) ^ 2))) (s.moment / (4 * Real.pi)) _ hd
  refine ⟨hB, ?_, hD, ?_⟩
  · rw [magneticFluxDensity, magneticFluxDensity, hB, g.turn_smul]; rfl
  · rw [magneticFluxTimeDerivative, magneticFluxTimeDerivative, hD, g.turn_smul]; rfl

end Tdem

/-- A motion that keeps the surface: a quarter turn and a shift. -/
example : ∃ g : Motion, g.Horizontal ∧ g.act ⟨1, 0, -2⟩ = ⟨3, 5, -2⟩ := by
  refine ⟨⟨⟨⟨0, -1, 0⟩, ⟨1, 0, 0⟩, ⟨0, 0, 1⟩⟩, ⟨3, 4, 0⟩, ?_, ?_⟩, ⟨?_, rfl⟩, ?_⟩
  · ext <;> simp [M3.mul, M3.transpose, M3.one, M3.mulVec, V3.dot]
  · simp [M3.det, V3.dot, V3.cross]
  · ext <;> simp [M3.mulVec, V3.dot]
  · ext <;> simp [Motion.act, M3.mulVec, V3.dot]
    norm_num

end Verif
