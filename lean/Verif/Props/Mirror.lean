import Verif.Lemmas.Mirror
import Verif.Props.Motion

/-!
# C119: mirror images — whole-space sources and bodies

`mirrored g` is the source with its location mirrored; currents and electric fields are polar vectors, magnetic moments and fields axial.
-/

namespace Verif

namespace Static

theorem unit_polar (g : Motion) (d : V3 ℝ) (l : ℝ) : (g.polar d).map (· / l) = g.polar (d.map (· / l)) :=
  (g.polar_map d _ (1 / l) fun c => by ring).symm

theorem unit_axial (g : Motion) (d : V3 ℝ) (l : ℝ) : (g.axial d).map (· / l) = g.axial (d.map (· / l)) :=
  (g.axial_map d _ (1 / l) fun c => by ring).symm

/-- The dipole, mirrored: its moment is axial. -/
def MagDipole.mirrored (g : Motion) (s : MagDipole) : MagDipole :=
  { s with location := g.mirror s.location, orientation := g.axial s.orientation }

/-- **C119.** Static magnetic dipole. -/
theorem MagDipole.dipole_mirrored (g : Motion) (s : MagDipole) (p : V3 ℝ) :
    (s.mirrored g).vectorPotential (g.mirror p) = g.polar (s.vectorPotential p) ∧
    (s.mirrored g).magneticFluxDensity (g.mirror p) = g.axial (s.magneticFluxDensity p) ∧
    (s.mirrored g).magneticField (g.mirror p) = g.axial (s.magneticField p) := by
  have hB : (s.mirrored g).magneticFluxDensity (g.mirror p) = g.axial (s.magneticFluxDensity p) := by
    simp only [magneticFluxDensity, mirrored, g.mirror_sub, g.polar_len, unit_polar, g.polar_dot_axial]
    generalize (p - s.location).len = l
    generalize (p - s.location).map (· / l) = u
    ext <;> simp only [Motion.polar, Motion.axial, V3.flip, V3.antiflip, Motion.turn, M3.mulVec, V3.dot] <;> ring
  refine ⟨?_, hB, ?_⟩
  · simp only [vectorPotential, mirrored, g.mirror_sub, g.polar_len, unit_polar, g.axial_cross_polar]
    exact (g.polar_map _ _ _ fun c => rfl).symm
  · simp only [magneticField, hB]
    exact unit_axial g _ _

/-- The pole, mirrored: its strength changes sign. -/
def MagDipole.poleMirrored (g : Motion) (s : MagDipole) : MagDipole := { s with location := g.mirror s.location, moment := -s.moment }

/-- **C119.** Magnetic pole. -/
theorem MagDipole.pole_mirrored (g : Motion) (s : MagDipole) (p : V3 ℝ) :
    (s.poleMirrored g).poleFluxDensity (g.mirror p) = g.axial (s.poleFluxDensity p) ∧
    (s.poleMirrored g).poleField (g.mirror p) = g.axial (s.poleField p) := by
  have hB : (s.poleMirrored g).poleFluxDensity (g.mirror p) = g.axial (s.poleFluxDensity p) := by
    simp only [poleFluxDensity, poleMirrored, g.mirror_sub, g.polar_len, unit_polar]
    generalize (p - s.location).map (· / (p - s.location).len) = u
    generalize (p - s.location).len = l
    ext <;> simp only [Motion.polar, Motion.axial, V3.flip, V3.antiflip, Motion.turn, M3.mulVec, V3.dot, V3.map] <;> ring
  refine ⟨hB, ?_⟩
  simp only [poleField, hB]
  exact unit_axial g _ _

/-- The wire, mirrored. -/
def LineCurrent.mirrored (g : Motion) (s : LineCurrent) : LineCurrent := { s with nodes := s.nodes.map g.mirror }

/-- **C119.** Wire or point current: the electric side. -/
theorem LineCurrent.electric_mirrored (g : Motion) (s : LineCurrent) (p : V3 ℝ) :
    (s.mirrored g).scalarPotential (g.mirror p) = s.scalarPotential p ∧
    (s.mirrored g).electricField (g.mirror p) = mapPy g.polar (s.electricField p) ∧
    (s.mirrored g).currentDensity (g.mirror p) = mapPy g.polar (s.currentDensity p) := by
  have hE : (s.mirrored g).electricField (g.mirror p) = mapPy g.polar (s.electricField p) := by
    obtain ⟨mu, sigma, current, nodes⟩ := s
    match nodes with
    | [] => rfl
    | [n0] =>
      simp only [electricField, mirrored, List.map, mapPy, g.mirror_sub, g.polar_len]
      rw [g.polar_map _ _ (current / (4 * Real.pi * sigma) / (p - n0).len ^ 3) fun c => by ring]
    | n0 :: n1 :: rest =>
      simp only [electricField, mirrored, List.map]
      have e : (g.mirror n1 :: rest.map g.mirror).getLast (by simp) = g.mirror ((n1 :: rest).getLast (by simp)) :=
        List.getLast_map (f := g.mirror) (l := n1 :: rest) (by simp)
      by_cases h : (n1 :: rest).getLast (by simp) = n0
      · rw [if_pos (by rw [e, h]), if_pos h]
        simp only [mapPy, g.polar_zero]
      · rw [if_neg (by rw [e, g.mirror_injective]; exact h), if_neg h]
        simp only [mapPy, e, g.mirror_sub, g.polar_len]
        congr 1
        ext <;> simp only [Motion.polar, V3.flip, Motion.turn, M3.mulVec, V3.dot] <;> ring
  refine ⟨?_, hE, ?_⟩
  · obtain ⟨mu, sigma, current, nodes⟩ := s
    match nodes with
    | [] => rfl
    | [n0] => simp only [scalarPotential, mirrored, List.map, g.mirror_sub, g.polar_len]
    | n0 :: n1 :: rest =>
      simp only [scalarPotential, mirrored, List.map]
      have e : (g.mirror n1 :: rest.map g.mirror).getLast (by simp) = g.mirror ((n1 :: rest).getLast (by simp)) :=
        List.getLast_map (f := g.mirror) (l := n1 :: rest) (by simp)
      by_cases h : (n1 :: rest).getLast (by simp) = n0
      · rw [if_pos (by rw [e, h]), if_pos h]
      · rw [if_neg (by rw [e, g.mirror_injective]; exact h), if_neg h]
        simp only [e, g.mirror_sub, g.polar_len]
  · simp only [currentDensity, hE]
    cases h : s.electricField p with
    | error e => rfl
    | ok v =>
      simp only [mapPy, bind, Except.bind, pure, Except.pure, mirrored]
      rw [g.polar_map v _ s.sigma fun c => rfl]

theorem tan_polar (g : Motion) (p0 p1 : V3 ℝ) : tan (g.mirror p0) (g.mirror p1) = g.polar (tan p0 p1) := by
  simp only [tan, Spatial.unit, g.mirror_sub, g.polar_len]
  exact unit_polar g _ _

theorem fluxFree_axial (g : Motion) (p0 p1 q : V3 ℝ) : fluxFree (g.mirror p0) (g.mirror p1) (g.mirror q) = g.axial (fluxFree p0 p1 q) := by
  simp only [fluxFree, rho2, tan_polar, g.mirror_sub, g.polar_len, g.polar_dot, g.polar_cross, g.axial_smul]

theorem potFree_polar (g : Motion) (p0 p1 q : V3 ℝ) : potFree (g.mirror p0) (g.mirror p1) (g.mirror q) = g.polar (potFree p0 p1 q) := by
  simp only [potFree, tan_polar, g.mirror_sub, g.polar_len, g.polar_dot, g.polar_smul]

theorem segSum_mirror {A T : V3 ℝ → V3 ℝ} (h0 : T 0 = 0) (ha : ∀ a b, T (a + b) = T a + T b) {f : V3 ℝ → V3 ℝ → V3 ℝ}
    {f' : V3 ℝ → V3 ℝ → V3 ℝ} (h : ∀ a b, f' (A a) (A b) = T (f a b)) (nodes : List (V3 ℝ)) :
    BiotSavart.segSum f' (nodes.map A) = T (BiotSavart.segSum f nodes) := by
  induction nodes with
  | nil => simp [BiotSavart.segSum, h0]
  | cons p0 t ih =>
    cases t with
    | nil => simp [BiotSavart.segSum, h0]
    | cons p1 t =>
      simp only [List.map, BiotSavart.segSum, h, ha] at ih ⊢
      rw [ih]

theorem off_mirrored (g : Motion) {nodes : List (V3 ℝ)} {q : V3 ℝ} (h : Off nodes q) : Off (nodes.map g.mirror) (g.mirror q) := by
  rw [Off, List.isChain_map]
  refine h.imp fun a b hab hc => hab ?_
  rw [g.mirror_sub, g.mirror_sub, g.polar_cross] at hc
  have := congrArg V3.len hc
  rw [g.axial_len] at this
  exact V3.len_eq_zero.1 (this.trans (by simp [V3.len]))

/-- **C119.** Wire: the magnetic side, off the lines through the segments.  (Segments within 1e-20 of the `x` axis without being along it
are turned slightly by the code, before or after.) -/
theorem LineCurrent.magnetic_mirrored (g : Motion) (s : LineCurrent) (p : V3 ℝ) (hr : Regular s.nodes) (hr' : Regular (s.mirrored g).nodes)
    (ho : Off s.nodes p) :
    (s.mirrored g).vectorPotential (g.mirror p) = mapPy g.polar (s.vectorPotential p) ∧
    (s.mirrored g).magneticFluxDensity (g.mirror p) = mapPy g.axial (s.magneticFluxDensity p) ∧
    (s.mirrored g).magneticField (g.mirror p) = mapPy g.axial (s.magneticField p) := by
  have ho' : Off (s.mirrored g).nodes (g.mirror p) := off_mirrored g ho
  have hB : (s.mirrored g).magneticFluxDensity (g.mirror p) = mapPy g.axial (s.magneticFluxDensity p) := by
    rw [flux_closed_form _ _ hr ho, flux_closed_form _ _ hr' ho', mapPy, g.axial_smul]
    congr 2
    exact segSum_mirror g.axial_zero g.axial_add (fun a b => fluxFree_axial g a b p) s.nodes
  refine ⟨?_, hB, ?_⟩
  · rw [potential_closed_form _ _ hr ho, potential_closed_form _ _ hr' ho', mapPy, g.polar_smul]
    congr 2
    exact segSum_mirror g.polar_zero g.polar_add (fun a b => potFree_polar g a b p) s.nodes
  · simp only [magneticField, hB]
    cases h : s.magneticFluxDensity p with
    | error e => rfl
    | ok v =>
      simp only [mapPy, bind, Except.bind, pure, Except.pure]
      exact congrArg _ (unit_axial g _ _)

/-! ## Circular loop -/

/-- The loop, mirrored. -/
def Loop.mirrored (g : Motion) (s : Loop) : Loop := { s with location := g.mirror s.location, orientation := g.axial s.orientation }

theorem axis_mirrored (g : Motion) (s : Loop) : (s.mirrored g).axis = g.axial s.axis := by
  simp only [Loop.axis, Loop.mirrored, Spatial.unit, g.axial_len]
  exact unit_axial g _ _

theorem axisDist_mirrored (g : Motion) (n d : V3 ℝ) : axisDist (g.axial n) (g.polar d) = axisDist n d := by
  simp only [axisDist, g.polar_len, g.axial_dot_polar, neg_sq]

/-- An azimuthal component is the same in the mirror: polar. -/
theorem fromCyl_polar (g : Motion) (n d : V3 ℝ) (a : ℝ) : fromCyl (g.axial n) (g.polar d) ⟨0, a, 0⟩ = g.polar (fromCyl n d ⟨0, a, 0⟩) := by
  simp only [fromCyl, axisDist_mirrored, g.axial_cross_polar, g.polar_smul, zero_div, zero_smul, zero_add, add_zero]

/-- A radial component is reversed, an axial one is not: axial. -/
theorem fromCyl_axial (g : Motion) (n d : V3 ℝ) (a b : ℝ) :
    fromCyl (g.axial n) (g.polar d) ⟨-a, 0, b⟩ = g.axial (fromCyl n d ⟨a, 0, b⟩) := by
  simp only [fromCyl, axisDist_mirrored, g.axial_add, g.axial_smul, g.axial_dot_polar, zero_div, zero_smul, add_zero, g.axial_sub]
  rw [g.axial_eq d, neg_div, neg_smul, ← smul_neg, neg_sub, neg_smul]
  congr 2
  abel

theorem potentialPhi_even (s : Loop) (rho z : ℝ) : s.potentialPhi rho (-z) = s.potentialPhi rho z := by
  simp only [Loop.potentialPhi, smallRho, neg_sq]

theorem fluxRhoZ_parity (s : Loop) (rho z : ℝ) : s.fluxRhoZ rho (-z) = (s.fluxRhoZ rho z).map fun b => (-b.1, b.2) := by
  have hs : smallRho s.radius rho (-z) = smallRho s.radius rho z := by simp only [smallRho, neg_sq]
  simp only [Loop.fluxRhoZ, neg_sq]
  by_cases h0 : (s.radius + rho) ^ 2 + z ^ 2 = 0 ∨ (s.radius - rho) ^ 2 + z ^ 2 = 0
  · rw [if_pos h0, if_pos h0]; rfl
  rw [if_neg h0, if_neg h0]
  by_cases h : smallRho s.radius rho z
  · rw [if_pos (hs.mpr h), if_pos h]
    simp only [Option.map_some, Option.some.injEq, Prod.mk.injEq, and_true]
    ring
  · rw [if_neg (fun k => h (hs.mp k)), if_neg h]
    simp only [Option.map_some, Option.some.injEq, Prod.mk.injEq, and_true]
    ring

theorem inFrame_free (s : Loop) (hb : s.OffBand) (f : ℝ → ℝ → Option (V3 ℝ))
    (hf : ∀ z v, f 0 z = some v → v.x = 0 ∧ v.y = 0) (p : V3 ℝ) : s.inFrame f p =
      .ok ((f (axisDist s.axis (p - s.location)) (s.axis.dot (p - s.location))).map (fromCyl s.axis (p - s.location))) := by
  refine hb.frame.2 f p ?_
  rcases (Real.sqrt_nonneg _ : 0 ≤ axisDist s.axis (p - s.location)).eq_or_lt with h | h
  · exact Or.inr fun v hv => hf _ v hv
  · exact Or.inl h

/-- **C119.** Circular loop, at every point: on the axis, near it (where a series is used) and on the wire (where the result is not finite).
(Loops within 1e-20 of horizontal without being so are turned slightly by the code, before or after.) -/
theorem Loop.loop_mirrored (g : Motion) (s : Loop) (hb : s.OffBand) (hb' : (s.mirrored g).OffBand) (p : V3 ℝ) :
    (s.mirrored g).vectorPotential (g.mirror p) = mapPy (Option.map g.polar) (s.vectorPotential p) ∧
    (s.mirrored g).magneticFluxDensity (g.mirror p) = mapPy (Option.map g.axial) (s.magneticFluxDensity p) := by
  have e : g.mirror p - (s.mirrored g).location = g.polar (p - s.location) := g.mirror_sub _ _
  constructor
  · rw [vectorPotential, vectorPotential, inFrame_free s hb _ (fun z _ h => potential_on_axis s z h),
      inFrame_free _ hb' _ (fun z _ h => potential_on_axis (s.mirrored g) z h), axis_mirrored, e, axisDist_mirrored, g.axial_dot_polar,
      mapPy, Option.map_map, Option.map_map, Option.map_map]
    have h1 : (s.mirrored g).potentialPhi = s.potentialPhi := rfl
    rw [h1, potentialPhi_even]
    congr 2
    funext a
    exact fromCyl_polar g _ _ a
  · rw [magneticFluxDensity, magneticFluxDensity, inFrame_free s hb _ (fun z _ h => flux_on_axis s z h),
      inFrame_free _ hb' _ (fun z _ h => flux_on_axis (s.mirrored g) z h), axis_mirrored, e, axisDist_mirrored, g.axial_dot_polar,
      mapPy]
    have h1 : (s.mirrored g).fluxRhoZ = s.fluxRhoZ := rfl
    rw [h1, fluxRhoZ_parity, Option.map_map, Option.map_map, Option.map_map, Option.map_map]
    congr 2
    funext a
    exact fromCyl_axial g _ _ a.1 a.2

/-- Reflect in the plane `y = 0` and shift. -/
def still : Motion := ⟨M3.one, ⟨2, 3, 4⟩, by
  constructor
  · ext <;> simp [M3.mul, M3.transpose, M3.one, M3.mulVec, V3.dot]
  · simp [M3.det, M3.one, V3.dot, V3.cross]⟩

/-- The hypotheses are met by a horizontal loop, whose mirror image runs the other way round. -/
example : Loop.unitLoop.OffBand ∧ (Loop.unitLoop.mirrored still).OffBand ∧ (Loop.unitLoop.mirrored still).axis = ⟨0, 0, -1⟩ := by
  have ha : (Loop.unitLoop.mirrored still).axis = ⟨0, 0, -1⟩ := by
    rw [axis_mirrored, Loop.unitLoop_axis]
    ext <;> simp [still, Motion.axial, V3.antiflip, Motion.turn, M3.mulVec, M3.one, V3.dot]
  refine ⟨Loop.unitLoop_offBand, ⟨?_, ?_⟩, ha⟩
  · simp [Loop.mirrored, Loop.unitLoop, still, Motion.axial, V3.antiflip, Motion.turn, M3.mulVec, M3.one, V3.dot, V3.ext_iff]
  · rw [ha]
    left
    simp [V3.cross, V3.len]

end Static

/-! ## Spheres and masses -/

namespace Sphere

/-- The sphere and the uniform field it is in, mirrored. -/
def Electro.mirrored (g : Motion) (s : Electro) : Electro :=
  { s with location := g.mirror s.location, primaryField := g.polar s.primaryField }

/-- The sphere and the uniform field it is in, mirrored: the field is axial. -/
def Magneto.mirrored (g : Motion) (s : Magneto) : Magneto :=
  { s with location := g.mirror s.location, primaryField := g.axial s.primaryField }

theorem select_image {α β : Type*} [Sub α] [Sub β] (T : α → β) (h : ∀ a b, T (a - b) = T a - T b) (w : String) (a b : α) :
    select w (T a) (T b) = (select w a b).map T := by
  simp only [select, ← h]
  split_ifs <;> rfl

theorem polar_neg (g : Motion) (v : V3 ℝ) : -g.polar v = g.polar (-v) := by
  rw [← zero_sub, ← zero_sub, g.polar_sub, g.polar_zero]

theorem axial_neg (g : Motion) (v : V3 ℝ) : -g.axial v = g.axial (-v) := by
  rw [← zero_sub, ← zero_sub, g.axial_sub, g.axial_zero]

/-- **C119.** Conductive sphere in a uniform electric field. -/
theorem Electro.sphere_mirrored (g : Motion) (s : Electro) (p : V3 ℝ) (w : String) (eps0 : ℝ) (dr : Option ℝ) :
    (s.mirrored g).potential (g.mirror p) w = s.potential p w ∧
    (s.mirrored g).electricField (g.mirror p) w = (s.electricField p w).map g.polar ∧
    (s.mirrored g).currentDensity (g.mirror p) w = (s.currentDensity p w).map g.polar ∧
    (s.mirrored g).chargeDensity eps0 (g.mirror p) dr = s.chargeDensity eps0 p dr := by
  have hE : (s.mirrored g).fieldTotal (g.mirror p) = g.polar (s.fieldTotal p) := by
    simp only [fieldTotal, mirrored, g.mirror_sub, g.polar_len, g.polar_dot]
    split_ifs
    · rw [g.polar_add, g.polar_map _ _ (1 - (s.sigmaSphere - s.sigmaBackground) / (s.sigmaSphere + 2 * s.sigmaBackground) * s.radius ^ 3 /
        (p - s.location).len ^ 3) fun c => by ring, g.polar_map _ _ (3 * (p - s.location).dot s.primaryField *
        ((s.sigmaSphere - s.sigmaBackground) / (s.sigmaSphere + 2 * s.sigmaBackground)) * s.radius / (p - s.location).len ^ 4) fun c => by ring]
    · rw [g.polar_map _ _ _ fun c => rfl]
  have hP : (s.mirrored g).fieldPrimary (g.mirror p) = g.polar (s.fieldPrimary p) := by
    simp only [fieldPrimary, mirrored, zero_add]
  refine ⟨?_, ?_, ?_, ?_⟩
  · simp only [potential, potentialTotal, potentialPrimary, mirrored, g.mirror_sub, g.polar_len, polar_neg, g.polar_dot]
  · rw [electricField, electricField, hE, hP, select_image _ g.polar_sub]
  · simp only [currentDensity, currentTotal, currentPrimary, hE, hP]
    simp only [mirrored, g.mirror_sub, g.polar_len]
    rw [← g.polar_map _ _ _ fun c => rfl, ← g.polar_map _ _ _ fun c => rfl, select_image _ g.polar_sub]
  · simp only [chargeDensity, mirrored, g.mirror_sub, g.polar_len, g.polar_dot]

/-- **C119.** Permeable sphere in a uniform magnetic field: the scalar potential changes sign. -/
theorem Magneto.sphere_mirrored (g : Motion) (s : Magneto) (p : V3 ℝ) (w : String) :
    (s.mirrored g).potential (g.mirror p) w = (s.potential p w).map (fun v => -v) ∧
    (s.mirrored g).magneticField (g.mirror p) w = (s.magneticField p w).map g.axial ∧
    (s.mirrored g).magneticFluxDensity (g.mirror p) w = (s.magneticFluxDensity p w).map g.axial := by
  have hE : (s.mirrored g).fieldTotal (g.mirror p) = g.axial (s.fieldTotal p) := by
    simp only [fieldTotal, mirrored, g.mirror_sub, g.polar_len, g.polar_dot_axial]
    split_ifs
    · ext <;> simp only [Motion.polar, Motion.axial, V3.flip, V3.antiflip, Motion.turn, M3.mulVec, V3.dot, V3.map, V3.add_x, V3.add_y,
        V3.add_z] <;> ring
    · rw [g.axial_map _ _ _ fun c => rfl]
  have hP : (s.mirrored g).fieldPrimary (g.mirror p) = g.axial (s.fieldPrimary p) := by
    simp only [fieldPrimary, mirrored, zero_add]
  refine ⟨?_, ?_, ?_⟩
  · have h1 : (s.mirrored g).potentialTotal (g.mirror p) = -s.potentialTotal p := by
      simp only [potentialTotal, mirrored, g.mirror_sub, g.polar_len, axial_neg, g.polar_dot_axial]
      split_ifs <;> ring
    have h2 : (s.mirrored g).potentialPrimary (g.mirror p) = -s.potentialPrimary p := by
      simp only [potentialPrimary, mirrored, g.mirror_sub, axial_neg, g.polar_dot_axial]
    rw [potential, potential, h1, h2]
    exact select_image (fun v => -v) (fun a b => by ring) w _ _
  · rw [magneticField, magneticField, hE, hP, select_image _ g.axial_sub]
  · simp only [magneticFluxDensity, fluxTotal, fluxPrimary, hE, hP]
    simp only [mirrored, g.mirror_sub, g.polar_len]
    rw [← g.axial_map _ _ _ fun c => rfl, ← g.axial_map _ _ _ fun c => rfl, select_image _ g.axial_sub]

end Sphere

namespace Gravity

/-- The point mass, mirrored. -/
def PointMass.mirrored (g : Motion) (s : PointMass) : PointMass := { s with location := g.mirror s.location }

/-- The sphere, mirrored. -/
def Sphere.mirrored (g : Motion) (s : Sphere) : Sphere := { s with location := g.mirror s.location }

/-- Reflected in the plane `y = 0`. -/
theorem PointMass.mass_flipped (s : PointMass) (p : V3 ℝ) :
    ({ s with location := s.location.flip } : PointMass).gravitationalPotential p.flip = s.gravitationalPotential p ∧
    ({ s with location := s.location.flip } : PointMass).gravitationalField p.flip = (s.gravitationalField p).flip ∧
    ({ s with location := s.location.flip } : PointMass).gravitationalGradient p.flip =
      ⟨⟨(s.gravitationalGradient p).x.x, -(s.gravitationalGradient p).x.y, (s.gravitationalGradient p).x.z⟩,
        ⟨-(s.gravitationalGradient p).y.x, (s.gravitationalGradient p).y.y, -(s.gravitationalGradient p).y.z⟩,
        ⟨(s.gravitationalGradient p).z.x, -(s.gravitationalGradient p).z.y, (s.gravitationalGradient p).z.z⟩⟩ := by
  have e : p.flip - s.location.flip = (p - s.location).flip := by ext <;> simp [V3.flip]; ring
  refine ⟨?_, ?_, ?_⟩
  · simp only [gravitationalPotential, e, V3.flip_len]
  · simp only [gravitationalField, e, V3.flip_len]
    ext <;> simp only [V3.flip, V3.map] <;> ring
  · simp only [gravitationalGradient, e, V3.flip_len, V3.mk.injEq]
    refine ⟨⟨?_, ?_, ?_⟩, ⟨?_, ?_, ?_⟩, ?_, ?_, ?_⟩ <;> simp only [V3.flip, V3.map] <;> ring

/-- **C119.** Point mass. -/
theorem PointMass.mass_mirrored (g : Motion) (s : PointMass) (p : V3 ℝ) :
    (s.mirrored g).gravitationalPotential (g.mirror p) = s.gravitationalPotential p ∧
    (s.mirrored g).gravitationalField (g.mirror p) = g.polar (s.gravitationalField p) ∧
    (s.mirrored g).gravitationalGradient (g.mirror p) = g.mirrorT (s.gravitationalGradient p) := by
  obtain ⟨h1, h2, h3⟩ := PointMass.mass_moved g { s with location := s.location.flip } p.flip
  obtain ⟨k1, k2, k3⟩ := s.mass_flipped p
  exact ⟨h1.trans k1, h2.trans (congrArg g.turn k2), h3.trans (congrArg g.turnT k3)⟩

/-- **C119.** Homogeneous sphere, inside and outside. -/
theorem Sphere.ball_mirrored (g : Motion) (s : Sphere) (p : V3 ℝ) :
    (s.mirrored g).gravitationalPotential (g.mirror p) = s.gravitationalPotential p ∧
    (s.mirrored g).gravitationalField (g.mirror p) = g.polar (s.gravitationalField p) ∧
    (s.mirrored g).gravitationalGradient (g.mirror p) = (s.gravitationalGradient p).map g.mirrorT := by
  obtain ⟨h1, h2, h3⟩ := s.toPointMass.mass_mirrored g p
  have e : (s.mirrored g).toPointMass = s.toPointMass.mirrored g := rfl
  have el : (g.mirror p - (s.mirrored g).location).len = (p - s.location).len := by
    simp only [mirrored, g.mirror_sub, g.polar_len]
  have er : (s.mirrored g).radius = s.radius := rfl
  have eh : (s.mirrored g).rho = s.rho := rfl
  refine ⟨?_, ?_, ?_⟩
  · simp only [gravitationalPotential, e, el, h1, er, eh]
  · simp only [gravitationalField, e, el, h2, er, eh]
    split_ifs
    · rfl
    · rw [g.polar_map _ _ _ fun c => rfl]
      simp only [mirrored, g.mirror_sub]
  · simp only [gravitationalGradient, e, el, h3, er, eh]
    split_ifs
    · rfl
    · rfl
    · simp only [Option.map_some, Option.some.injEq]
      have := turnT_form g (-G * 4 / 3 * Real.pi * s.rho) 0 0
      simp only [zero_mul, add_zero] at this
      simp only [mul_one, mul_zero, Motion.mirrorT, neg_zero]
      exact this.symm

end Gravity

/-! ## Harmonic and transient dipoles -/

namespace Fdem

/-- The electric dipole, mirrored. -/
def ElectricDipole.mirrored (g : Motion) (s : ElectricDipole) : ElectricDipole :=
  { s with location := g.mirror s.location, orientation := g.polar s.orientation }

/-- The magnetic dipole, mirrored. -/
def MagneticDipole.mirrored (g : Motion) (s : MagneticDipole) : MagneticDipole :=
  { s with location := g.mirror s.location, orientation := g.axial s.orientation }

/-- **C119.** Harmonic electric dipole. -/
theorem ElectricDipole.dipole_mirrored (g : Motion) (s : ElectricDipole) (p : V3 ℝ) :
    (s.mirrored g).vectorPotential (g.mirror p) = g.polarC (s.vectorPotential p) ∧
    (s.mirrored g).electricField (g.mirror p) = g.polarC (s.electricField p) ∧
    (s.mirrored g).currentDensity (g.mirror p) = g.polarC (s.currentDensity p) ∧
    (s.mirrored g).magneticField (g.mirror p) = g.axialC (s.magneticField p) ∧
    (s.mirrored g).magneticFluxDensity (g.mirror p) = g.axialC (s.magneticFluxDensity p) := by
  have ek : (s.mirrored g).wavenumber = s.wavenumber := rfl
  have hE : (s.mirrored g).electricField (g.mirror p) = g.polarC (s.electricField p) := by
    simp only [electricField, ek]
    simp only [mirrored, g.mirror_sub, g.polar_len, Static.unit_polar, g.polar_dot]
    rw [g.polarC_mapC _ _ _ fun c => rfl, g.polarC_add, g.polarC_map _ _ _ fun c => rfl, g.polarC_map _ _ _ fun c => rfl]
  have hH : (s.mirrored g).magneticField (g.mirror p) = g.axialC (s.magneticField p) := by
    simp only [magneticField, ek]
    simp only [mirrored, g.mirror_sub, g.polar_len, Static.unit_polar, g.polar_cross]
    rw [g.axialC_map _ _ _ fun c => rfl]
  refine ⟨?_, hE, ?_, hH, ?_⟩
  · simp only [vectorPotential, ek]
    simp only [mirrored, g.mirror_sub, g.polar_len]
    rw [g.polarC_map _ _ _ fun c => rfl]
  · rw [currentDensity, currentDensity, hE, g.polarC_mapC _ _ _ fun c => rfl]; rfl
  · rw [magneticFluxDensity, magneticFluxDensity, hH, g.axialC_mapC _ _ _ fun c => rfl]; rfl

/-- **C119.** Harmonic magnetic dipole. -/
theorem MagneticDipole.dipole_mirrored (g : Motion) (s : MagneticDipole) (p : V3 ℝ) :
    (s.mirrored g).vectorPotential (g.mirror p) = g.axialC (s.vectorPotential p) ∧
    (s.mirrored g).electricField (g.mirror p) = g.polarC (s.electricField p) ∧
    (s.mirrored g).currentDensity (g.mirror p) = g.polarC (s.currentDensity p) ∧
    (s.mirrored g).magneticField (g.mirror p) = g.axialC (s.magneticField p) ∧
    (s.mirrored g).magneticFluxDensity (g.mirror p) = g.axialC (s.magneticFluxDensity p) := by
  have ek : (s.mirrored g).wavenumber = s.wavenumber := rfl
  have ew : (s.mirrored g).omega = s.omega := rfl
  have hE : (s.mirrored g).electricField (g.mirror p) = g.polarC (s.electricField p) := by
    simp only [electricField, ek, ew]
    simp only [mirrored, g.mirror_sub, g.polar_len, Static.unit_polar, g.polar_cross_axial]
    rw [g.polarC_map _ _ _ fun c => rfl]
  have hH : (s.mirrored g).magneticField (g.mirror p) = g.axialC (s.magneticField p) := by
    simp only [magneticField, ek]
    simp only [mirrored, g.mirror_sub, g.polar_len, Static.unit_polar, g.polar_dot_axial]
    generalize (p - s.location).map (· / (p - s.location).len) = u
    rw [g.axialC_mapC _ _ _ fun c => rfl, g.axialC_add, g.axialC_map _ _ _ fun c => rfl, g.axialC_map _ _ _ fun c => rfl, g.axial_eq u]
    congr 2
    ext <;> simp only [V3.map, V3.neg_x, V3.neg_y, V3.neg_z] <;> push_cast <;> ring
  refine ⟨?_, hE, ?_, hH, ?_⟩
  · simp only [vectorPotential, ek, ew]
    simp only [mirrored, g.mirror_sub, g.polar_len]
    rw [g.axialC_map _ _ _ fun c => rfl]
  · rw [currentDensity, currentDensity, hE, g.polarC_mapC _ _ _ fun c => rfl]; rfl
  · rw [magneticFluxDensity, magneticFluxDensity, hH, g.axialC_mapC _ _ _ fun c => rfl]; rfl

end Fdem

namespace Tdem

/-- The electric dipole, mirrored. -/
def ElectricDipole.mirrored (g : Motion) (s : ElectricDipole) : ElectricDipole :=
  { s with location := g.mirror s.location, orientation := g.polar s.orientation }

/-- **C119.** Transient electric dipole. -/
theorem ElectricDipole.dipole_mirrored (g : Motion) (s : ElectricDipole) (p : V3 ℝ) :
    (s.mirrored g).vectorPotential (g.mirror p) = g.polar (s.vectorPotential p) ∧
    (s.mirrored g).electricField (g.mirror p) = g.polar (s.electricField p) ∧
    (s.mirrored g).currentDensity (g.mirror p) = g.polar (s.currentDensity p) ∧
    (s.mirrored g).magneticField (g.mirror p) = g.axial (s.magneticField p) ∧
    (s.mirrored g).magneticFluxDensity (g.mirror p) = g.axial (s.magneticFluxDensity p) ∧
    (s.mirrored g).magneticFieldTimeDeriv (g.mirror p) = g.axial (s.magneticFieldTimeDeriv p) ∧
    (s.mirrored g).magneticFluxDensityTimeDeriv (g.mirror p) = g.axial (s.magneticFluxDensityTimeDeriv p) := by
  have et : (s.mirrored g).theta = s.theta := rfl
  have hE : (s.mirrored g).electricField (g.mirror p) = g.polar (s.electricField p) := by
    simp only [electricField, et]
    simp only [mirrored, g.mirror_sub, g.polar_len, Static.unit_polar, g.polar_dot]
    rw [g.polar_map _ _ _ fun c => rfl, g.polar_sub, g.polar_map _ _ _ fun c => rfl, g.polar_map _ _ _ fun c => rfl, g.polar_map _ _ _ fun c => rfl]
  have hH : (s.mirrored g).magneticField (g.mirror p) = g.axial (s.magneticField p) := by
    simp only [magneticField, et]
    simp only [mirrored, g.mirror_sub, g.polar_len, Static.unit_polar, g.polar_cross]
    rw [g.axial_map _ _ _ fun c => rfl]
  have hD : (s.mirrored g).magneticFieldTimeDeriv (g.mirror p) = g.axial (s.magneticFieldTimeDeriv p) := by
    simp only [magneticFieldTimeDeriv, et]
    simp only [mirrored, g.mirror_sub, g.polar_len, Static.unit_polar, g.polar_cross]
    rw [g.axial_map _ _ _ fun c => rfl]
  refine ⟨?_, hE, ?_, hH, ?_, hD, ?_⟩
  · simp only [vectorPotential, et]
    simp only [mirrored, g.mirror_sub, g.polar_len]
    rw [g.polar_map _ _ _ fun c => rfl]
  · rw [currentDensity, currentDensity, hE, g.polar_map _ _ _ fun c => rfl]; rfl
  · rw [magneticFluxDensity, magneticFluxDensity, hH, g.axial_map _ _ _ fun c => rfl]; rfl
  · rw [magneticFluxDensityTimeDeriv, magneticFluxDensityTimeDeriv, hD, g.axial_map _ _ _ fun c => rfl]; rfl

end Tdem

end Verif
