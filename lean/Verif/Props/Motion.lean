import Verif.Lemmas.Motion
import Verif.Props.LineCurrent
import Verif.Props.CircularLoop
import Verif.Model.StaticSphere
import Verif.Model.Gravity
import Verif.Model.Fdem
import Verif.Model.Tdem

/-!
# C103: the responses do not depend on where the origin is and how the axes point — whole-space sources and bodies

`moved g` is the source with its location taken along by the motion `g` and its orientation turned.
-/

namespace Verif

/-! ## Static dipole, pole and wire -/

namespace Static

/-- The dipole or pole, moved. -/
def MagDipole.moved (g : Motion) (s : MagDipole) : MagDipole :=
  { s with location := g.act s.location, orientation := g.turn s.orientation }

theorem unit_turn (g : Motion) (d : V3 ℝ) (l : ℝ) : (g.turn d).map (· / l) = g.turn (d.map (· / l)) :=
  (g.turn_map d _ (1 / l) fun c => by ring).symm

/-- **C103.** Static magnetic dipole. -/
theorem MagDipole.dipole_moved (g : Motion) (s : MagDipole) (p : V3 ℝ) :
    (s.moved g).vectorPotential (g.act p) = g.turn (s.vectorPotential p) ∧
    (s.moved g).magneticFluxDensity (g.act p) = g.turn (s.magneticFluxDensity p) ∧
    (s.moved g).magneticField (g.act p) = g.turn (s.magneticField p) := by
  have hB : (s.moved g).magneticFluxDensity (g.act p) = g.turn (s.magneticFluxDensity p) := by
    simp only [magneticFluxDensity, moved, g.act_sub, g.turn_len, unit_turn, g.turn_dot]
    generalize (p - s.location).len = l
    generalize (p - s.location).map (· / l) = u
    ext <;> simp only [Motion.turn, M3.mulVec, V3.dot] <;> ring
  refine ⟨?_, hB, ?_⟩
  · simp only [vectorPotential, moved, g.act_sub, g.turn_len, unit_turn, g.turn_cross]
    exact (g.turn_map _ _ _ fun c => rfl).symm
  · simp only [magneticField, hB]
    exact unit_turn g _ _

/-- **C103.** Magnetic pole. -/
theorem MagDipole.pole_moved (g : Motion) (s : MagDipole) (p : V3 ℝ) :
    (s.moved g).poleFluxDensity (g.act p) = g.turn (s.poleFluxDensity p) ∧
    (s.moved g).poleField (g.act p) = g.turn (s.poleField p) := by
  have hB : (s.moved g).poleFluxDensity (g.act p) = g.turn (s.poleFluxDensity p) := by
    simp only [poleFluxDensity, moved, g.act_sub, g.turn_len, unit_turn]
    exact (g.turn_map _ _ _ fun c => rfl).symm
  refine ⟨hB, ?_⟩
  simp only [poleField, hB]
  exact unit_turn g _ _

/-- The wire, moved. -/
def LineCurrent.moved (g : Motion) (s : LineCurrent) : LineCurrent := { s with nodes := s.nodes.map g.act }

/-- Apply a function to a value that was returned; pass on an exception. -/
def mapPy {α β : Type*} (f : α → β) : Py α → Py β
  | .ok a => .ok (f a)
  | .error e => .error e

/-- **C103.** Wire or point current: the electric side. -/
theorem LineCurrent.electric_moved (g : Motion) (s : LineCurrent) (p : V3 ℝ) :
    (s.moved g).scalarPotential (g.act p) = s.scalarPotential p ∧
    (s.moved g).electricField (g.act p) = mapPy g.turn (s.electricField p) ∧
    (s.moved g).currentDensity (g.act p) = mapPy g.turn (s.currentDensity p) := by
  have hE : (s.moved g).electricField (g.act p) = mapPy g.turn (s.electricField p) := by
    obtain ⟨mu, sigma, current, nodes⟩ := s
    match nodes with
    | [] => rfl
    | [n0] =>
      simp only [electricField, moved, List.map, mapPy, g.act_sub, g.turn_len]
      rw [g.turn_map _ _ (current / (4 * Real.pi * sigma) / (p - n0).len ^ 3) fun c => by ring]
    | n0 :: n1 :: rest =>
      simp only [electricField, moved, List.map]
      have e : (g.act n1 :: rest.map g.act).getLast (by simp) = g.act ((n1 :: rest).getLast (by simp)) :=
        List.getLast_map (f := g.act) (l := n1 :: rest) (by simp)
      by_cases h : (n1 :: rest).getLast (by simp) = n0
      · rw [if_pos (by rw [e, h]), if_pos h]
        simp only [mapPy, g.turn_zero]
      · rw [if_neg (by rw [e, g.act_injective]; exact h), if_neg h]
        simp only [mapPy, e, g.act_sub, g.turn_len]
        congr 1
        ext <;> simp only [Motion.turn, M3.mulVec, V3.dot] <;> ring
  refine ⟨?_, hE, ?_⟩
  · obtain ⟨mu, sigma, current, nodes⟩ := s
    match nodes with
    | [] => rfl
    | [n0] => simp only [scalarPotential, moved, List.map, g.act_sub, g.turn_len]
    | n0 :: n1 :: rest =>
      simp only [scalarPotential, moved, List.map]
      have e : (g.act n1 :: rest.map g.act).getLast (by simp) = g.act ((n1 :: rest).getLast (by simp)) :=
        List.getLast_map (f := g.act) (l := n1 :: rest) (by simp)
      by_cases h : (n1 :: rest).getLast (by simp) = n0
      · rw [if_pos (by rw [e, h]), if_pos h]
      · rw [if_neg (by rw [e, g.act_injective]; exact h), if_neg h]
        simp only [e, g.act_sub, g.turn_len]
  · simp only [currentDensity, hE]
    cases h : s.electricField p with
    | error e => rfl
    | ok v =>
      simp only [mapPy, bind, Except.bind, pure, Except.pure, moved]
      rw [g.turn_map v _ s.sigma fun c => rfl]

theorem tan_turn (g : Motion) (p0 p1 : V3 ℝ) : tan (g.act p0) (g.act p1) = g.turn (tan p0 p1) := by
  simp only [tan, Spatial.unit, g.act_sub, g.turn_len]
  exact unit_turn g _ _

theorem fluxFree_turn (g : Motion) (p0 p1 q : V3 ℝ) : fluxFree (g.act p0) (g.act p1) (g.act q) = g.turn (fluxFree p0 p1 q) := by
  simp only [fluxFree, rho2, tan_turn, g.act_sub, g.turn_len, g.turn_dot, g.turn_cross, g.turn_smul]

theorem potFree_turn (g : Motion) (p0 p1 q : V3 ℝ) : potFree (g.act p0) (g.act p1) (g.act q) = g.turn (potFree p0 p1 q) := by
  simp only [potFree, tan_turn, g.act_sub, g.turn_len, g.turn_dot, g.turn_smul]

theorem segSum_turn (g : Motion) {f : V3 ℝ → V3 ℝ → V3 ℝ} {f' : V3 ℝ → V3 ℝ → V3 ℝ}
    (h : ∀ a b, f' (g.act a) (g.act b) = g.turn (f a b)) (nodes : List (V3 ℝ)) :
    BiotSavart.segSum f' (nodes.map g.act) = g.turn (BiotSavart.segSum f nodes) := by
  induction nodes with
  | nil => simp [BiotSavart.segSum, g.turn_zero]
  | cons p0 t ih =>
    cases t with
    | nil => simp [BiotSavart.segSum, g.turn_zero]
    | cons p1 t =>
      simp only [List.map, BiotSavart.segSum, h, g.turn_add] at ih ⊢
      rw [ih]

theorem off_moved (g : Motion) {nodes : List (V3 ℝ)} {q : V3 ℝ} (h : Off nodes q) : Off (nodes.map g.act) (g.act q) := by
  rw [Off, List.isChain_map]
  refine h.imp fun a b hab hc => hab ?_
  rw [g.act_sub, g.act_sub, g.turn_cross] at hc
  have := congrArg V3.len hc
  rw [g.turn_len] at this
  exact V3.len_eq_zero.1 (this.trans (by simp [V3.len]))

theorem potential_closed_form (s : LineCurrent) (q : V3 ℝ) (hr : Regular s.nodes) (ho : Off s.nodes q) :
    s.vectorPotential q =
      .ok ((-s.mu * s.current / (4 * Real.pi)) • BiotSavart.segSum (fun a b => potFree a b q) s.nodes) := by
  have h := sumSegments_eq (seg := fun p0 p1 => segmentPotential p0 p1 q) (g := fun a b => potFree a b q) s.nodes
    ((chain_and hr ho).imp fun a b h => segmentPotential_eq h.1.1 h.1.2 h.2) 0
  simp only [LineCurrent.vectorPotential, h, bind, Except.bind, pure, Except.pure]
  congr 1
  ext <;> simp <;> ring

/-- **C103.** Wire: the magnetic side, off the lines through the segments.  (Segments within 1e-20 of the `x` axis without being along it
are turned slightly by the code, before or after the motion.) -/
theorem LineCurrent.magnetic_moved (g : Motion) (s : LineCurrent) (p : V3 ℝ) (hr : Regular s.nodes) (hr' : Regular (s.moved g).nodes)
    (ho : Off s.nodes p) :
    (s.moved g).vectorPotential (g.act p) = mapPy g.turn (s.vectorPotential p) ∧
    (s.moved g).magneticFluxDensity (g.act p) = mapPy g.turn (s.magneticFluxDensity p) ∧
    (s.moved g).magneticField (g.act p) = mapPy g.turn (s.magneticField p) := by
  have ho' : Off (s.moved g).nodes (g.act p) := off_moved g ho
  have hB : (s.moved g).magneticFluxDensity (g.act p) = mapPy g.turn (s.magneticFluxDensity p) := by
    rw [flux_closed_form _ _ hr ho, flux_closed_form _ _ hr' ho', mapPy, g.turn_smul]
    congr 2
    exact segSum_turn g (fun a b => fluxFree_turn g a b p) s.nodes
  refine ⟨?_, hB, ?_⟩
  · rw [potential_closed_form _ _ hr ho, potential_closed_form _ _ hr' ho', mapPy, g.turn_smul]
    congr 2
    exact segSum_turn g (fun a b => potFree_turn g a b p) s.nodes
  · simp only [magneticField, hB]
    cases h : s.magneticFluxDensity p with
    | error e => rfl
    | ok v =>
      simp only [mapPy, bind, Except.bind, pure, Except.pure]
      exact congrArg _ (unit_turn g _ _)

/-! ## Circular loop -/

/-- The loop, moved. -/
def Loop.moved (g : Motion) (s : Loop) : Loop := { s with location := g.act s.location, orientation := g.turn s.orientation }

theorem axis_moved (g : Motion) (s : Loop) : (s.moved g).axis = g.turn s.axis := by
  simp only [Loop.axis, Loop.moved, Spatial.unit, g.turn_len]
  exact unit_turn g _ _

theorem fromCyl_turn (g : Motion) (n d v : V3 ℝ) : fromCyl (g.turn n) (g.turn d) v = g.turn (fromCyl n d v) := by
  simp only [fromCyl, axisDist, g.turn_len, g.turn_dot, g.turn_cross, g.turn_add, g.turn_smul, g.turn_sub]

theorem potential_on_axis (s : Loop) (z : ℝ) {v : V3 ℝ}
    (h : ((s.potentialPhi 0 z).map fun a => (⟨0, a, 0⟩ : V3 ℝ)) = some v) : v.x = 0 ∧ v.y = 0 := by
  rw [Option.map_eq_some_iff] at h
  obtain ⟨a, ha, rfl⟩ := h
  refine ⟨rfl, ?_⟩
  simp only [Loop.potentialPhi] at ha
  split_ifs at ha with h1 h2 h3
  · simp only [Option.some.injEq] at ha
    rw [← ha]
    simp
  · refine absurd ?_ h3
    left
    by_contra hc
    refine h1 ⟨by simpa using hc, ?_⟩
    norm_num

theorem flux_on_axis (s : Loop) (z : ℝ) {v : V3 ℝ}
    (h : ((s.fluxRhoZ 0 z).map fun b => (⟨b.1, 0, b.2⟩ : V3 ℝ)) = some v) : v.x = 0 ∧ v.y = 0 := by
  rw [Option.map_eq_some_iff] at h
  obtain ⟨a, ha, rfl⟩ := h
  refine ⟨?_, rfl⟩
  simp only [Loop.fluxRhoZ] at ha
  split_ifs at ha with h1 h2
  · simp only [Option.some.injEq] at ha
    rw [← ha]
    simp
  · refine absurd ⟨?_, ?_⟩ h2
    · intro hc
      exact h1 (Or.inl (by simpa using hc))
    · norm_num

theorem inFrame_moved (g : Motion) (s : Loop) (hb : s.OffBand) (hb' : (s.moved g).OffBand) (f : ℝ → ℝ → Option (V3 ℝ))
    (hf : ∀ z v, f 0 z = some v → v.x = 0 ∧ v.y = 0) (p : V3 ℝ) :
    (s.moved g).inFrame f (g.act p) = mapPy (Option.map g.turn) (s.inFrame f p) := by
  have key : ∀ s : Loop, s.OffBand → ∀ p, s.inFrame f p = .ok ((f (axisDist s.axis (p - s.location)) (s.axis.dot (p - s.location))).map
      (fromCyl s.axis (p - s.location))) := by
    intro s hb p
    refine hb.frame.2 f p ?_
    rcases (Real.sqrt_nonneg _ : 0 ≤ axisDist s.axis (p - s.location)).eq_or_lt with h | h
    · exact Or.inr fun v hv => hf _ v hv
    · exact Or.inl h
  rw [key s hb, key _ hb', axis_moved]
  have e : g.act p - (s.moved g).location = g.turn (p - s.location) := g.act_sub _ _
  have e2 : axisDist (g.turn s.axis) (g.turn (p - s.location)) = axisDist s.axis (p - s.location) := by
    simp only [axisDist, g.turn_len, g.turn_dot]
  rw [e, e2, g.turn_dot, mapPy, Option.map_map]
  congr 2
  funext v
  exact fromCyl_turn g _ _ v

/-- **C103.** Circular loop, at every point: on the axis, near it (where a series is used) and on the wire (where the result is not finite).
(Loops within 1e-20 of horizontal without being so are turned slightly by the code, before or after the motion.) -/
theorem Loop.loop_moved (g : Motion) (s : Loop) (hb : s.OffBand) (hb' : (s.moved g).OffBand) (p : V3 ℝ) :
    (s.moved g).vectorPotential (g.act p) = mapPy (Option.map g.turn) (s.vectorPotential p) ∧
    (s.moved g).magneticFluxDensity (g.act p) = mapPy (Option.map g.turn) (s.magneticFluxDensity p) :=
  ⟨inFrame_moved g s hb hb' _ (fun z _ h => potential_on_axis s z h) p,
    inFrame_moved g s hb hb' _ (fun z _ h => flux_on_axis s z h) p⟩

/-- Turn every axis into the next one and shift. -/
def tip : Motion := ⟨⟨⟨0, 0, 1⟩, ⟨1, 0, 0⟩, ⟨0, 1, 0⟩⟩, ⟨2, 3, 4⟩, by
  constructor
  · ext <;> simp [M3.mul, M3.transpose, M3.one, M3.mulVec, V3.dot]
  · simp [M3.det, V3.dot, V3.cross]⟩

/-- The hypotheses are met by a horizontal loop that is put on its side, and by a wire. -/
example : Loop.unitLoop.OffBand ∧ (Loop.unitLoop.moved tip).OffBand ∧ (Loop.unitLoop.moved tip).location = ⟨2, 3, 4⟩ ∧
    Regular [⟨0, 0, 0⟩, ⟨1, 0, 0⟩] ∧ Regular ([⟨0, 0, 0⟩, ⟨1, 0, 0⟩].map tip.act) ∧ Off [⟨0, 0, 0⟩, ⟨1, 0, 0⟩] ⟨0, 1, 0⟩ := by
  have ha : (Loop.unitLoop.moved tip).axis = ⟨1, 0, 0⟩ := by
    rw [axis_moved, Loop.unitLoop_axis]
    ext <;> simp [tip, Motion.turn, M3.mulVec, V3.dot]
  have e0 : tip.act ⟨0, 0, 0⟩ = ⟨2, 3, 4⟩ := by ext <;> simp [tip, Motion.act, M3.mulVec, V3.dot]
  have e1 : tip.act ⟨1, 0, 0⟩ = ⟨2, 4, 4⟩ := by ext <;> simp [tip, Motion.act, M3.mulVec, V3.dot]; norm_num
  refine ⟨Loop.unitLoop_offBand, ⟨?_, ?_⟩, ?_, ?_, ?_, ?_⟩
  · simp [Loop.moved, Loop.unitLoop, tip, Motion.turn, M3.mulVec, V3.dot, V3.ext_iff]
  · rw [ha]
    right
    norm_num [V3.cross, V3.len, Spatial.defaultTol]
  · simp only [Loop.moved, Loop.unitLoop]
    exact e0
  · refine List.isChain_cons_cons.2 ⟨⟨by simp, Or.inl ?_⟩, by simp⟩
    have l1 : (⟨1, 0, 0⟩ - 0 : V3 ℝ).len = 1 := by simp [V3.len]
    rw [V3.len_eq_zero]; ext <;> simp [tan, Spatial.unit]
  · simp only [List.map, e0, e1]
    refine List.isChain_cons_cons.2 ⟨⟨by simp, Or.inr ?_⟩, by simp⟩
    have l1 : (⟨2, 4, 4⟩ - ⟨2, 3, 4⟩ : V3 ℝ) = ⟨0, 1, 0⟩ := by ext <;> simp; norm_num
    have : (tan ⟨2, 3, 4⟩ ⟨2, 4, 4⟩).cross ⟨1, 0, 0⟩ = (⟨0, 0, -1⟩ : V3 ℝ) := by
      rw [tan, l1]
      ext <;> simp [Spatial.unit, V3.len]
    rw [this]
    norm_num [V3.len, Spatial.defaultTol]
  · refine List.isChain_cons_cons.2 ⟨?_, by simp⟩
    simp [OffLine, V3.ext_iff, V3.cross]

end Static

/-! ## Spheres and masses -/

namespace Sphere

/-- The sphere and the uniform field it is in, moved. -/
def Electro.moved (g : Motion) (s : Electro) : Electro :=
  { s with location := g.act s.location, primaryField := g.turn s.primaryField }

/-- The sphere and the uniform field it is in, moved. -/
def Magneto.moved (g : Motion) (s : Magneto) : Magneto :=
  { s with location := g.act s.location, primaryField := g.turn s.primaryField }

/-- A scalar, or every one of the triple, stays. -/
def Parts.map {α β : Type*} (f : α → β) : Parts α → Parts β
  | .one a => .one (f a)
  | .triple a b c => .triple (f a) (f b) (f c)

theorem select_turn (g : Motion) (w : String) (a b : V3 ℝ) : select w (g.turn a) (g.turn b) = (select w a b).map g.turn := by
  simp only [select, ← g.turn_sub]
  split_ifs <;> rfl

theorem turn_neg (g : Motion) (v : V3 ℝ) : -g.turn v = g.turn (-v) := by
  rw [← zero_sub, ← zero_sub, g.turn_sub, g.turn_zero]

/-- **C103.** Conductive sphere in a uniform electric field. -/
theorem Electro.sphere_moved (g : Motion) (s : Electro) (p : V3 ℝ) (w : String) (eps0 : ℝ) (dr : Option ℝ) :
    (s.moved g).potential (g.act p) w = s.potential p w ∧
    (s.moved g).electricField (g.act p) w = (s.electricField p w).map g.turn ∧
    (s.moved g).currentDensity (g.act p) w = (s.currentDensity p w).map g.turn ∧
    (s.moved g).chargeDensity eps0 (g.act p) dr = s.chargeDensity eps0 p dr := by
  have hE : (s.moved g).fieldTotal (g.act p) = g.turn (s.fieldTotal p) := by
    simp only [fieldTotal, moved, g.act_sub, g.turn_len, g.turn_dot]
    split_ifs
    · rw [g.turn_add, g.turn_map _ _ (1 - (s.sigmaSphere - s.sigmaBackground) / (s.sigmaSphere + 2 * s.sigmaBackground) * s.radius ^ 3 /
        (p - s.location).len ^ 3) fun c => by ring, g.turn_map _ _ (3 * (p - s.location).dot s.primaryField *
        ((s.sigmaSphere - s.sigmaBackground) / (s.sigmaSphere + 2 * s.sigmaBackground)) * s.radius / (p - s.location).len ^ 4) fun c => by ring]
    · rw [g.turn_map _ _ _ fun c => rfl]
  have hP : (s.moved g).fieldPrimary (g.act p) = g.turn (s.fieldPrimary p) := by
    simp only [fieldPrimary, moved, zero_add]
  refine ⟨?_, ?_, ?_, ?_⟩
  · simp only [potential, potentialTotal, potentialPrimary, moved, g.act_sub, g.turn_len, turn_neg, g.turn_dot]
  · rw [electricField, electricField, hE, hP, select_turn]
  · simp only [currentDensity, currentTotal, currentPrimary, hE, hP]
    simp only [moved, g.act_sub, g.turn_len]
    rw [← g.turn_map _ _ _ fun c => rfl, ← g.turn_map _ _ _ fun c => rfl, select_turn]
  · simp only [chargeDensity, moved, g.act_sub, g.turn_len, g.turn_dot]

/-- **C103.** Permeable sphere in a uniform magnetic field. -/
theorem Magneto.sphere_moved (g : Motion) (s : Magneto) (p : V3 ℝ) (w : String) :
    (s.moved g).potential (g.act p) w = s.potential p w ∧
    (s.moved g).magneticField (g.act p) w = (s.magneticField p w).map g.turn ∧
    (s.moved g).magneticFluxDensity (g.act p) w = (s.magneticFluxDensity p w).map g.turn := by
  have hE : (s.moved g).fieldTotal (g.act p) = g.turn (s.fieldTotal p) := by
    simp only [fieldTotal, moved, g.act_sub, g.turn_len, g.turn_dot]
    split_ifs
    · rw [g.turn_add, g.turn_map _ _ (1 - (s.muSphere - s.muBackground) / (s.muSphere + 2 * s.muBackground) * s.radius ^ 3 /
        (p - s.location).len ^ 3) fun c => by ring, g.turn_map _ _ (3 * (p - s.location).dot s.primaryField *
        ((s.muSphere - s.muBackground) / (s.muSphere + 2 * s.muBackground)) * s.radius / (p - s.location).len ^ 4) fun c => by ring]
    · rw [g.turn_map _ _ _ fun c => rfl]
  have hP : (s.moved g).fieldPrimary (g.act p) = g.turn (s.fieldPrimary p) := by
    simp only [fieldPrimary, moved, zero_add]
  refine ⟨?_, ?_, ?_⟩
  · simp only [potential, potentialTotal, potentialPrimary, moved, g.act_sub, g.turn_len, turn_neg, g.turn_dot]
  · rw [magneticField, magneticField, hE, hP, select_turn]
  · simp only [magneticFluxDensity, fluxTotal, fluxPrimary, hE, hP]
    simp only [moved, g.act_sub, g.turn_len]
    rw [← g.turn_map _ _ _ fun c => rfl, ← g.turn_map _ _ _ fun c => rfl, select_turn]

end Sphere

namespace Gravity

/-- The point mass, moved. -/
def PointMass.moved (g : Motion) (s : PointMass) : PointMass := { s with location := g.act s.location }

/-- The sphere, moved. -/
def Sphere.moved (g : Motion) (s : Sphere) : Sphere := { s with location := g.act s.location }

/-- The tensor `a I + b v vᵀ`, turned. -/
theorem turnT_form (g : Motion) (a b : ℝ) (v : V3 ℝ) :
    g.turnT ⟨⟨a + b * v.x * v.x, b * v.x * v.y, b * v.x * v.z⟩, ⟨b * v.y * v.x, a + b * v.y * v.y, b * v.y * v.z⟩,
      ⟨b * v.z * v.x, b * v.z * v.y, a + b * v.z * v.z⟩⟩ =
    ⟨⟨a + b * (g.turn v).x * (g.turn v).x, b * (g.turn v).x * (g.turn v).y, b * (g.turn v).x * (g.turn v).z⟩,
      ⟨b * (g.turn v).y * (g.turn v).x, a + b * (g.turn v).y * (g.turn v).y, b * (g.turn v).y * (g.turn v).z⟩,
      ⟨b * (g.turn v).z * (g.turn v).x, b * (g.turn v).z * (g.turn v).y, a + b * (g.turn v).z * (g.turn v).z⟩⟩ := by
  obtain ⟨h1, h2, h3, h4, h5, h6⟩ := g.isRot.rows
  simp only [Motion.turnT, M3.mul, M3.mulVec, M3.transpose, V3.dot, Motion.turn, V3.mk.injEq]
  refine ⟨⟨?_, ?_, ?_⟩, ⟨?_, ?_, ?_⟩, ?_, ?_, ?_⟩
  · linear_combination a * h1
  · linear_combination a * h4
  · linear_combination a * h5
  · linear_combination a * h4
  · linear_combination a * h2
  · linear_combination a * h6
  · linear_combination a * h5
  · linear_combination a * h6
  · linear_combination a * h3

/-- **C103.** Point mass. -/
theorem PointMass.mass_moved (g : Motion) (s : PointMass) (p : V3 ℝ) :
    (s.moved g).gravitationalPotential (g.act p) = s.gravitationalPotential p ∧
    (s.moved g).gravitationalField (g.act p) = g.turn (s.gravitationalField p) ∧
    (s.moved g).gravitationalGradient (g.act p) = g.turnT (s.gravitationalGradient p) := by
  refine ⟨?_, ?_, ?_⟩
  · simp only [gravitationalPotential, moved, g.act_sub, g.turn_len]
  · simp only [gravitationalField, moved, g.act_sub, g.turn_len, Static.unit_turn]
    generalize (p - s.location).map (· / (p - s.location).len) = u
    rw [g.turn_map u _ (-G * s.mass / (p - s.location).len ^ 2) fun c => by ring]
  · simp only [gravitationalGradient, moved, g.act_sub, g.turn_len, Static.unit_turn]
    generalize (p - s.location).len = l
    generalize (p - s.location).map (· / l) = u
    have form : ∀ v : V3 ℝ, (⟨⟨-G * s.mass * (1 - 3 * v.x * v.x) / l ^ 3, -G * s.mass * (0 - 3 * v.x * v.y) / l ^ 3,
        -G * s.mass * (0 - 3 * v.x * v.z) / l ^ 3⟩, ⟨-G * s.mass * (0 - 3 * v.y * v.x) / l ^ 3,
        -G * s.mass * (1 - 3 * v.y * v.y) / l ^ 3, -G * s.mass * (0 - 3 * v.y * v.z) / l ^ 3⟩,
        ⟨-G * s.mass * (0 - 3 * v.z * v.x) / l ^ 3, -G * s.mass * (0 - 3 * v.z * v.y) / l ^ 3,
        -G * s.mass * (1 - 3 * v.z * v.z) / l ^ 3⟩⟩ : M3 ℝ) =
        ⟨⟨-G * s.mass / l ^ 3 + 3 * G * s.mass / l ^ 3 * v.x * v.x, 3 * G * s.mass / l ^ 3 * v.x * v.y, 3 * G * s.mass / l ^ 3 * v.x * v.z⟩,
        ⟨3 * G * s.mass / l ^ 3 * v.y * v.x, -G * s.mass / l ^ 3 + 3 * G * s.mass / l ^ 3 * v.y * v.y, 3 * G * s.mass / l ^ 3 * v.y * v.z⟩,
        ⟨3 * G * s.mass / l ^ 3 * v.z * v.x, 3 * G * s.mass / l ^ 3 * v.z * v.y,
          -G * s.mass / l ^ 3 + 3 * G * s.mass / l ^ 3 * v.z * v.z⟩⟩ := by
      intro v
      simp only [V3.mk.injEq]
      refine ⟨⟨?_, ?_, ?_⟩, ⟨?_, ?_, ?_⟩, ?_, ?_, ?_⟩ <;> ring
    rw [form, form, turnT_form]

/-- **C103.** Homogeneous sphere, inside and outside. -/
theorem Sphere.ball_moved (g : Motion) (s : Sphere) (p : V3 ℝ) :
    (s.moved g).gravitationalPotential (g.act p) = s.gravitationalPotential p ∧
    (s.moved g).gravitationalField (g.act p) = g.turn (s.gravitationalField p) ∧
    (s.moved g).gravitationalGradient (g.act p) = (s.gravitationalGradient p).map g.turnT := by
  obtain ⟨h1, h2, h3⟩ := s.toPointMass.mass_moved g p
  have e : (s.moved g).toPointMass = s.toPointMass.moved g := rfl
  have el : (g.act p - (s.moved g).location).len = (p - s.location).len := by
    simp only [moved, g.act_sub, g.turn_len]
  have er : (s.moved g).radius = s.radius := rfl
  have eh : (s.moved g).rho = s.rho := rfl
  refine ⟨?_, ?_, ?_⟩
  · simp only [gravitationalPotential, e, el, h1, er, eh]
  · simp only [gravitationalField, e, el, h2, er, eh]
    split_ifs
    · rfl
    · rw [g.turn_map _ _ _ fun c => rfl]
      simp only [moved, g.act_sub]
  · simp only [gravitationalGradient, e, el, h3, er, eh]
    split_ifs
    · rfl
    · rfl
    · simp only [Option.map_some, Option.some.injEq]
      have := turnT_form g (-G * 4 / 3 * Real.pi * s.rho) 0 0
      simp only [zero_mul, add_zero] at this
      simp only [mul_one, mul_zero]
      exact this.symm

end Gravity

/-! ## Harmonic and transient dipoles -/

namespace Fdem

/-- The electric dipole, moved. -/
def ElectricDipole.moved (g : Motion) (s : ElectricDipole) : ElectricDipole :=
  { s with location := g.act s.location, orientation := g.turn s.orientation }

/-- The magnetic dipole, moved. -/
def MagneticDipole.moved (g : Motion) (s : MagneticDipole) : MagneticDipole :=
  { s with location := g.act s.location, orientation := g.turn s.orientation }

/-- **C103.** Harmonic electric dipole. -/
theorem ElectricDipole.dipole_moved (g : Motion) (s : ElectricDipole) (p : V3 ℝ) :
    (s.moved g).vectorPotential (g.act p) = g.turnC (s.vectorPotential p) ∧
    (s.moved g).electricField (g.act p) = g.turnC (s.electricField p) ∧
    (s.moved g).currentDensity (g.act p) = g.turnC (s.currentDensity p) ∧
    (s.moved g).magneticField (g.act p) = g.turnC (s.magneticField p) ∧
    (s.moved g).magneticFluxDensity (g.act p) = g.turnC (s.magneticFluxDensity p) := by
  have ek : (s.moved g).wavenumber = s.wavenumber := rfl
  have hE : (s.moved g).electricField (g.act p) = g.turnC (s.electricField p) := by
    simp only [electricField, ek]
    simp only [moved, g.act_sub, g.turn_len, Static.unit_turn, g.turn_dot]
    rw [g.turnC_mapC _ _ _ fun c => rfl, g.turnC_add, g.turnC_map _ _ _ fun c => rfl, g.turnC_map _ _ _ fun c => rfl]
  have hH : (s.moved g).magneticField (g.act p) = g.turnC (s.magneticField p) := by
    simp only [magneticField, ek]
    simp only [moved, g.act_sub, g.turn_len, Static.unit_turn, g.turn_cross]
    rw [g.turnC_map _ _ _ fun c => rfl]
  refine ⟨?_, hE, ?_, hH, ?_⟩
  · simp only [vectorPotential, ek]
    simp only [moved, g.act_sub, g.turn_len]
    rw [g.turnC_map _ _ _ fun c => rfl]
  · rw [currentDensity, currentDensity, hE, g.turnC_mapC _ _ _ fun c => rfl]; rfl
  · rw [magneticFluxDensity, magneticFluxDensity, hH, g.turnC_mapC _ _ _ fun c => rfl]; rfl

/-- **C103.** Harmonic magnetic dipole. -/
theorem MagneticDipole.dipole_moved (g : Motion) (s : MagneticDipole) (p : V3 ℝ) :
    (s.moved g).vectorPotential (g.act p) = g.turnC (s.vectorPotential p) ∧
    (s.moved g).electricField (g.act p) = g.turnC (s.electricField p) ∧
    (s.moved g).currentDensity (g.act p) = g.turnC (s.currentDensity p) ∧
    (s.moved g).magneticField (g.act p) = g.turnC (s.magneticField p) ∧
    (s.moved g).magneticFluxDensity (g.act p) = g.turnC (s.magneticFluxDensity p) := by
  have ek : (s.moved g).wavenumber = s.wavenumber := rfl
  have ew : (s.moved g).omega = s.omega := rfl
  have hE : (s.moved g).electricField (g.act p) = g.turnC (s.electricField p) := by
    simp only [electricField, ek, ew]
    simp only [moved, g.act_sub, g.turn_len, Static.unit_turn, g.turn_cross]
    rw [g.turnC_map _ _ _ fun c => rfl]
  have hH : (s.moved g).magneticField (g.act p) = g.turnC (s.magneticField p) := by
    simp only [magneticField, ek]
    simp only [moved, g.act_sub, g.turn_len, Static.unit_turn, g.turn_dot]
    rw [g.turnC_mapC _ _ _ fun c => rfl, g.turnC_add, g.turnC_map _ _ _ fun c => rfl, g.turnC_map _ _ _ fun c => rfl]
  refine ⟨?_, hE, ?_, hH, ?_⟩
  · simp only [vectorPotential, ek, ew]
    simp only [moved, g.act_sub, g.turn_len]
    rw [g.turnC_map _ _ _ fun c => rfl]
  · rw [currentDensity, currentDensity, hE, g.turnC_mapC _ _ _ fun c => rfl]; rfl
  · rw [magneticFluxDensity, magneticFluxDensity, hH, g.turnC_mapC _ _ _ fun c => rfl]; rfl

end Fdem

namespace Tdem

/-- The electric dipole, moved. -/
def ElectricDipole.moved (g : Motion) (s : ElectricDipole) : ElectricDipole :=
  { s with location := g.act s.location, orientation := g.turn s.orientation }

/-- **C103.** Transient electric dipole. -/
theorem ElectricDipole.dipole_moved (g : Motion) (s : ElectricDipole) (p : V3 ℝ) :
    (s.moved g).vectorPotential (g.act p) = g.turn (s.vectorPotential p) ∧
    (s.moved g).electricField (g.act p) = g.turn (s.electricField p) ∧
    (s.moved g).currentDensity (g.act p) = g.turn (s.currentDensity p) ∧
    (s.moved g).magneticField (g.act p) = g.turn (s.magneticField p) ∧
    (s.moved g).magneticFluxDensity (g.act p) = g.turn (s.magneticFluxDensity p) ∧
    (s.moved g).magneticFieldTimeDeriv (g.act p) = g.turn (s.magneticFieldTimeDeriv p) ∧
    (s.moved g).magneticFluxDensityTimeDeriv (g.act p) = g.turn (s.magneticFluxDensityTimeDeriv p) := by
  have et : (s.moved g).theta = s.theta := rfl
  have hE : (s.moved g).electricField (g.act p) = g.turn (s.electricField p) := by
    simp only [electricField, et]
    simp only [moved, g.act_sub, g.turn_len, Static.unit_turn, g.turn_dot]
    rw [g.turn_map _ _ _ fun c => rfl, g.turn_sub, g.turn_map _ _ _ fun c => rfl, g.turn_map _ _ _ fun c => rfl, g.turn_map _ _ _ fun c => rfl]
  have hH : (s.moved g).magneticField (g.act p) = g.turn (s.magneticField p) := by
    simp only [magneticField, et]
    simp only [moved, g.act_sub, g.turn_len, Static.unit_turn, g.turn_cross]
    rw [g.turn_map _ _ _ fun c => rfl]
  have hD : (s.moved g).magneticFieldTimeDeriv (g.act p) = g.turn (s.magneticFieldTimeDeriv p) := by
    simp only [magneticFieldTimeDeriv, et]
    simp only [moved, g.act_sub, g.turn_len, Static.unit_turn, g.turn_cross]
    rw [g.turn_map _ _ _ fun c => rfl]
  refine ⟨?_, hE, ?_, hH, ?_, hD, ?_⟩
  · simp only [vectorPotential, et]
    simp only [moved, g.act_sub, g.turn_len]
    rw [g.turn_map _ _ _ fun c => rfl]
  · rw [currentDensity, currentDensity, hE, g.turn_map _ _ _ fun c => rfl]; rfl
  · rw [magneticFluxDensity, magneticFluxDensity, hH, g.turn_map _ _ _ fun c => rfl]; rfl
  · rw [magneticFluxDensityTimeDeriv, magneticFluxDensityTimeDeriv, hD, g.turn_map _ _ _ fun c => rfl]; rfl

end Tdem

end Verif
