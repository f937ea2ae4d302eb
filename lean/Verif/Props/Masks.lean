import Verif.Model.Masks
import Mathlib.Tactic

/-! # Evaluating many points at once is evaluating each of them (C66) -/

namespace Verif

open Classical

/-! ## Masks -/

section

variable {α β : Type}

theorem compress_map (p : β → Bool) (f : β → α) (xs : List β) : compress (xs.map p) (xs.map f) = (xs.filter p).map f := by
  induction xs with
  | nil => rfl
  | cons x xs ih => cases h : p x <;> simp [compress, h, ih]

theorem place_map (p : β → Bool) (f g : β → α) (xs : List β) :
    place (xs.map p) (xs.map g) ((xs.filter p).map f) = xs.map fun x => if p x then f x else g x := by
  induction xs with
  | nil => rfl
  | cons x xs ih => cases h : p x <;> simp [place, h, ih]

/-- Reading through a mask. -/
theorem gather_map (p : β → Bool) (f : β → α) (xs : List β) : gather (xs.map p) (xs.map f) = .ok ((xs.filter p).map f) := by
  simp only [gather, List.length_map, if_true, compress_map]

theorem gather_self (p : β → Bool) (xs : List β) : gather (xs.map p) xs = .ok (xs.filter p) := by
  simpa using gather_map p id xs

theorem count_map (p : β → Bool) (xs : List β) : (xs.map p).count true = (xs.filter p).length := by
  induction xs with
  | nil => rfl
  | cons x xs ih => cases h : p x <;> simp [h, ih]

/-- Writing through a mask what was computed from the entries read through it. -/
theorem scatter_map (p : β → Bool) (f g : β → α) (xs : List β) :
    scatter (xs.map p) (xs.map g) ((xs.filter p).map f) = .ok (xs.map fun x => if p x then f x else g x) := by
  have hp := place_map p f g xs
  have hc := count_map p xs
  simp only [scatter, List.length_map, if_true, hc]
  rcases hl : xs.filter p with _ | ⟨y, _ | ⟨y', t⟩⟩ <;> rw [hl] at hp
  · simpa using hp
  · simpa using hp
  · simpa using hp

/-- Writing one value through a mask. -/
theorem scatter_const (p : β → Bool) (v : α) (g : β → α) (xs : List β) :
    scatter (xs.map p) (xs.map g) [v] = .ok (xs.map fun x => if p x then v else g x) := by
  have hp := place_map p (fun _ => v) g xs
  simp only [scatter, List.length_map, if_true, count_map]
  rw [← hp]
  simp

theorem maskOf_map (P : α → Prop) (f : β → α) (xs : List β) : maskOf P (xs.map f) = xs.map fun x => decide (P (f x)) := by
  simp [maskOf, Function.comp_def]

theorem flip_map (p : β → Bool) (xs : List β) : flip (xs.map p) = xs.map fun x => !p x := by
  simp [flip, Function.comp_def]

theorem zipWith_map_same {γ δ : Type} (h : α → γ → δ) (f : β → α) (g : β → γ) (xs : List β) :
    List.zipWith h (xs.map f) (xs.map g) = xs.map fun x => h (f x) (g x) := by
  induction xs with
  | nil => rfl
  | cons x xs ih => simp [ih]

theorem zip_map_same {γ : Type} (f : β → α) (g : β → γ) (xs : List β) : (xs.map f).zip (xs.map g) = xs.map fun x => (f x, g x) := by
  exact zipWith_map_same Prod.mk f g xs

end

/-! ## Gravity -/

namespace Gravity

/-- **C66.** Potentials of a sphere at a batch of points: the potential at each point, in order. -/
theorem sphere_potentials (s : Sphere) (xyz : List (V3 ℝ)) : s.potentials xyz = .ok (xyz.map s.gravitationalPotential) := by
  simp only [Sphere.potentials, List.map_map, maskOf_map, flip_map, gather_self, gather_map, Function.comp_def, bind, Except.bind, scatter_map]
  congr 1
  refine List.map_congr_left fun x _ => ?_
  by_cases h : (x - s.location).len > s.radius <;> simp [Sphere.gravitationalPotential, h]

/-- **C66.** Gravity fields of a sphere at a batch of points. -/
theorem sphere_fields (s : Sphere) (xyz : List (V3 ℝ)) : s.fields xyz = .ok (xyz.map s.gravitationalField) := by
  simp only [Sphere.fields, List.map_map, maskOf_map, flip_map, gather_self, gather_map, Function.comp_def, bind, Except.bind, scatter_map]
  congr 1
  refine List.map_congr_left fun x _ => ?_
  by_cases h : (x - s.location).len > s.radius <;> simp [Sphere.gravitationalField, h]

/-- **C66.** Gravity gradients of a sphere at a batch of points. -/
theorem sphere_gradients (s : Sphere) (xyz : List (V3 ℝ)) : s.gradients xyz = .ok (xyz.map s.gravitationalGradient) := by
  simp only [Sphere.gradients, List.map_map, maskOf_map, flip_map, gather_self, gather_map, Function.comp_def, bind, Except.bind, scatter_map,
    scatter_const]
  congr 1
  refine List.map_congr_left fun x _ => ?_
  by_cases h : (x - s.location).len = s.radius
  · simp [Sphere.gravitationalGradient, h]
  · by_cases h' : (x - s.location).len > s.radius <;> simp [Sphere.gravitationalGradient, h, h']

end Gravity

/-! ## Spheres in a uniform field -/

namespace Sphere

/-- Entry number `i` of every array in the result. -/
def Parts.entryAt {α : Type} : Parts (List α) → ℕ → Option (Parts α)
  | .one l, i => l[i]?.map .one
  | .triple a b c, i => match a[i]?, b[i]?, c[i]? with
    | some a, some b, some c => some (.triple a b c)
    | _, _, _ => none

theorem selectAll_map {α : Type} [Sub α] (field : String) (t p : V3 ℝ → α) (xyz : List (V3 ℝ)) (i : ℕ) :
    (selectAll field (xyz.map t) (xyz.map p)).entryAt i = (xyz[i]?).map fun x => select field (t x) (p x) := by
  simp only [selectAll, select, zipWith_map_same]
  split_ifs <;> simp only [Parts.entryAt, List.getElem?_map] <;> cases xyz[i]? <;> rfl

/-- **C66.** -/
theorem electro_potentials (s : Electro) (xyz : List (V3 ℝ)) (field : String) :
    ∃ P, s.potentials xyz field = .ok P ∧ ∀ i, P.entryAt i = (xyz[i]?).map (s.potential · field) := by
  refine ⟨_, ?_, selectAll_map field s.potentialTotal s.potentialPrimary xyz⟩
  simp only [Electro.potentials, List.map_map, maskOf_map, flip_map, gather_self, gather_map, Function.comp_def, bind, Except.bind, scatter_map,
    zipWith_map_same, pure, Except.pure]
  congr 2
  refine List.map_congr_left fun x _ => ?_
  by_cases h : (x - s.location).len > s.radius <;> simp [Electro.potentialTotal, h]

theorem electro_fieldsTotal (s : Electro) (xyz : List (V3 ℝ)) : s.fieldsTotal xyz = .ok (xyz.map s.fieldTotal) := by
  simp only [Electro.fieldsTotal, List.map_map, maskOf_map, flip_map, gather_self, gather_map, Function.comp_def, bind, Except.bind, scatter_map,
    scatter_const, zipWith_map_same]
  congr 1
  refine List.map_congr_left fun x _ => ?_
  by_cases h : (x - s.location).len > s.radius <;> simp [Electro.fieldTotal, h]

/-- **C66.** -/
theorem electro_fields (s : Electro) (xyz : List (V3 ℝ)) (field : String) :
    ∃ P, s.electricFields xyz field = .ok P ∧ ∀ i, P.entryAt i = (xyz[i]?).map (s.electricField · field) := by
  refine ⟨_, ?_, selectAll_map field s.fieldTotal s.fieldPrimary xyz⟩
  simp only [Electro.electricFields, electro_fieldsTotal, bind, Except.bind, pure, Except.pure]
  rfl

/-- **C66.** -/
theorem electro_currents (s : Electro) (xyz : List (V3 ℝ)) (field : String) :
    ∃ P, s.currentDensities xyz field = .ok P ∧ ∀ i, P.entryAt i = (xyz[i]?).map (s.currentDensity · field) := by
  refine ⟨_, ?_, selectAll_map field s.currentTotal s.currentPrimary xyz⟩
  simp only [Electro.currentDensities, electro_fieldsTotal, List.map_map, maskOf_map, Function.comp_def, bind, Except.bind, pure, Except.pure,
    scatter_const, zipWith_map_same, Electro.fieldsPrimary]
  congr 2
  refine List.map_congr_left fun x _ => ?_
  by_cases h : (x - s.location).len ≤ s.radius <;> simp [Electro.currentTotal, h]

/-- **C66.** -/
theorem electro_charges (eps0 : ℝ) (s : Electro) (xyz : List (V3 ℝ)) (dr : Option ℝ) :
    s.chargeDensities eps0 xyz dr = .ok (xyz.map fun x => s.chargeDensity eps0 x dr) := by
  simp only [Electro.chargeDensities, List.map_map, maskOf_map, gather_map, Function.comp_def, bind, Except.bind, scatter_map, zipWith_map_same]
  congr 1
  refine List.map_congr_left fun x _ => ?_
  simp only [Electro.chargeDensity]
  by_cases h : (x - s.location).len < s.radius + 0.5 * dr.getD (0.05 * s.radius) ∧
    (x - s.location).len > s.radius - 0.5 * dr.getD (0.05 * s.radius)
  · simp only [if_pos h, decide_true]
    simp [h]
  · rw [if_neg h, if_neg (by simpa using h)]

/-- **C66.** -/
theorem magneto_potentials (s : Magneto) (xyz : List (V3 ℝ)) (field : String) :
    ∃ P, s.potentials xyz field = .ok P ∧ ∀ i, P.entryAt i = (xyz[i]?).map (s.potential · field) := by
  refine ⟨_, ?_, selectAll_map field s.potentialTotal s.potentialPrimary xyz⟩
  simp only [Magneto.potentials, List.map_map, maskOf_map, flip_map, gather_self, gather_map, Function.comp_def, bind, Except.bind, scatter_map,
    zipWith_map_same, pure, Except.pure]
  congr 2
  refine List.map_congr_left fun x _ => ?_
  by_cases h : (x - s.location).len > s.radius <;> simp [Magneto.potentialTotal, h]

theorem magneto_fieldsTotal (s : Magneto) (xyz : List (V3 ℝ)) : s.fieldsTotal xyz = .ok (xyz.map s.fieldTotal) := by
  simp only [Magneto.fieldsTotal, List.map_map, maskOf_map, flip_map, gather_self, gather_map, Function.comp_def, bind, Except.bind, scatter_map,
    scatter_const, zipWith_map_same]
  congr 1
  refine List.map_congr_left fun x _ => ?_
  by_cases h : (x - s.location).len > s.radius <;> simp [Magneto.fieldTotal, h]

/-- **C66.** -/
theorem magneto_fields (s : Magneto) (xyz : List (V3 ℝ)) (field : String) :
    ∃ P, s.magneticFields xyz field = .ok P ∧ ∀ i, P.entryAt i = (xyz[i]?).map (s.magneticField · field) := by
  refine ⟨_, ?_, selectAll_map field s.fieldTotal s.fieldPrimary xyz⟩
  simp only [Magneto.magneticFields, magneto_fieldsTotal, bind, Except.bind, pure, Except.pure]
  rfl

/-- **C66.** -/
theorem magneto_fluxes (s : Magneto) (xyz : List (V3 ℝ)) (field : String) :
    ∃ P, s.magneticFluxDensities xyz field = .ok P ∧ ∀ i, P.entryAt i = (xyz[i]?).map (s.magneticFluxDensity · field) := by
  refine ⟨_, ?_, selectAll_map field s.fluxTotal s.fluxPrimary xyz⟩
  simp only [Magneto.magneticFluxDensities, magneto_fieldsTotal, List.map_map, maskOf_map, Function.comp_def, bind, Except.bind, pure, Except.pure,
    scatter_const, zipWith_map_same, Magneto.fieldsPrimary]
  congr 2
  refine List.map_congr_left fun x _ => ?_
  by_cases h : (x - s.location).len ≤ s.radius <;> simp [Magneto.fluxTotal, h]

/-- Non-vacuity: two points, one inside and one outside, the triple of potentials. -/
example : let s : Electro := ⟨1, 2, 1, ⟨1, 0, 0⟩, ⟨0, 0, 0⟩⟩
    ∃ P, s.potentials [⟨2, 0, 0⟩, ⟨0, 0, 0⟩] "all" = .ok P ∧ P.entryAt 1 = some (.triple 0 0 0) := by
  intro s
  obtain ⟨P, h, hP⟩ := electro_potentials s [⟨2, 0, 0⟩, ⟨0, 0, 0⟩] "all"
  refine ⟨P, h, ?_⟩
  rw [hP]
  simp [Electro.potential, select, Electro.potentialTotal, Electro.potentialPrimary, s, V3.dot]

end Sphere

/-! ## Prism -/

namespace Prism

/-- **C66.** Flux densities of a prism at a batch of points. -/
theorem prism_fluxes (s : MagPrism) (xyz : List (V3 ℝ)) : s.magneticFluxDensities xyz = .ok (xyz.map s.magneticFluxDensity) := by
  simp only [MagPrism.magneticFluxDensities, maskOf, zipWith_map_same, gather_map, bind, Except.bind, scatter_map, List.map_map, Function.comp_def,
    pure, Except.pure]
  congr 1
  refine List.map_congr_left fun x _ => ?_
  simp only [MagPrism.magneticFluxDensity]
  by_cases h : s.isInside x
  · have h' := h
    simp only [MagPrism.isInside] at h'
    rw [if_pos h, if_pos (by simpa [Bool.and_eq_true] using h')]
  · have h' := h
    simp only [MagPrism.isInside] at h'
    rw [if_neg h, if_neg (by simpa [Bool.and_eq_true] using h')]

end Prism

/-! ## Circular loop -/

namespace Static

open Spatial

theorem potentialPhis_eq {β : Type} (s : Loop) (xs : List β) (rho z : β → ℝ) :
    s.potentialPhis (xs.map rho) (xs.map z) = .ok (xs.map fun x => s.potentialPhi (rho x) (z x)) := by
  simp only [Loop.potentialPhis, List.map_map, flip_map, gather_map, Function.comp_def, bind, Except.bind, scatter_map, zipWith_map_same, zip_map_same]
  congr 1
  refine List.map_congr_left fun x _ => ?_
  by_cases h : smallRho s.radius (rho x) (z x) <;> simp [Loop.potentialPhi, h]

theorem fluxRhoZs_eq {β : Type} (s : Loop) (xs : List β) (rho z : β → ℝ) :
    s.fluxRhoZs (xs.map rho) (xs.map z) = .ok (xs.map fun x => s.fluxRhoZ (rho x) (z x)) := by
  simp only [Loop.fluxRhoZs, List.map_map, flip_map, gather_map, Function.comp_def, bind, Except.bind, scatter_map, zipWith_map_same, zip_map_same,
    pure, Except.pure]
  congr 1
  refine List.map_congr_left fun x _ => ?_
  simp only [Loop.fluxRhoZ]
  by_cases h0 : (s.radius + rho x) ^ 2 + z x ^ 2 = 0 ∨ (s.radius - rho x) ^ 2 + z x ^ 2 = 0
  · rw [if_pos h0, if_neg (by simpa using or_iff_not_imp_left.1 h0)]
  · rw [if_neg h0, if_pos (by simpa using h0)]
    by_cases h : smallRho s.radius (rho x) (z x) <;> simp [h]

theorem inFrameAll_eq (s : Loop) (F : List ℝ → List ℝ → Py (List (Option (V3 ℝ)))) (f : ℝ → ℝ → Option (V3 ℝ))
    (hF : ∀ (xs : List (V3 ℝ)) (rho z : V3 ℝ → ℝ), F (xs.map rho) (xs.map z) = .ok (xs.map fun x => f (rho x) (z x)))
    (x : V3 ℝ) (xyz : List (V3 ℝ)) : s.inFrameAll F (x :: xyz) = (x :: xyz).mapM (s.inFrame f) := by
  have e : s.inFrame f = fun x => s.inFrame f x := rfl
  rw [e]
  simp only [Loop.inFrameAll, Loop.inFrame]
  rcases rotationMatrixFromNormals (arr3 s.orientation) (arr3 ⟨0, 0, 1⟩) defaultTol with e | rot
  · rw [List.mapM_cons]
    rfl
  · simp only [List.map_map, hF, bind, Except.bind, zipWith_map_same, Function.comp_def]
    exact (List.mapM_pure (m := Except PyErr) (f := fun x : V3 ℝ => Option.map (fun v =>
      rot.transpose.mulVec (cylToCartVec (cartToCyl (rot.mulVec (x - s.location))) v))
      (f (cartToCyl (rot.mulVec (x - s.location))).x (cartToCyl (rot.mulVec (x - s.location))).z))).symm

/-- **C66.** The vector potential of a loop at a batch of points is the vector potential at each point; if one evaluation raises, so does the batch. -/
theorem loop_potentials (s : Loop) (x : V3 ℝ) (xyz : List (V3 ℝ)) :
    s.vectorPotentials (x :: xyz) = (x :: xyz).mapM s.vectorPotential :=
  inFrameAll_eq s _ _ (fun xs rho z => by simp only [potentialPhis_eq, bind, Except.bind, pure, Except.pure, List.map_map, Function.comp_def]) x xyz

/-- **C66.** -/
theorem loop_fluxes (s : Loop) (x : V3 ℝ) (xyz : List (V3 ℝ)) :
    s.magneticFluxDensities (x :: xyz) = (x :: xyz).mapM s.magneticFluxDensity :=
  inFrameAll_eq s _ _ (fun xs rho z => by simp only [fluxRhoZs_eq, bind, Except.bind, pure, Except.pure, List.map_map, Function.comp_def]) x xyz

end Static

end Verif
