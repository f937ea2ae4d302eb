import Verif.Model.StaticWholeSpace
import Verif.Model.StaticHalfspace
import Verif.Model.CircularLoop
import Verif.Model.StaticSphere
import Verif.Model.Gravity
import Verif.Model.Prism
import Verif.Model.TdemSimple
import Mathlib.Tactic.Ring
import Mathlib.Tactic.LinearCombination

/-!
# C115: static and gravity fields are linear in the strength and direction of their source
-/

namespace Verif.Gravity

/-- **C115.** Potential, field and gradient of a point mass are linear in its mass. -/
theorem PointMass.superposition (l p : V3 ℝ) (a b m1 m2 : ℝ) :
    (⟨a * m1 + b * m2, l⟩ : PointMass).gravitationalPotential p =
      a * (⟨m1, l⟩ : PointMass).gravitationalPotential p + b * (⟨m2, l⟩ : PointMass).gravitationalPotential p ∧
    (⟨a * m1 + b * m2, l⟩ : PointMass).gravitationalField p =
      a • (⟨m1, l⟩ : PointMass).gravitationalField p + b • (⟨m2, l⟩ : PointMass).gravitationalField p ∧
    (⟨a * m1 + b * m2, l⟩ : PointMass).gravitationalGradient p =
      a • (⟨m1, l⟩ : PointMass).gravitationalGradient p + b • (⟨m2, l⟩ : PointMass).gravitationalGradient p := by
  refine ⟨?_, ?_, ?_⟩
  · simp only [PointMass.gravitationalPotential]; ring
  · simp only [PointMass.gravitationalField, V3.map]
    ext <;> simp only [V3.add_x, V3.add_y, V3.add_z, V3.smul_x, V3.smul_y, V3.smul_z, smul_eq_mul] <;> ring
  · simp only [PointMass.gravitationalGradient, V3.map]
    ext <;> simp only [V3.add_x, V3.add_y, V3.add_z, V3.smul_x, V3.smul_y, V3.smul_z, smul_eq_mul] <;> ring

/-- **C115.** Potential, field and gradient of a ball are linear in its density; its gradient is undefined on the surface whatever the
density. -/
theorem Sphere.superposition (R : ℝ) (l p : V3 ℝ) (a b r1 r2 : ℝ) :
    (⟨R, a * r1 + b * r2, l⟩ : Sphere).gravitationalPotential p =
      a * (⟨R, r1, l⟩ : Sphere).gravitationalPotential p + b * (⟨R, r2, l⟩ : Sphere).gravitationalPotential p ∧
    (⟨R, a * r1 + b * r2, l⟩ : Sphere).gravitationalField p =
      a • (⟨R, r1, l⟩ : Sphere).gravitationalField p + b • (⟨R, r2, l⟩ : Sphere).gravitationalField p ∧
    (∀ t1 t2, (⟨R, r1, l⟩ : Sphere).gravitationalGradient p = some t1 → (⟨R, r2, l⟩ : Sphere).gravitationalGradient p = some t2 →
      (⟨R, a * r1 + b * r2, l⟩ : Sphere).gravitationalGradient p = some (a • t1 + b • t2)) ∧
    ((⟨R, r1, l⟩ : Sphere).gravitationalGradient p = none → (⟨R, r2, l⟩ : Sphere).gravitationalGradient p = none) := by
  have hm : (⟨R, a * r1 + b * r2, l⟩ : Sphere).toPointMass = ⟨a * (⟨R, r1, l⟩ : Sphere).mass + b * (⟨R, r2, l⟩ : Sphere).mass, l⟩ := by
    simp only [Sphere.toPointMass, Sphere.mass]
    congr 1
    ring
  obtain ⟨h1, h2, h3⟩ := PointMass.superposition l p a b (⟨R, r1, l⟩ : Sphere).mass (⟨R, r2, l⟩ : Sphere).mass
  refine ⟨?_, ?_, ?_, ?_⟩
  · simp only [Sphere.gravitationalPotential, hm]
    split_ifs with h
    · exact h1
    · ring
  · simp only [Sphere.gravitationalField, hm]
    split_ifs with h
    · exact h2
    · ext <;> simp only [V3.map, V3.add_x, V3.add_y, V3.add_z, V3.smul_x, V3.smul_y, V3.smul_z, smul_eq_mul] <;> ring
  · intro t1 t2
    simp only [Sphere.gravitationalGradient, hm]
    split_ifs with h h'
    · simp
    · intro e1 e2
      cases e1
      cases e2
      exact congrArg some h3
    · intro e1 e2
      cases e1
      cases e2
      refine congrArg some ?_
      ext <;> simp only [V3.add_x, V3.add_y, V3.add_z, V3.smul_x, V3.smul_y, V3.smul_z, smul_eq_mul] <;> ring
  · simp only [Sphere.gravitationalGradient]
    split_ifs <;> simp

end Verif.Gravity

namespace Verif.Prism

/-- **C115.** Mass, potential, field and gradient of a prism are linear in its density. -/
theorem GravPrism.superposition (B : Box) (p : V3 ℝ) (a b r1 r2 : ℝ) :
    (⟨B, a * r1 + b * r2⟩ : GravPrism).mass = a * (⟨B, r1⟩ : GravPrism).mass + b * (⟨B, r2⟩ : GravPrism).mass ∧
    (⟨B, a * r1 + b * r2⟩ : GravPrism).gravitationalPotential p =
      a * (⟨B, r1⟩ : GravPrism).gravitationalPotential p + b * (⟨B, r2⟩ : GravPrism).gravitationalPotential p ∧
    (⟨B, a * r1 + b * r2⟩ : GravPrism).gravitationalField p =
      a • (⟨B, r1⟩ : GravPrism).gravitationalField p + b • (⟨B, r2⟩ : GravPrism).gravitationalField p ∧
    (⟨B, a * r1 + b * r2⟩ : GravPrism).gravitationalGradient p =
      a • (⟨B, r1⟩ : GravPrism).gravitationalGradient p + b • (⟨B, r2⟩ : GravPrism).gravitationalGradient p := by
  refine ⟨?_, ?_, ?_, ?_⟩
  · simp only [GravPrism.mass]; ring
  · simp only [GravPrism.gravitationalPotential]; ring
  · simp only [GravPrism.gravitationalField]
    ext <;> simp only [V3.add_x, V3.add_y, V3.add_z, V3.smul_x, V3.smul_y, V3.smul_z, smul_eq_mul] <;> ring
  · simp only [GravPrism.gravitationalGradient]
    ext <;> simp only [V3.add_x, V3.add_y, V3.add_z, V3.smul_x, V3.smul_y, V3.smul_z, smul_eq_mul] <;> ring

/-- **C115.** Moment, scalar potential, field, flux density and field gradient of a magnetised prism are linear in its magnetization. -/
theorem MagPrism.superposition (B : Box) (p m1 m2 : V3 ℝ) (a b : ℝ) :
    (⟨B, a • m1 + b • m2⟩ : MagPrism).moment = a • (⟨B, m1⟩ : MagPrism).moment + b • (⟨B, m2⟩ : MagPrism).moment ∧
    (⟨B, a • m1 + b • m2⟩ : MagPrism).scalarPotential p =
      a * (⟨B, m1⟩ : MagPrism).scalarPotential p + b * (⟨B, m2⟩ : MagPrism).scalarPotential p ∧
    (⟨B, a • m1 + b • m2⟩ : MagPrism).magneticField p =
      a • (⟨B, m1⟩ : MagPrism).magneticField p + b • (⟨B, m2⟩ : MagPrism).magneticField p ∧
    (⟨B, a • m1 + b • m2⟩ : MagPrism).magneticFluxDensity p =
      a • (⟨B, m1⟩ : MagPrism).magneticFluxDensity p + b • (⟨B, m2⟩ : MagPrism).magneticFluxDensity p ∧
    (⟨B, a • m1 + b • m2⟩ : MagPrism).magneticFieldGradient p =
      a • (⟨B, m1⟩ : MagPrism).magneticFieldGradient p + b • (⟨B, m2⟩ : MagPrism).magneticFieldGradient p := by
  have hH : (⟨B, a • m1 + b • m2⟩ : MagPrism).magneticField p =
      a • (⟨B, m1⟩ : MagPrism).magneticField p + b • (⟨B, m2⟩ : MagPrism).magneticField p := by
    simp only [MagPrism.magneticField]
    generalize (-1.0 / (4 * Real.pi) : ℝ) = k
    ext <;> simp only [V3.add_x, V3.add_y, V3.add_z, V3.smul_x, V3.smul_y, V3.smul_z, smul_eq_mul] <;> ring
  refine ⟨?_, ?_, hH, ?_, ?_⟩
  · simp only [MagPrism.moment, V3.map]
    ext <;> simp only [V3.add_x, V3.add_y, V3.add_z, V3.smul_x, V3.smul_y, V3.smul_z, smul_eq_mul] <;> ring
  · simp only [MagPrism.scalarPotential]
    generalize (-1.0 / (4 * Real.pi) : ℝ) = k
    simp only [V3.add_x, V3.add_y, V3.add_z, V3.smul_x, V3.smul_y, V3.smul_z, smul_eq_mul]
    ring
  · simp only [MagPrism.magneticFluxDensity, hH]
    by_cases h : MagPrism.isInside ⟨B, m1⟩ p
    · have h2 : MagPrism.isInside ⟨B, m2⟩ p := h
      have h3 : MagPrism.isInside ⟨B, a • m1 + b • m2⟩ p := h
      rw [if_pos h, if_pos h2, if_pos h3]
      ext <;> simp only [V3.map, V3.add_x, V3.add_y, V3.add_z, V3.smul_x, V3.smul_y, V3.smul_z, smul_eq_mul] <;> ring
    · have h2 : ¬ MagPrism.isInside ⟨B, m2⟩ p := h
      have h3 : ¬ MagPrism.isInside ⟨B, a • m1 + b • m2⟩ p := h
      rw [if_neg h, if_neg h2, if_neg h3]
      ext <;> simp only [V3.map, V3.add_x, V3.add_y, V3.add_z, V3.smul_x, V3.smul_y, V3.smul_z, smul_eq_mul] <;> ring
  · simp only [MagPrism.magneticFieldGradient]
    generalize (-1.0 / (4 * Real.pi) : ℝ) = k
    ext <;> simp only [V3.add_x, V3.add_y, V3.add_z, V3.smul_x, V3.smul_y, V3.smul_z, smul_eq_mul] <;> ring

end Verif.Prism

namespace Verif.Sphere

/-- Two results of one kind combined part by part. -/
inductive Combined {α : Type} (f : α → α → α) : Parts α → Parts α → Parts α → Prop
  | one (x y : α) : Combined f (.one x) (.one y) (.one (f x y))
  | triple (x x' x'' y y' y'' : α) : Combined f (.triple x x' x'') (.triple y y' y'') (.triple (f x y) (f x' y') (f x'' y''))

theorem select_combined {α : Type} [Sub α] (f : α → α → α) (hf : ∀ x y x' y', f x x' - f y y' = f (x - y) (x' - y')) (field : String)
    (t p t' p' : α) : Combined f (select field t p) (select field t' p') (select field (f t t') (f p p')) := by
  unfold select
  split_ifs
  · exact .one _ _
  · exact .one _ _
  · rw [hf]; exact .one _ _
  · rw [hf]; exact .triple ..

/-- A combination of numbers. -/
def comb (a b x y : ℝ) : ℝ := a * x + b * y

/-- A combination of vectors. -/
def combV (a b : ℝ) (x y : V3 ℝ) : V3 ℝ := a • x + b • y

theorem comb_sub (a b x y x' y' : ℝ) : comb a b x x' - comb a b y y' = comb a b (x - y) (x' - y') := by
  simp only [comb]; ring

theorem combV_sub (a b : ℝ) (x y x' y' : V3 ℝ) : combV a b x x' - combV a b y y' = combV a b (x - y) (x' - y') := by
  simp only [combV]
  ext <;> simp <;> ring

/-- **C115.** Everything a conducting sphere reports is linear in the primary field, whichever parts are asked for. -/
theorem Electro.superposition (R s1 s0 : ℝ) (e1 e2 l p : V3 ℝ) (a b : ℝ) (field : String) :
    Combined (comb a b) ((⟨R, s1, s0, e1, l⟩ : Electro).potential p field) ((⟨R, s1, s0, e2, l⟩ : Electro).potential p field)
      ((⟨R, s1, s0, a • e1 + b • e2, l⟩ : Electro).potential p field) ∧
    Combined (combV a b) ((⟨R, s1, s0, e1, l⟩ : Electro).electricField p field) ((⟨R, s1, s0, e2, l⟩ : Electro).electricField p field)
      ((⟨R, s1, s0, a • e1 + b • e2, l⟩ : Electro).electricField p field) ∧
    Combined (combV a b) ((⟨R, s1, s0, e1, l⟩ : Electro).currentDensity p field) ((⟨R, s1, s0, e2, l⟩ : Electro).currentDensity p field)
      ((⟨R, s1, s0, a • e1 + b • e2, l⟩ : Electro).currentDensity p field) ∧
    ∀ eps0 dr, (⟨R, s1, s0, a • e1 + b • e2, l⟩ : Electro).chargeDensity eps0 p dr =
      a * (⟨R, s1, s0, e1, l⟩ : Electro).chargeDensity eps0 p dr + b * (⟨R, s1, s0, e2, l⟩ : Electro).chargeDensity eps0 p dr := by
  have hV : (⟨R, s1, s0, a • e1 + b • e2, l⟩ : Electro).potentialTotal p =
      comb a b ((⟨R, s1, s0, e1, l⟩ : Electro).potentialTotal p) ((⟨R, s1, s0, e2, l⟩ : Electro).potentialTotal p) := by
    simp only [Electro.potentialTotal, comb, V3.dot]
    split_ifs <;> simp only [V3.neg_x, V3.neg_y, V3.neg_z, V3.add_x, V3.add_y, V3.add_z, V3.smul_x, V3.smul_y, V3.smul_z, smul_eq_mul] <;> ring
  have hP : (⟨R, s1, s0, a • e1 + b • e2, l⟩ : Electro).potentialPrimary p =
      comb a b ((⟨R, s1, s0, e1, l⟩ : Electro).potentialPrimary p) ((⟨R, s1, s0, e2, l⟩ : Electro).potentialPrimary p) := by
    simp only [Electro.potentialPrimary, comb, V3.dot, V3.neg_x, V3.neg_y, V3.neg_z, V3.add_x, V3.add_y, V3.add_z, V3.smul_x, V3.smul_y, V3.smul_z, smul_eq_mul]
    ring
  have hE : (⟨R, s1, s0, a • e1 + b • e2, l⟩ : Electro).fieldTotal p =
      combV a b ((⟨R, s1, s0, e1, l⟩ : Electro).fieldTotal p) ((⟨R, s1, s0, e2, l⟩ : Electro).fieldTotal p) := by
    simp only [Electro.fieldTotal, combV, V3.dot]
    split_ifs <;> ext <;> simp only [V3.map, V3.add_x, V3.add_y, V3.add_z, V3.smul_x, V3.smul_y, V3.smul_z, smul_eq_mul] <;> ring
  have hEp : (⟨R, s1, s0, a • e1 + b • e2, l⟩ : Electro).fieldPrimary p =
      combV a b ((⟨R, s1, s0, e1, l⟩ : Electro).fieldPrimary p) ((⟨R, s1, s0, e2, l⟩ : Electro).fieldPrimary p) := by
    simp [Electro.fieldPrimary, combV]
  refine ⟨?_, ?_, ?_, ?_⟩
  · simp only [Electro.potential, hV, hP]
    exact select_combined _ (fun x y x' y' => comb_sub a b x y x' y') _ _ _ _ _
  · simp only [Electro.electricField, hE, hEp]
    exact select_combined _ (fun x y x' y' => combV_sub a b x y x' y') _ _ _ _ _
  · have hJ : (⟨R, s1, s0, a • e1 + b • e2, l⟩ : Electro).currentTotal p =
        combV a b ((⟨R, s1, s0, e1, l⟩ : Electro).currentTotal p) ((⟨R, s1, s0, e2, l⟩ : Electro).currentTotal p) := by
      simp only [Electro.currentTotal, hE, combV]
      ext <;> simp only [V3.map, V3.add_x, V3.add_y, V3.add_z, V3.smul_x, V3.smul_y, V3.smul_z, smul_eq_mul] <;> ring
    have hJp : (⟨R, s1, s0, a • e1 + b • e2, l⟩ : Electro).currentPrimary p =
        combV a b ((⟨R, s1, s0, e1, l⟩ : Electro).currentPrimary p) ((⟨R, s1, s0, e2, l⟩ : Electro).currentPrimary p) := by
      simp only [Electro.currentPrimary, hEp, combV]
      ext <;> simp only [V3.map, V3.add_x, V3.add_y, V3.add_z, V3.smul_x, V3.smul_y, V3.smul_z, smul_eq_mul] <;> ring
    simp only [Electro.currentDensity, hJ, hJp]
    exact select_combined _ (fun x y x' y' => combV_sub a b x y x' y') _ _ _ _ _
  · intro eps0 dr
    simp only [Electro.chargeDensity, V3.dot]
    split_ifs
    · simp only [V3.add_x, V3.add_y, V3.add_z, V3.smul_x, V3.smul_y, V3.smul_z, smul_eq_mul]
      ring
    · ring

/-- **C115.** Everything a permeable sphere reports is linear in the primary field, whichever parts are asked for. -/
theorem Magneto.superposition (R s1 s0 : ℝ) (e1 e2 l p : V3 ℝ) (a b : ℝ) (field : String) :
    Combined (comb a b) ((⟨R, s1, s0, e1, l⟩ : Magneto).potential p field) ((⟨R, s1, s0, e2, l⟩ : Magneto).potential p field)
      ((⟨R, s1, s0, a • e1 + b • e2, l⟩ : Magneto).potential p field) ∧
    Combined (combV a b) ((⟨R, s1, s0, e1, l⟩ : Magneto).magneticField p field) ((⟨R, s1, s0, e2, l⟩ : Magneto).magneticField p field)
      ((⟨R, s1, s0, a • e1 + b • e2, l⟩ : Magneto).magneticField p field) ∧
    Combined (combV a b) ((⟨R, s1, s0, e1, l⟩ : Magneto).magneticFluxDensity p field)
      ((⟨R, s1, s0, e2, l⟩ : Magneto).magneticFluxDensity p field)
      ((⟨R, s1, s0, a • e1 + b • e2, l⟩ : Magneto).magneticFluxDensity p field) := by
  have hV : (⟨R, s1, s0, a • e1 + b • e2, l⟩ : Magneto).potentialTotal p =
      comb a b ((⟨R, s1, s0, e1, l⟩ : Magneto).potentialTotal p) ((⟨R, s1, s0, e2, l⟩ : Magneto).potentialTotal p) := by
    simp only [Magneto.potentialTotal, comb, V3.dot]
    split_ifs <;> simp only [V3.neg_x, V3.neg_y, V3.neg_z, V3.add_x, V3.add_y, V3.add_z, V3.smul_x, V3.smul_y, V3.smul_z, smul_eq_mul] <;> ring
  have hP : (⟨R, s1, s0, a • e1 + b • e2, l⟩ : Magneto).potentialPrimary p =
      comb a b ((⟨R, s1, s0, e1, l⟩ : Magneto).potentialPrimary p) ((⟨R, s1, s0, e2, l⟩ : Magneto).potentialPrimary p) := by
    simp only [Magneto.potentialPrimary, comb, V3.dot, V3.neg_x, V3.neg_y, V3.neg_z, V3.add_x, V3.add_y, V3.add_z, V3.smul_x, V3.smul_y, V3.smul_z, smul_eq_mul]
    ring
  have hE : (⟨R, s1, s0, a • e1 + b • e2, l⟩ : Magneto).fieldTotal p =
      combV a b ((⟨R, s1, s0, e1, l⟩ : Magneto).fieldTotal p) ((⟨R, s1, s0, e2, l⟩ : Magneto).fieldTotal p) := by
    simp only [Magneto.fieldTotal, combV, V3.dot]
    split_ifs <;> ext <;> simp only [V3.map, V3.add_x, V3.add_y, V3.add_z, V3.smul_x, V3.smul_y, V3.smul_z, smul_eq_mul] <;> ring
  have hEp : (⟨R, s1, s0, a • e1 + b • e2, l⟩ : Magneto).fieldPrimary p =
      combV a b ((⟨R, s1, s0, e1, l⟩ : Magneto).fieldPrimary p) ((⟨R, s1, s0, e2, l⟩ : Magneto).fieldPrimary p) := by
    simp [Magneto.fieldPrimary, combV]
  refine ⟨?_, ?_, ?_⟩
  · simp only [Magneto.potential, hV, hP]
    exact select_combined _ (fun x y x' y' => comb_sub a b x y x' y') _ _ _ _ _
  · simp only [Magneto.magneticField, hE, hEp]
    exact select_combined _ (fun x y x' y' => combV_sub a b x y x' y') _ _ _ _ _
  · have hJ : (⟨R, s1, s0, a • e1 + b • e2, l⟩ : Magneto).fluxTotal p =
        combV a b ((⟨R, s1, s0, e1, l⟩ : Magneto).fluxTotal p) ((⟨R, s1, s0, e2, l⟩ : Magneto).fluxTotal p) := by
      simp only [Magneto.fluxTotal, hE, combV]
      ext <;> simp only [V3.map, V3.add_x, V3.add_y, V3.add_z, V3.smul_x, V3.smul_y, V3.smul_z, smul_eq_mul] <;> ring
    have hJp : (⟨R, s1, s0, a • e1 + b • e2, l⟩ : Magneto).fluxPrimary p =
        combV a b ((⟨R, s1, s0, e1, l⟩ : Magneto).fluxPrimary p) ((⟨R, s1, s0, e2, l⟩ : Magneto).fluxPrimary p) := by
      simp only [Magneto.fluxPrimary, hEp, combV]
      ext <;> simp only [V3.map, V3.add_x, V3.add_y, V3.add_z, V3.smul_x, V3.smul_y, V3.smul_z, smul_eq_mul] <;> ring
    simp only [Magneto.magneticFluxDensity, hJ, hJp]
    exact select_combined _ (fun x y x' y' => combV_sub a b x y x' y') _ _ _ _ _

end Verif.Sphere

namespace Verif.Static

/-- **C115.** Potential, flux density and field of a static magnetic dipole depend on its moment times its orientation only, linearly. -/
theorem MagDipole.superposition (mu m m1 m2 a b : ℝ) (l o o1 o2 p : V3 ℝ) (hm : m • o = a • (m1 • o1) + b • (m2 • o2)) :
    (⟨mu, m, l, o⟩ : MagDipole).vectorPotential p =
      a • (⟨mu, m1, l, o1⟩ : MagDipole).vectorPotential p + b • (⟨mu, m2, l, o2⟩ : MagDipole).vectorPotential p ∧
    (⟨mu, m, l, o⟩ : MagDipole).magneticFluxDensity p =
      a • (⟨mu, m1, l, o1⟩ : MagDipole).magneticFluxDensity p + b • (⟨mu, m2, l, o2⟩ : MagDipole).magneticFluxDensity p ∧
    (⟨mu, m, l, o⟩ : MagDipole).magneticField p =
      a • (⟨mu, m1, l, o1⟩ : MagDipole).magneticField p + b • (⟨mu, m2, l, o2⟩ : MagDipole).magneticField p := by
  have hx : m * o.x = a * (m1 * o1.x) + b * (m2 * o2.x) := congrArg V3.x hm
  have hy : m * o.y = a * (m1 * o1.y) + b * (m2 * o2.y) := congrArg V3.y hm
  have hz : m * o.z = a * (m1 * o1.z) + b * (m2 * o2.z) := congrArg V3.z hm
  have hB : (⟨mu, m, l, o⟩ : MagDipole).magneticFluxDensity p =
      a • (⟨mu, m1, l, o1⟩ : MagDipole).magneticFluxDensity p + b • (⟨mu, m2, l, o2⟩ : MagDipole).magneticFluxDensity p := by
    simp only [MagDipole.magneticFluxDensity, V3.map, V3.dot]
    generalize (p - l).len = r
    generalize p - l = v
    ext <;> simp only [V3.add_x, V3.add_y, V3.add_z, V3.smul_x, V3.smul_y, V3.smul_z, smul_eq_mul]
    · linear_combination (mu / (4 * Real.pi * r ^ 3)) * (3 * (v.x / r) * (v.x / r * hx + v.y / r * hy + v.z / r * hz) - hx)
    · linear_combination (mu / (4 * Real.pi * r ^ 3)) * (3 * (v.y / r) * (v.x / r * hx + v.y / r * hy + v.z / r * hz) - hy)
    · linear_combination (mu / (4 * Real.pi * r ^ 3)) * (3 * (v.z / r) * (v.x / r * hx + v.y / r * hy + v.z / r * hz) - hz)
  refine ⟨?_, hB, ?_⟩
  · simp only [MagDipole.vectorPotential, V3.map, V3.cross]
    generalize (p - l).len = r
    generalize p - l = v
    ext <;> simp only [V3.add_x, V3.add_y, V3.add_z, V3.smul_x, V3.smul_y, V3.smul_z, smul_eq_mul]
    · linear_combination (mu / (4 * Real.pi * r ^ 2)) * (v.z / r * hy - v.y / r * hz)
    · linear_combination (mu / (4 * Real.pi * r ^ 2)) * (v.x / r * hz - v.z / r * hx)
    · linear_combination (mu / (4 * Real.pi * r ^ 2)) * (v.y / r * hx - v.x / r * hy)
  · simp only [MagDipole.magneticField, hB]
    ext <;> simp only [V3.map, V3.add_x, V3.add_y, V3.add_z, V3.smul_x, V3.smul_y, V3.smul_z, smul_eq_mul] <;> ring

/-- **C115.** Flux density and field of a magnetic pole are linear in its moment, whatever its orientation. -/
theorem MagDipole.pole_superposition (mu m1 m2 a b : ℝ) (l o o1 o2 p : V3 ℝ) :
    (⟨mu, a * m1 + b * m2, l, o⟩ : MagDipole).poleFluxDensity p =
      a • (⟨mu, m1, l, o1⟩ : MagDipole).poleFluxDensity p + b • (⟨mu, m2, l, o2⟩ : MagDipole).poleFluxDensity p ∧
    (⟨mu, a * m1 + b * m2, l, o⟩ : MagDipole).poleField p =
      a • (⟨mu, m1, l, o1⟩ : MagDipole).poleField p + b • (⟨mu, m2, l, o2⟩ : MagDipole).poleField p := by
  constructor
  · simp only [MagDipole.poleFluxDensity, V3.map]
    ext <;> simp only [V3.add_x, V3.add_y, V3.add_z, V3.smul_x, V3.smul_y, V3.smul_z, smul_eq_mul] <;> ring
  · simp only [MagDipole.poleField, MagDipole.poleFluxDensity, V3.map]
    ext <;> simp only [V3.add_x, V3.add_y, V3.add_z, V3.smul_x, V3.smul_y, V3.smul_z, smul_eq_mul] <;> ring

/-- Two calls with results, and a third whose result combines theirs; or all three raise the same exception. -/
inductive CombinedPy {α : Type} (f : α → α → α) : Py α → Py α → Py α → Prop
  | ok (x y : α) : CombinedPy f (.ok x) (.ok y) (.ok (f x y))
  | error (e : PyErr) : CombinedPy f (.error e) (.error e) (.error e)

theorem CombinedPy.map {α β : Type} {f : α → α → α} {g : β → β → β} {h : α → β} (hh : ∀ x y, h (f x y) = g (h x) (h y)) {u v w : Py α}
    (H : CombinedPy f u v w) : CombinedPy g (u >>= fun x => pure (h x)) (v >>= fun x => pure (h x)) (w >>= fun x => pure (h x)) := by
  cases H with
  | ok x y =>
    show CombinedPy g (.ok (h x)) (.ok (h y)) (.ok (h (f x y)))
    rw [hh]
    exact .ok _ _
  | error e => exact .error e

theorem CombinedPy.of_eq {α : Type} {f : α → α → α} {x y z : α} (h : z = f x y) : CombinedPy f (.ok x) (.ok y) (.ok z) := h ▸ .ok x y

open Sphere (comb combV)

/-- **C115.** Potentials and fields of a wire are linear in its current. -/
theorem LineCurrent.superposition (mu sigma c1 c2 a b : ℝ) (nodes : List (V3 ℝ)) (p : V3 ℝ) :
    CombinedPy (comb a b) ((⟨mu, sigma, c1, nodes⟩ : LineCurrent).scalarPotential p) ((⟨mu, sigma, c2, nodes⟩ : LineCurrent).scalarPotential p)
      ((⟨mu, sigma, a * c1 + b * c2, nodes⟩ : LineCurrent).scalarPotential p) ∧
    CombinedPy (combV a b) ((⟨mu, sigma, c1, nodes⟩ : LineCurrent).electricField p) ((⟨mu, sigma, c2, nodes⟩ : LineCurrent).electricField p)
      ((⟨mu, sigma, a * c1 + b * c2, nodes⟩ : LineCurrent).electricField p) ∧
    CombinedPy (combV a b) ((⟨mu, sigma, c1, nodes⟩ : LineCurrent).currentDensity p) ((⟨mu, sigma, c2, nodes⟩ : LineCurrent).currentDensity p)
      ((⟨mu, sigma, a * c1 + b * c2, nodes⟩ : LineCurrent).currentDensity p) ∧
    CombinedPy (combV a b) ((⟨mu, sigma, c1, nodes⟩ : LineCurrent).vectorPotential p) ((⟨mu, sigma, c2, nodes⟩ : LineCurrent).vectorPotential p)
      ((⟨mu, sigma, a * c1 + b * c2, nodes⟩ : LineCurrent).vectorPotential p) ∧
    CombinedPy (combV a b) ((⟨mu, sigma, c1, nodes⟩ : LineCurrent).magneticFluxDensity p)
      ((⟨mu, sigma, c2, nodes⟩ : LineCurrent).magneticFluxDensity p)
      ((⟨mu, sigma, a * c1 + b * c2, nodes⟩ : LineCurrent).magneticFluxDensity p) ∧
    CombinedPy (combV a b) ((⟨mu, sigma, c1, nodes⟩ : LineCurrent).magneticField p) ((⟨mu, sigma, c2, nodes⟩ : LineCurrent).magneticField p)
      ((⟨mu, sigma, a * c1 + b * c2, nodes⟩ : LineCurrent).magneticField p) := by
  have hE : CombinedPy (combV a b) ((⟨mu, sigma, c1, nodes⟩ : LineCurrent).electricField p)
      ((⟨mu, sigma, c2, nodes⟩ : LineCurrent).electricField p) ((⟨mu, sigma, a * c1 + b * c2, nodes⟩ : LineCurrent).electricField p) := by
    rcases nodes with _ | ⟨n0, _ | ⟨n1, rest⟩⟩
    · exact .error _
    · refine CombinedPy.of_eq ?_
      simp only [combV]
      ext <;> simp only [V3.map, V3.add_x, V3.add_y, V3.add_z, V3.smul_x, V3.smul_y, V3.smul_z, smul_eq_mul] <;> ring
    · simp only [LineCurrent.electricField]
      split_ifs
      · refine CombinedPy.of_eq ?_
        ext <;> simp [combV]
      · refine CombinedPy.of_eq ?_
        simp only [combV]
        ext <;> simp only [V3.add_x, V3.add_y, V3.add_z, V3.smul_x, V3.smul_y, V3.smul_z, smul_eq_mul] <;> ring
  have hsum : ∀ seg : V3 ℝ → V3 ℝ → Py (V3 ℝ), CombinedPy (combV a b)
      (sumSegments seg nodes 0 >>= fun out => pure (out.map (fun c => c * (-mu * c1 / (4 * Real.pi)))))
      (sumSegments seg nodes 0 >>= fun out => pure (out.map (fun c => c * (-mu * c2 / (4 * Real.pi)))))
      (sumSegments seg nodes 0 >>= fun out => pure (out.map (fun c => c * (-mu * (a * c1 + b * c2) / (4 * Real.pi))))) := by
    intro seg
    cases sumSegments seg nodes 0 with
    | error e => exact .error e
    | ok out =>
      refine CombinedPy.of_eq ?_
      simp only [combV]
      ext <;> simp only [V3.map, V3.add_x, V3.add_y, V3.add_z, V3.smul_x, V3.smul_y, V3.smul_z, smul_eq_mul] <;> ring
  have hB := hsum (fun p0 p1 => segmentFlux p0 p1 p)
  refine ⟨?_, hE, ?_, hsum (fun p0 p1 => segmentPotential p0 p1 p), hB, ?_⟩
  · rcases nodes with _ | ⟨n0, _ | ⟨n1, rest⟩⟩
    · exact .error _
    · refine CombinedPy.of_eq ?_
      simp only [comb]
      ring
    · simp only [LineCurrent.scalarPotential]
      split_ifs
      · exact CombinedPy.of_eq (by simp [comb])
      · exact CombinedPy.of_eq (by simp only [comb]; ring)
  · refine CombinedPy.map (h := fun e : V3 ℝ => e.map (sigma * ·)) (fun x y => ?_) hE
    simp only [combV]
    ext <;> simp only [V3.map, V3.add_x, V3.add_y, V3.add_z, V3.smul_x, V3.smul_y, V3.smul_z, smul_eq_mul] <;> ring
  · refine CombinedPy.map (h := fun e : V3 ℝ => e.map (· / mu)) (fun x y => ?_) hB
    simp only [combV]
    ext <;> simp only [V3.map, V3.add_x, V3.add_y, V3.add_z, V3.smul_x, V3.smul_y, V3.smul_z, smul_eq_mul] <;> ring

theorem CombinedPy.bind2 {α β : Type} {f : α → α → α} {g : β → β → β} {h : α → α → β}
    (hh : ∀ x y x' y', h (f x y) (f x' y') = g (h x x') (h y y')) {u v w u' v' w' : Py α} (H : CombinedPy f u v w)
    (H' : CombinedPy f u' v' w') : CombinedPy g (u >>= fun x => u' >>= fun x' => pure (h x x')) (v >>= fun x => v' >>= fun x' => pure (h x x'))
      (w >>= fun x => w' >>= fun x' => pure (h x x')) := by
  cases H with
  | error e => exact .error e
  | ok x y =>
    cases H' with
    | error e => exact .error e
    | ok x' y' => exact CombinedPy.of_eq (hh x y x' y')

/-- An electrode in a half-space with its current replaced: what the `current` setter makes of it (halfspace.py:54-63). -/
def PointHalf.withCurrent (s : PointHalf) (c : ℝ) : PointHalf :=
  { s with current := c, primary := { s.primary with current := c }, image := { s.image with current := c } }

/-- **C115.** Potential, field and current density of an electrode in a half-space are linear in its current. -/
theorem PointHalf.superposition (s : PointHalf) (c1 c2 a b : ℝ) (p : V3 ℝ) :
    CombinedPy (comb a b) ((s.withCurrent c1).potential p) ((s.withCurrent c2).potential p) ((s.withCurrent (a * c1 + b * c2)).potential p) ∧
    CombinedPy (combV a b) ((s.withCurrent c1).electricField p) ((s.withCurrent c2).electricField p)
      ((s.withCurrent (a * c1 + b * c2)).electricField p) ∧
    CombinedPy (combV a b) ((s.withCurrent c1).currentDensity p) ((s.withCurrent c2).currentDensity p)
      ((s.withCurrent (a * c1 + b * c2)).currentDensity p) := by
  have hp := LineCurrent.superposition s.primary.mu s.primary.sigma c1 c2 a b s.primary.nodes p
  have hi := LineCurrent.superposition s.image.mu s.image.sigma c1 c2 a b s.image.nodes p
  have hE : CombinedPy (combV a b) ((s.withCurrent c1).electricField p) ((s.withCurrent c2).electricField p)
      ((s.withCurrent (a * c1 + b * c2)).electricField p) := by
    simp only [PointHalf.electricField, pointElectricField, PointHalf.withCurrent]
    split_ifs
    · exact .error _
    · refine CombinedPy.bind2 (h := fun x y : V3 ℝ => x + y) (fun x y x' y' => ?_) hp.2.1 hi.2.1
      simp only [combV]
      ext <;> simp only [V3.add_x, V3.add_y, V3.add_z, V3.smul_x, V3.smul_y, V3.smul_z, smul_eq_mul] <;> ring
  refine ⟨?_, hE, ?_⟩
  · simp only [PointHalf.potential, pointPotential, PointHalf.withCurrent]
    split_ifs
    · exact .error _
    · refine CombinedPy.bind2 (h := fun x y : ℝ => x + y) (fun x y x' y' => ?_) hp.1 hi.1
      simp only [comb]
      ring
  · refine CombinedPy.map (h := fun e : V3 ℝ => e.map (· / s.rho)) (fun x y => ?_) hE
    simp only [combV]
    ext <;> simp only [V3.map, V3.add_x, V3.add_y, V3.add_z, V3.smul_x, V3.smul_y, V3.smul_z, smul_eq_mul] <;> ring

/-- A pair of electrodes with its current replaced (halfspace.py:371-381). -/
def DipoleHalf.withCurrent (s : DipoleHalf) (c : ℝ) : DipoleHalf :=
  { s with current := c, a := s.a.withCurrent c, b := s.b.withCurrent c }

/-- **C115.** Voltages and fields of a pair of electrodes are linear in the current, with one or two points of measurement. -/
theorem DipoleHalf.superposition (s : DipoleHalf) (c1 c2 a b : ℝ) (m : V3 ℝ) (n : Option (V3 ℝ)) :
    CombinedPy (comb a b) ((s.withCurrent c1).potential m n) ((s.withCurrent c2).potential m n)
      ((s.withCurrent (a * c1 + b * c2)).potential m n) ∧
    CombinedPy (combV a b) ((s.withCurrent c1).electricField m n) ((s.withCurrent c2).electricField m n)
      ((s.withCurrent (a * c1 + b * c2)).electricField m n) := by
  have hV : ∀ p, CombinedPy (comb a b)
      (do let va ← (s.withCurrent c1).a.potential p; let vb ← (s.withCurrent c1).b.potential p; pure (va - vb))
      (do let va ← (s.withCurrent c2).a.potential p; let vb ← (s.withCurrent c2).b.potential p; pure (va - vb))
      (do let va ← (s.withCurrent (a * c1 + b * c2)).a.potential p; let vb ← (s.withCurrent (a * c1 + b * c2)).b.potential p; pure (va - vb)) := by
    intro p
    refine CombinedPy.bind2 (h := fun x y : ℝ => x - y) (fun x y x' y' => ?_) (PointHalf.superposition s.a c1 c2 a b p).1
      (PointHalf.superposition s.b c1 c2 a b p).1
    simp only [comb]
    ring
  have hE : ∀ p, CombinedPy (combV a b)
      (do let va ← (s.withCurrent c1).a.electricField p; let vb ← (s.withCurrent c1).b.electricField p; pure (va - vb))
      (do let va ← (s.withCurrent c2).a.electricField p; let vb ← (s.withCurrent c2).b.electricField p; pure (va - vb))
      (do let va ← (s.withCurrent (a * c1 + b * c2)).a.electricField p
          let vb ← (s.withCurrent (a * c1 + b * c2)).b.electricField p
          pure (va - vb)) := by
    intro p
    refine CombinedPy.bind2 (h := fun x y : V3 ℝ => x - y) (fun x y x' y' => ?_) (PointHalf.superposition s.a c1 c2 a b p).2.1
      (PointHalf.superposition s.b c1 c2 a b p).2.1
    simp only [combV]
    ext <;> simp only [V3.add_x, V3.add_y, V3.add_z, V3.sub_x, V3.sub_y, V3.sub_z, V3.smul_x, V3.smul_y, V3.smul_z, smul_eq_mul] <;> ring
  cases n with
  | none =>
    constructor
    · simp only [DipoleHalf.potential]
      split_ifs
      · exact .error _
      · exact hV m
    · simp only [DipoleHalf.electricField]
      split_ifs
      · exact .error _
      · exact hE m
  | some n =>
    constructor
    · simp only [DipoleHalf.potential]
      split_ifs
      · exact .error _
      · exact .error _
      · have h := CombinedPy.bind2 (h := fun x y : ℝ => x - y) (g := comb a b) (fun x y x' y' => by simp only [comb]; ring) (hV m) (hV n)
        simpa only [bind_assoc, pure_bind] using h
    · simp only [DipoleHalf.electricField]
      split_ifs
      · exact .error _
      · exact .error _
      · have h := CombinedPy.bind2 (h := fun x y : V3 ℝ => x - y) (g := combV a b) (fun x y x' y' => by
          simp only [combV]
          ext <;> simp only [V3.add_x, V3.add_y, V3.add_z, V3.sub_x, V3.sub_y, V3.sub_z, V3.smul_x, V3.smul_y, V3.smul_z, smul_eq_mul] <;> ring)
          (hE m) (hE n)
        simpa only [bind_assoc, pure_bind] using h

/-- **C115.** So is their current density. -/
theorem DipoleHalf.superposition_current (s : DipoleHalf) (c1 c2 a b : ℝ) (m : V3 ℝ) (n : Option (V3 ℝ)) :
    CombinedPy (combV a b) ((s.withCurrent c1).currentDensity m n) ((s.withCurrent c2).currentDensity m n)
      ((s.withCurrent (a * c1 + b * c2)).currentDensity m n) := by
  refine CombinedPy.map (h := fun e : V3 ℝ => e.map (· / s.rho)) (fun x y => ?_) (DipoleHalf.superposition s c1 c2 a b m n).2
  simp only [combV]
  ext <;> simp only [V3.map, V3.add_x, V3.add_y, V3.add_z, V3.smul_x, V3.smul_y, V3.smul_z, smul_eq_mul] <;> ring

/-- Two results that may be infinite or NaN (`none`), combined: all three are, or none is. -/
def combO (a b : ℝ) : Option (V3 ℝ) → Option (V3 ℝ) → Option (V3 ℝ)
  | some x, some y => some (combV a b x y)
  | _, _ => none

theorem map_combO {a b : ℝ} {T : V3 ℝ → V3 ℝ} (hT : ∀ x y, T (combV a b x y) = combV a b (T x) (T y)) (x y : Option (V3 ℝ)) :
    (combO a b x y).map T = combO a b (x.map T) (y.map T) := by
  cases x <;> cases y <;> simp [combO, hT]

open Spatial in
theorem cylToCartVec_comb (a b : ℝ) (c x y : V3 ℝ) : cylToCartVec c (combV a b x y) = combV a b (cylToCartVec c x) (cylToCartVec c y) := by
  simp only [cylToCartVec, combV]
  ext <;> simp only [V3.add_x, V3.add_y, V3.add_z, V3.smul_x, V3.smul_y, V3.smul_z, smul_eq_mul] <;> ring

open Spatial in
theorem cartToCylVec_comb (a b : ℝ) (c x y : V3 ℝ) : cartToCylVec c (combV a b x y) = combV a b (cartToCylVec c x) (cartToCylVec c y) := by
  simp only [cartToCylVec, combV]
  ext <;> simp only [V3.add_x, V3.add_y, V3.add_z, V3.smul_x, V3.smul_y, V3.smul_z, smul_eq_mul] <;> ring

theorem mulVec_comb (a b : ℝ) (R : M3 ℝ) (x y : V3 ℝ) : R.mulVec (combV a b x y) = combV a b (R.mulVec x) (R.mulVec y) := by
  simp only [M3.mulVec, V3.dot, combV]
  ext <;> simp only [V3.add_x, V3.add_y, V3.add_z, V3.smul_x, V3.smul_y, V3.smul_z, smul_eq_mul] <;> ring

theorem inFrame_comb {a b : ℝ} {s s1 s2 : Loop} {f f1 f2 : ℝ → ℝ → Option (V3 ℝ)} (h1 : s1.location = s.location) (h2 : s2.location = s.location)
    (o1 : s1.orientation = s.orientation) (o2 : s2.orientation = s.orientation) (hf : ∀ r z, f r z = combO a b (f1 r z) (f2 r z)) (p : V3 ℝ) :
    CombinedPy (combO a b) (s1.inFrame f1 p) (s2.inFrame f2 p) (s.inFrame f p) := by
  simp only [Loop.inFrame, h1, h2, o1, o2]
  cases Spatial.rotationMatrixFromNormals (Spatial.arr3 s.orientation) (Spatial.arr3 ⟨0, 0, 1⟩) Spatial.defaultTol with
  | error e => exact .error e
  | ok R =>
    refine CombinedPy.of_eq ?_
    rw [hf]
    exact map_combO (fun x y => by rw [cylToCartVec_comb, mulVec_comb]) _ _

/-- **C115.** Vector potential, flux density and field of a circular loop are linear in its current, in either system of coordinates, and
where they are infinite they are so whatever the current. -/
theorem Loop.superposition (mu c1 c2 R a b : ℝ) (l o p : V3 ℝ) (w : String) :
    CombinedPy (combO a b) ((⟨mu, c1, R, l, o⟩ : Loop).vectorPotentialIn w p) ((⟨mu, c2, R, l, o⟩ : Loop).vectorPotentialIn w p)
      ((⟨mu, a * c1 + b * c2, R, l, o⟩ : Loop).vectorPotentialIn w p) ∧
    CombinedPy (combO a b) ((⟨mu, c1, R, l, o⟩ : Loop).magneticFluxDensityIn w p) ((⟨mu, c2, R, l, o⟩ : Loop).magneticFluxDensityIn w p)
      ((⟨mu, a * c1 + b * c2, R, l, o⟩ : Loop).magneticFluxDensityIn w p) ∧
    CombinedPy (combO a b) ((⟨mu, c1, R, l, o⟩ : Loop).magneticFieldIn w p) ((⟨mu, c2, R, l, o⟩ : Loop).magneticFieldIn w p)
      ((⟨mu, a * c1 + b * c2, R, l, o⟩ : Loop).magneticFieldIn w p) := by
  have hA : ∀ q, CombinedPy (combO a b) ((⟨mu, c1, R, l, o⟩ : Loop).vectorPotential q) ((⟨mu, c2, R, l, o⟩ : Loop).vectorPotential q)
      ((⟨mu, a * c1 + b * c2, R, l, o⟩ : Loop).vectorPotential q) := by
    intro q
    unfold Loop.vectorPotential
    refine inFrame_comb (s := ⟨mu, a * c1 + b * c2, R, l, o⟩) (s1 := ⟨mu, c1, R, l, o⟩) (s2 := ⟨mu, c2, R, l, o⟩) rfl rfl rfl rfl
      (fun r z => ?_) q
    simp only [Loop.potentialPhi]
    split_ifs
    · rfl
    · simp only [Option.map_some, combO, combV]
      congr 1
      ext <;> simp only [V3.add_x, V3.add_y, V3.add_z, V3.smul_x, V3.smul_y, V3.smul_z, smul_eq_mul] <;> ring
    · rfl
    · simp only [Option.map_some, combO, combV]
      congr 1
      ext <;> simp only [V3.add_x, V3.add_y, V3.add_z, V3.smul_x, V3.smul_y, V3.smul_z, smul_eq_mul] <;> ring
  have hB : ∀ q, CombinedPy (combO a b) ((⟨mu, c1, R, l, o⟩ : Loop).magneticFluxDensity q) ((⟨mu, c2, R, l, o⟩ : Loop).magneticFluxDensity q)
      ((⟨mu, a * c1 + b * c2, R, l, o⟩ : Loop).magneticFluxDensity q) := by
    intro q
    unfold Loop.magneticFluxDensity
    refine inFrame_comb (s := ⟨mu, a * c1 + b * c2, R, l, o⟩) (s1 := ⟨mu, c1, R, l, o⟩) (s2 := ⟨mu, c2, R, l, o⟩) rfl rfl rfl rfl
      (fun r z => ?_) q
    simp only [Loop.fluxRhoZ]
    split_ifs
    · rfl
    · simp only [Option.map_some, combO, combV]
      congr 1
      ext <;> simp only [V3.add_x, V3.add_y, V3.add_z, V3.smul_x, V3.smul_y, V3.smul_z, smul_eq_mul] <;> ring
    · simp only [Option.map_some, combO, combV]
      congr 1
      ext <;> simp only [V3.add_x, V3.add_y, V3.add_z, V3.smul_x, V3.smul_y, V3.smul_z, smul_eq_mul] <;> ring
  have hBi : CombinedPy (combO a b) ((⟨mu, c1, R, l, o⟩ : Loop).magneticFluxDensityIn w p) ((⟨mu, c2, R, l, o⟩ : Loop).magneticFluxDensityIn w p)
      ((⟨mu, a * c1 + b * c2, R, l, o⟩ : Loop).magneticFluxDensityIn w p) := by
    simp only [Loop.magneticFluxDensityIn]
    split_ifs
    · exact CombinedPy.map (h := fun v : Option (V3 ℝ) => v.map (Spatial.cartToCylVec _)) (fun x y => map_combO (cartToCylVec_comb a b _) x y) (hB _)
    · exact CombinedPy.map (h := fun v : Option (V3 ℝ) => v) (fun x y => rfl) (hB _)
    · exact .error _
  refine ⟨?_, hBi, ?_⟩
  · simp only [Loop.vectorPotentialIn]
    split_ifs
    · exact CombinedPy.map (h := fun v : Option (V3 ℝ) => v.map (Spatial.cartToCylVec _)) (fun x y => map_combO (cartToCylVec_comb a b _) x y) (hA _)
    · exact CombinedPy.map (h := fun v : Option (V3 ℝ) => v) (fun x y => rfl) (hA _)
    · exact .error _
  · refine CombinedPy.map (h := fun v : Option (V3 ℝ) => v.map fun v => v.map (· / mu)) (fun x y => map_combO (fun x y => ?_) x y) hBi
    simp only [combV]
    ext <;> simp only [V3.map, V3.add_x, V3.add_y, V3.add_z, V3.smul_x, V3.smul_y, V3.smul_z, smul_eq_mul] <;> ring

end Verif.Static

namespace Verif.Tdem

/-- **C115.** The transient fields of a vertical dipole on a half-space are linear in its moment. -/
theorem HalfspaceDipole.superposition (m : Medium) (l : V3 ℝ) (m1 m2 a b x y : ℝ) :
    (⟨m, a * m1 + b * m2, l⟩ : HalfspaceDipole).magneticField x y =
      a • (⟨m, m1, l⟩ : HalfspaceDipole).magneticField x y + b • (⟨m, m2, l⟩ : HalfspaceDipole).magneticField x y ∧
    (⟨m, a * m1 + b * m2, l⟩ : HalfspaceDipole).magneticFluxDensity x y =
      a • (⟨m, m1, l⟩ : HalfspaceDipole).magneticFluxDensity x y + b • (⟨m, m2, l⟩ : HalfspaceDipole).magneticFluxDensity x y ∧
    (⟨m, a * m1 + b * m2, l⟩ : HalfspaceDipole).magneticFieldTimeDerivative x y =
      a • (⟨m, m1, l⟩ : HalfspaceDipole).magneticFieldTimeDerivative x y +
      b • (⟨m, m2, l⟩ : HalfspaceDipole).magneticFieldTimeDerivative x y ∧
    (⟨m, a * m1 + b * m2, l⟩ : HalfspaceDipole).magneticFluxTimeDerivative x y =
      a • (⟨m, m1, l⟩ : HalfspaceDipole).magneticFluxTimeDerivative x y +
      b • (⟨m, m2, l⟩ : HalfspaceDipole).magneticFluxTimeDerivative x y := by
  refine ⟨?_, ?_, ?_, ?_⟩ <;>
    simp only [HalfspaceDipole.magneticField, HalfspaceDipole.magneticFluxDensity, HalfspaceDipole.magneticFieldTimeDerivative,
      HalfspaceDipole.magneticFluxTimeDerivative, dipoleField, dipoleFieldTimeDeriv] <;>
    ext <;> simp only [V3.add_x, V3.add_y, V3.add_z, V3.smul_x, V3.smul_y, V3.smul_z, smul_eq_mul] <;> ring

end Verif.Tdem
