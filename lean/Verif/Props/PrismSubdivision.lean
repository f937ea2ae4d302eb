import Verif.Lemmas.PrismEval
import Mathlib.Tactic.IntervalCases

/-! # C21, C22: subdivision and symmetry of prism responses -/

namespace Verif.Prism

open Real

/-! ### Specification: cutting a box -/

/-- Cut a box at `x = c`. -/
def Box.cutX (b : Box) (c : ℝ) : Box × Box :=
  (⟨b.min, ⟨c, b.max.y, b.max.z⟩⟩, ⟨⟨c, b.min.y, b.min.z⟩, b.max⟩)

/-- Cut a box at `y = c`. -/
def Box.cutY (b : Box) (c : ℝ) : Box × Box :=
  (⟨b.min, ⟨b.max.x, c, b.max.z⟩⟩, ⟨⟨b.min.x, c, b.min.z⟩, b.max⟩)

/-- Cut a box at `z = c`. -/
def Box.cutZ (b : Box) (c : ℝ) : Box × Box :=
  (⟨b.min, ⟨b.max.x, b.max.y, c⟩⟩, ⟨⟨b.min.x, b.min.y, c⟩, b.max⟩)

/-- Cut a box repeatedly with `cut` at a list of positions, from the lower end upwards. -/
def slabs (cut : Box → ℝ → Box × Box) : Box → List ℝ → List Box
  | b, [] => [b]
  | b, c :: cs => (cut b c).1 :: slabs cut (cut b c).2 cs

/-- The cells of the tensor mesh obtained by cutting a box along all three axes. -/
def cells (b : Box) (xs ys zs : List ℝ) : List Box :=
  (slabs Box.cutX b xs).flatMap fun b1 =>
    (slabs Box.cutY b1 ys).flatMap fun b2 => slabs Box.cutZ b2 zs

/-- A response is additive if cutting the box in two along any axis splits it into a sum. -/
def Additive {α : Type*} [Add α] (Φ : Box → α) : Prop :=
  ∀ b c, Φ (b.cutX c).1 + Φ (b.cutX c).2 = Φ b ∧ Φ (b.cutY c).1 + Φ (b.cutY c).2 = Φ b ∧
    Φ (b.cutZ c).1 + Φ (b.cutZ c).2 = Φ b

private theorem sum_slabs {α : Type*} [AddCommMonoid α] (Φ : Box → α) (cut : Box → ℝ → Box × Box)
    (h : ∀ b c, Φ (cut b c).1 + Φ (cut b c).2 = Φ b) (b : Box) (cs : List ℝ) :
    ((slabs cut b cs).map Φ).sum = Φ b := by
  induction cs generalizing b with
  | nil => simp [slabs]
  | cons c cs ih => simp only [slabs, List.map_cons, List.sum_cons, ih, h]

private theorem sum_flatMap {α : Type*} [AddCommMonoid α] (Φ : Box → α) (g : Box → List Box)
    (h : ∀ b, ((g b).map Φ).sum = Φ b) (l : List Box) :
    ((l.flatMap g).map Φ).sum = (l.map Φ).sum := by
  induction l with
  | nil => rfl
  | cons b l ih => simp only [List.flatMap_cons, List.map_append, List.sum_append, ih, h,
      List.map_cons, List.sum_cons]

/-- An additive response over any tensor-mesh subdivision sums to the response of the whole box. -/
private theorem Additive.cells {α : Type*} [AddCommMonoid α] {Φ : Box → α} (h : Additive Φ) (b : Box)
    (xs ys zs : List ℝ) : ((cells b xs ys zs).map Φ).sum = Φ b := by
  unfold Prism.cells
  rw [sum_flatMap, sum_slabs _ _ (fun b c => (h b c).1)]
  intro b
  rw [sum_flatMap, sum_slabs _ _ (fun b c => (h b c).2.1)]
  intro b
  exact sum_slabs _ _ (fun b c => (h b c).2.2) b zs

private theorem evalDefInt_additive (f : ℝ → ℝ → ℝ → ℝ) (p : V3 ℝ) (n : ℕ) (hn : n < 3) :
    ∀ (b : Box) (c : ℝ),
      (b.cutX c).1.evalDefInt f p n + (b.cutX c).2.evalDefInt f p n = b.evalDefInt f p n ∧
      (b.cutY c).1.evalDefInt f p n + (b.cutY c).2.evalDefInt f p n = b.evalDefInt f p n ∧
      (b.cutZ c).1.evalDefInt f p n + (b.cutZ c).2.evalDefInt f p n = b.evalDefInt f p n := by
  intro b c
  interval_cases n <;>
    simp only [Box.evalDefInt, cycleN, Box.cutX, Box.cutY, Box.cutZ] <;>
    refine ⟨?_, ?_, ?_⟩ <;> ring

/-- **C21.** Gravity: over any tensor-mesh subdivision of a prism (any number of cuts at any positions along each
axis), potentials, fields and gradient tensors of the cells add up to those of the whole prism, at every
observation point. -/
theorem gravPrism_additive (b : Box) (rho : ℝ) (p : V3 ℝ) (xs ys zs : List ℝ) :
    ((cells b xs ys zs).map fun c => (GravPrism.mk c rho).gravitationalPotential p).sum =
      (GravPrism.mk b rho).gravitationalPotential p ∧
    ((cells b xs ys zs).map fun c => (GravPrism.mk c rho).gravitationalField p).sum =
      (GravPrism.mk b rho).gravitationalField p ∧
    ((cells b xs ys zs).map fun c => (GravPrism.mk c rho).gravitationalGradient p).sum =
      (GravPrism.mk b rho).gravitationalGradient p := by
  have A := fun f n hn => evalDefInt_additive f p n hn
  refine ⟨Additive.cells ?_ b xs ys zs, Additive.cells ?_ b xs ys zs, Additive.cells ?_ b xs ys zs⟩
  · intro b c
    obtain ⟨h1, h2, h3⟩ := A Py.prismF 0 (by norm_num) b c
    simp only [GravPrism.gravitationalPotential]
    refine ⟨?_, ?_, ?_⟩
    · rw [← h1]; ring
    · rw [← h2]; ring
    · rw [← h3]; ring
  · intro b c
    obtain ⟨h1, h2, h3⟩ := A Py.prismFz 0 (by norm_num) b c
    obtain ⟨k1, k2, k3⟩ := A Py.prismFz 1 (by norm_num) b c
    obtain ⟨l1, l2, l3⟩ := A Py.prismFz 2 (by norm_num) b c
    simp only [GravPrism.gravitationalField]
    refine ⟨?_, ?_, ?_⟩
    · rw [← h1, ← k1, ← l1]; ext <;> simp <;> ring
    · rw [← h2, ← k2, ← l2]; ext <;> simp <;> ring
    · rw [← h3, ← k3, ← l3]; ext <;> simp <;> ring
  · intro b c
    obtain ⟨h1, h2, h3⟩ := A Py.prismFzz 0 (by norm_num) b c
    obtain ⟨k1, k2, k3⟩ := A Py.prismFzz 1 (by norm_num) b c
    obtain ⟨l1, l2, l3⟩ := A Py.prismFzz 2 (by norm_num) b c
    obtain ⟨m1, m2, m3⟩ := A Py.prismFzx 0 (by norm_num) b c
    obtain ⟨n1, n2, n3⟩ := A Py.prismFzx 1 (by norm_num) b c
    obtain ⟨o1, o2, o3⟩ := A Py.prismFzy 0 (by norm_num) b c
    simp only [GravPrism.gravitationalGradient]
    refine ⟨?_, ?_, ?_⟩
    · rw [← h1, ← k1, ← l1, ← m1, ← n1, ← o1]; ext <;> simp <;> ring
    · rw [← h2, ← k2, ← l2, ← m2, ← n2, ← o2]; ext <;> simp <;> ring
    · rw [← h3, ← k3, ← l3, ← m3, ← n3, ← o3]; ext <;> simp <;> ring

/-- **C21.** Magnetics: scalar potential, field `H` and field gradient add up in the same way. -/
theorem magPrism_additive (b : Box) (m : V3 ℝ) (p : V3 ℝ) (xs ys zs : List ℝ) :
    ((cells b xs ys zs).map fun c => (MagPrism.mk c m).scalarPotential p).sum =
      (MagPrism.mk b m).scalarPotential p ∧
    ((cells b xs ys zs).map fun c => (MagPrism.mk c m).magneticField p).sum =
      (MagPrism.mk b m).magneticField p ∧
    ((cells b xs ys zs).map fun c => (MagPrism.mk c m).magneticFieldGradient p).sum =
      (MagPrism.mk b m).magneticFieldGradient p := by
  have A := fun f n hn => evalDefInt_additive f p n hn
  refine ⟨Additive.cells ?_ b xs ys zs, Additive.cells ?_ b xs ys zs, Additive.cells ?_ b xs ys zs⟩
  · intro b c
    obtain ⟨h1, h2, h3⟩ := A Py.prismFz 0 (by norm_num) b c
    obtain ⟨k1, k2, k3⟩ := A Py.prismFz 1 (by norm_num) b c
    obtain ⟨l1, l2, l3⟩ := A Py.prismFz 2 (by norm_num) b c
    simp only [MagPrism.scalarPotential]
    generalize (-1.0 / (4 * π) : ℝ) = k
    refine ⟨?_, ?_, ?_⟩
    · rw [← h1, ← k1, ← l1]; ring
    · rw [← h2, ← k2, ← l2]; ring
    · rw [← h3, ← k3, ← l3]; ring
  · intro b c
    obtain ⟨h1, h2, h3⟩ := A Py.prismFzz 0 (by norm_num) b c
    obtain ⟨k1, k2, k3⟩ := A Py.prismFzz 1 (by norm_num) b c
    obtain ⟨l1, l2, l3⟩ := A Py.prismFzz 2 (by norm_num) b c
    obtain ⟨m1, m2, m3⟩ := A Py.prismFzx 0 (by norm_num) b c
    obtain ⟨n1, n2, n3⟩ := A Py.prismFzx 1 (by norm_num) b c
    obtain ⟨o1, o2, o3⟩ := A Py.prismFzy 0 (by norm_num) b c
    simp only [MagPrism.magneticField]
    generalize (-1.0 / (4 * π) : ℝ) = k
    refine ⟨?_, ?_, ?_⟩
    · rw [← h1, ← k1, ← l1, ← m1, ← n1, ← o1]; ext <;> simp <;> ring
    · rw [← h2, ← k2, ← l2, ← m2, ← n2, ← o2]; ext <;> simp <;> ring
    · rw [← h3, ← k3, ← l3, ← m3, ← n3, ← o3]; ext <;> simp <;> ring
  · intro b c
    obtain ⟨a1, a2, a3⟩ := A Py.prismFzzz 0 (by norm_num) b c
    obtain ⟨b1, b2, b3⟩ := A Py.prismFzzz 1 (by norm_num) b c
    obtain ⟨c1, c2, c3⟩ := A Py.prismFzzz 2 (by norm_num) b c
    obtain ⟨d1, d2, d3⟩ := A Py.prismFxxy 0 (by norm_num) b c
    obtain ⟨e1, e2, e3⟩ := A Py.prismFxxy 1 (by norm_num) b c
    obtain ⟨f1, f2, f3⟩ := A Py.prismFxxy 2 (by norm_num) b c
    obtain ⟨g1, g2, g3⟩ := A Py.prismFxxz 0 (by norm_num) b c
    obtain ⟨h1, h2, h3⟩ := A Py.prismFxxz 1 (by norm_num) b c
    obtain ⟨i1, i2, i3⟩ := A Py.prismFxxz 2 (by norm_num) b c
    obtain ⟨j1, j2, j3⟩ := A Py.prismFxyz 0 (by norm_num) b c
    simp only [MagPrism.magneticFieldGradient]
    generalize (-1.0 / (4 * π) : ℝ) = k
    refine ⟨?_, ?_, ?_⟩
    · rw [← a1, ← b1, ← c1, ← d1, ← e1, ← f1, ← g1, ← h1, ← i1, ← j1]; ext <;> simp <;> ring
    · rw [← a2, ← b2, ← c2, ← d2, ← e2, ← f2, ← g2, ← h2, ← i2, ← j2]; ext <;> simp <;> ring
    · rw [← a3, ← b3, ← c3, ← d3, ← e3, ← f3, ← g3, ← h3, ← i3, ← j3]; ext <;> simp <;> ring

/-- Non-vacuity: a 2×2×2 mesh has eight cells. -/
example (b : Box) : (cells b [1] [1] [1]).length = 8 := by simp [cells, slabs]

/-! ### Symmetries -/

/-- Relabel the axes cyclically: the new `x` axis is the old `y` axis, and so on. -/
def rot (v : V3 ℝ) : V3 ℝ := ⟨v.y, v.z, v.x⟩

/-- Relabel the axes of a box. -/
def Box.rot (b : Box) : Box := ⟨Prism.rot b.min, Prism.rot b.max⟩

/-- Mirror in the plane `x = 0`. -/
def mirror (v : V3 ℝ) : V3 ℝ := ⟨-v.x, v.y, v.z⟩

/-- Mirror a box in the plane `x = 0`. -/
def Box.mirror (b : Box) : Box := ⟨⟨-b.max.x, b.min.y, b.min.z⟩, ⟨-b.min.x, b.max.y, b.max.z⟩⟩

/-- Translate a box. -/
def Box.shift (b : Box) (d : V3 ℝ) : Box := ⟨b.min + d, b.max + d⟩

private theorem evalDefInt_rot (b : Box) (f : ℝ → ℝ → ℝ → ℝ) (p : V3 ℝ) :
    b.rot.evalDefInt f (rot p) 0 = b.evalDefInt f p 1 ∧
    b.rot.evalDefInt f (rot p) 1 = b.evalDefInt f p 2 ∧
    b.rot.evalDefInt f (rot p) 2 = b.evalDefInt f p 0 := by
  simp only [Box.evalDefInt, cycleN, Box.rot, Prism.rot, and_self]

private theorem prismF_cyc (x y z : ℝ) : Py.prismF y z x = Py.prismF x y z := by
  by_cases hx : x = 0
  · subst hx
    unfold Py.prismF
    rw [show y * y + z * z + 0 * 0 = 0 * 0 + y * y + z * z by ring]
    simp
  by_cases hy : y = 0
  · subst hy
    unfold Py.prismF
    rw [show 0 * 0 + z * z + x * x = x * x + 0 * 0 + z * z by ring]
    simp [mul_comm, and_left_comm]
  by_cases hz : z = 0
  · subst hz
    unfold Py.prismF
    rw [show y * y + 0 * 0 + x * x = x * x + y * y + 0 * 0 by ring]
    simp [mul_comm, and_left_comm]
  rw [prismF_eq hx hy hz, prismF_eq hy hz hx]
  ring

/-- **C22.** Relabelling the axes of prism and observer cyclically leaves the potential unchanged and permutes the
field components, at every point. -/
theorem gravPrism_rot (b : Box) (rho : ℝ) (p : V3 ℝ) :
    (GravPrism.mk b.rot rho).gravitationalPotential (rot p) =
      (GravPrism.mk b rho).gravitationalPotential p ∧
    (GravPrism.mk b.rot rho).gravitationalField (rot p) =
      rot ((GravPrism.mk b rho).gravitationalField p) := by
  constructor
  · simp only [GravPrism.gravitationalPotential]
    rw [(evalDefInt_rot b _ p).1, evalDefInt_cycle1]
    simp only [prismF_cyc]
  · obtain ⟨h0, h1, h2⟩ := evalDefInt_rot b Py.prismFz p
    simp only [GravPrism.gravitationalField, h0, h1, h2]
    rfl

/-- **C22.** Translating prism and observer together changes nothing. -/
theorem gravPrism_shift (b : Box) (rho : ℝ) (p d : V3 ℝ) :
    (GravPrism.mk (b.shift d) rho).gravitationalPotential (p + d) =
      (GravPrism.mk b rho).gravitationalPotential p ∧
    (GravPrism.mk (b.shift d) rho).gravitationalField (p + d) =
      (GravPrism.mk b rho).gravitationalField p ∧
    (GravPrism.mk (b.shift d) rho).gravitationalGradient (p + d) =
      (GravPrism.mk b rho).gravitationalGradient p := by
  have key : ∀ f n, (b.shift d).evalDefInt f (p + d) n = b.evalDefInt f p n := by
    intro f n
    simp only [Box.evalDefInt, Box.shift, V3.add_x, V3.add_y, V3.add_z, add_sub_add_right_eq_sub]
  simp only [GravPrism.gravitationalPotential, GravPrism.gravitationalField,
    GravPrism.gravitationalGradient, key, and_self]

private theorem lg_neg {x y z : ℝ} (hy : y ≠ 0) : lg (-x) y z = log (y * y + z * z) - lg x y z := by
  have h1 : 0 < x + rr x y z := add_rr_pos hy
  have h2 : 0 < -x + rr (-x) y z := add_rr_pos hy
  have e : rr (-x) y z = rr x y z := by unfold rr; congr 1; ring
  unfold lg
  rw [eq_sub_iff_add_eq, ← log_mul h2.ne' h1.ne', e]
  congr 1
  have := rr_sq x y z
  linear_combination this

/-- **C22.** Mirroring prism and observer in a coordinate plane leaves the potential unchanged (observer off the
face planes). -/
theorem gravPrism_mirror (b : Box) (rho : ℝ) (p : V3 ℝ) (hp : b.OffPlanes p) :
    (GravPrism.mk b.mirror rho).gravitationalPotential (mirror p) =
      (GravPrism.mk b rho).gravitationalPotential p := by
  have e1 : b.mirror.evalDefInt Py.prismF (mirror p) 0 =
      b.evalDefInt (fun x y z => - Py.prismF (-x) y z) p 0 := by
    simp only [Box.evalDefInt, Box.mirror, mirror, cycleN]
    rw [show -b.max.x - -p.x = -(b.max.x - p.x) by ring, show -b.min.x - -p.x = -(b.min.x - p.x) by ring]
    ring
  have e2 : b.evalDefInt (fun x y z => - Py.prismF (-x) y z) p 0 =
      b.evalDefInt (fun x y z => Py.prismF x y z + y * z * log (y * y + z * z)) p 0 := by
    refine evalDefInt_congr b p hp fun x y z hx hy hz => ?_
    rw [prismF_eq (neg_ne_zero.2 hx) hy hz, prismF_eq hx hy hz, lg_neg hy]
    have r1 : ∀ a b c : ℝ, rr a (-b) c = rr a b c := by intro a b c; unfold rr; congr 1; ring
    have r2 : ∀ a b c : ℝ, rr a b (-c) = rr a b c := by intro a b c; unfold rr; congr 1; ring
    have r3 : ∀ a b c : ℝ, rr (-a) b c = rr a b c := by intro a b c; unfold rr; congr 1; ring
    have l1 : lg z (-x) y = lg z x y := by unfold lg; rw [r1]
    have l2 : lg y z (-x) = lg y z x := by unfold lg; rw [r2]
    have a1 : at' y z (-x) = - at' y z x := by
      unfold at'; rw [← arctan_neg, r2]; congr 1; rw [neg_mul, div_neg]
    have a2 : at' z (-x) y = - at' z x y := by
      unfold at'; rw [← arctan_neg, r1]; congr 1; rw [mul_neg, neg_div]
    have a3 : at' (-x) y z = - at' x y z := by
      unfold at'; rw [← arctan_neg, r3]; congr 1; rw [neg_mul, neg_div]
    rw [l1, l2, a1, a2, a3]
    ring
  simp only [GravPrism.gravitationalPotential]
  rw [e1, e2, evalDefInt_add, evalDefInt_yz b (fun y z => y * z * log (y * y + z * z)), add_zero]

end Verif.Prism
