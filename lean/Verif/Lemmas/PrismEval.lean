import Verif.Model.Prism
import Verif.Lemmas.PrismCalc

/-! # The eight-corner sum: linearity, relabelling, differentiation (helper lemmas) -/

namespace Verif.Prism

open Real

/-- The observation point lies on none of the six planes through the faces. -/
def Box.OffPlanes (b : Box) (p : V3 ℝ) : Prop :=
  (b.min.x - p.x ≠ 0 ∧ b.min.y - p.y ≠ 0 ∧ b.min.z - p.z ≠ 0) ∧
  (b.max.x - p.x ≠ 0 ∧ b.max.y - p.y ≠ 0 ∧ b.max.z - p.z ≠ 0)

/-- Two kernels that agree off the coordinate planes have the same corner sum off the face planes. -/
theorem evalDefInt_congr (b : Box) {f g : ℝ → ℝ → ℝ → ℝ} (p : V3 ℝ) (hp : b.OffPlanes p)
    (h : ∀ x y z, x ≠ 0 → y ≠ 0 → z ≠ 0 → f x y z = g x y z) :
    b.evalDefInt f p 0 = b.evalDefInt g p 0 := by
  obtain ⟨⟨h1, h2, h3⟩, h4, h5, h6⟩ := hp
  simp only [Box.evalDefInt, cycleN]
  rw [h _ _ _ h4 h5 h6, h _ _ _ h4 h5 h3, h _ _ _ h4 h2 h6, h _ _ _ h4 h2 h3, h _ _ _ h1 h5 h6,
    h _ _ _ h1 h5 h3, h _ _ _ h1 h2 h6, h _ _ _ h1 h2 h3]

theorem evalDefInt_cycle1 (b : Box) (f : ℝ → ℝ → ℝ → ℝ) (p : V3 ℝ) :
    b.evalDefInt f p 1 = b.evalDefInt (fun x y z => f y z x) p 0 := by
  simp only [Box.evalDefInt, cycleN]; ring

theorem evalDefInt_cycle2 (b : Box) (f : ℝ → ℝ → ℝ → ℝ) (p : V3 ℝ) :
    b.evalDefInt f p 2 = b.evalDefInt (fun x y z => f z x y) p 0 := by
  simp only [Box.evalDefInt, cycleN]; ring

theorem evalDefInt_add (b : Box) (f g : ℝ → ℝ → ℝ → ℝ) (p : V3 ℝ) :
    b.evalDefInt (fun x y z => f x y z + g x y z) p 0 = b.evalDefInt f p 0 + b.evalDefInt g p 0 := by
  simp only [Box.evalDefInt, cycleN]; ring

theorem evalDefInt_sub (b : Box) (f g : ℝ → ℝ → ℝ → ℝ) (p : V3 ℝ) :
    b.evalDefInt (fun x y z => f x y z - g x y z) p 0 = b.evalDefInt f p 0 - b.evalDefInt g p 0 := by
  simp only [Box.evalDefInt, cycleN]; ring

theorem evalDefInt_neg (b : Box) (f : ℝ → ℝ → ℝ → ℝ) (p : V3 ℝ) :
    b.evalDefInt (fun x y z => - f x y z) p 0 = - b.evalDefInt f p 0 := by
  simp only [Box.evalDefInt, cycleN]; ring

/-- A kernel that ignores one coordinate contributes nothing. -/
theorem evalDefInt_xy (b : Box) (f : ℝ → ℝ → ℝ) (p : V3 ℝ) :
    b.evalDefInt (fun x y _ => f x y) p 0 = 0 := by
  simp only [Box.evalDefInt, cycleN]; ring

theorem evalDefInt_yz (b : Box) (f : ℝ → ℝ → ℝ) (p : V3 ℝ) :
    b.evalDefInt (fun _ y z => f y z) p 0 = 0 := by
  simp only [Box.evalDefInt, cycleN]; ring

theorem evalDefInt_xz (b : Box) (f : ℝ → ℝ → ℝ) (p : V3 ℝ) :
    b.evalDefInt (fun x _ z => f x z) p 0 = 0 := by
  simp only [Box.evalDefInt, cycleN]; ring

/-- Differentiating the corner sum with respect to the observation point. -/
theorem hasGrad_evalDefInt (b : Box) {f fx fy fz : ℝ → ℝ → ℝ → ℝ}
    (h : ∀ x y z, x ≠ 0 → y ≠ 0 → z ≠ 0 → KGrad f (fx x y z) (fy x y z) (fz x y z) x y z)
    (p : V3 ℝ) (hp : b.OffPlanes p) :
    HasGrad (fun q => b.evalDefInt f q 0)
      ⟨-b.evalDefInt fx p 0, -b.evalDefInt fy p 0, -b.evalDefInt fz p 0⟩ p := by
  obtain ⟨⟨h1, h2, h3⟩, h4, h5, h6⟩ := hp
  intro v
  have key : ∀ x y z : ℝ, x - p.x ≠ 0 → y - p.y ≠ 0 → z - p.z ≠ 0 →
      HasDerivAt (fun t : ℝ => f (x - (p + t • v).x) (y - (p + t • v).y) (z - (p + t • v).z))
        (-(v.x * fx (x - p.x) (y - p.y) (z - p.z) + v.y * fy (x - p.x) (y - p.y) (z - p.z)
          + v.z * fz (x - p.x) (y - p.y) (z - p.z))) 0 := by
    intro x y z hx hy hz
    have hk := h _ _ _ hx hy hz (-v.x) (-v.y) (-v.z)
    refine (hk.congr_of_eventuallyEq (Filter.Eventually.of_forall fun t => ?_)).congr_deriv (by ring)
    simp only [V3.add_x, V3.add_y, V3.add_z, V3.smul_x, V3.smul_y, V3.smul_z, smul_eq_mul]
    congr 1 <;> ring
  simp only [Box.evalDefInt, cycleN]
  refine ((((((((key _ _ _ h4 h5 h6).sub (key _ _ _ h4 h5 h3)).sub (key _ _ _ h4 h2 h6)).add
    (key _ _ _ h4 h2 h3)).sub (key _ _ _ h1 h5 h6)).add (key _ _ _ h1 h5 h3)).add
    (key _ _ _ h1 h2 h6)).sub (key _ _ _ h1 h2 h3)).congr_deriv ?_
  simp only [V3.app, smul_eq_mul]
  ring

/-! ### The kernels off the coordinate planes -/

/-- `log (x + r)`. -/
noncomputable def lg (x y z : ℝ) : ℝ := log (x + rr x y z)

/-- `arctan (x y / (z r))`. -/
noncomputable def at' (x y z : ℝ) : ℝ := arctan (x * y / (z * rr x y z))

theorem lg_swap (x y z : ℝ) : lg x z y = lg x y z := by
  unfold lg rr; congr 3; ring

theorem at_swap (x y z : ℝ) : at' y x z = at' x y z := by
  unfold at'; rw [rr_swap, mul_comm y x]

variable {x y z : ℝ}

theorem rr1 (x y z : ℝ) : rr y z x = rr x y z := rr_cyc x y z
theorem rr2 (x y z : ℝ) : rr z x y = rr x y z := by rw [← rr_cyc, ← rr_cyc]
theorem rr3 (x y z : ℝ) : rr x z y = rr x y z := by unfold rr; congr 1; ring

theorem kgrad_lg (hy : y ≠ 0) :
    KGrad lg (1 / rr x y z) (y * (rr x y z - x) / (rr x y z * (y * y + z * z)))
      (z * (rr x y z - x) / (rr x y z * (y * y + z * z))) x y z :=
  kgrad_log_x hy (add_rr_pos hy) (by rw [← rr_cyc]; exact (rr_pos hy).ne')

theorem kgrad_at (hz : z ≠ 0) :
    KGrad at' (y * z / (rr x y z * (x * x + z * z))) (x * z / (rr x y z * (y * y + z * z)))
      (-(x * y) / rr x y z * (1 / (x * x + z * z) + 1 / (y * y + z * z))) x y z :=
  kgrad_atan hz

theorem prismF_eq (hx : x ≠ 0) (hy : y ≠ 0) (hz : z ≠ 0) :
    Py.prismF x y z = -(x * y * lg z x y) - y * z * lg x y z - x * z * lg y z x
      + 0.5 * x * x * at' y z x + 0.5 * y * y * at' z x y + 0.5 * z * z * at' x y z := by
  have h1 : 0 < z + rr x y z := by rw [← rr2]; exact add_rr_pos hx
  have h2 : 0 < x + rr x y z := add_rr_pos hy
  have h3 : 0 < y + rr x y z := by rw [← rr1]; exact add_rr_pos hz
  unfold Py.prismF lg at'
  change 0 < z + √(x * x + y * y + z * z) at h1
  change 0 < x + √(x * x + y * y + z * z) at h2
  change 0 < y + √(x * x + y * y + z * z) at h3
  simp only [ne_eq, hx, hy, hz, not_false_eq_true, gt_iff_lt, h1, h2, h3, and_self, if_true]
  rw [rr1 x y z, rr2 x y z, mul_comm z x]
  simp only [rr]
  ring

theorem prismFz_eq (hx : x ≠ 0) (hy : y ≠ 0) (hz : z ≠ 0) :
    Py.prismFz x y z = x * lg y z x + y * lg x y z - z * at' x y z := by
  have h2 : 0 < x + rr x y z := add_rr_pos hy
  have h3 : 0 < y + rr x y z := by rw [← rr1]; exact add_rr_pos hz
  unfold Py.prismFz lg at'
  change 0 < x + √(x * x + y * y + z * z) at h2
  change 0 < y + √(x * x + y * y + z * z) at h3
  simp only [ne_eq, hx, hy, hz, not_false_eq_true, gt_iff_lt, h2, h3, and_self, if_true]
  rw [rr1 x y z]
  simp only [rr]
  ring

theorem prismFzz_eq (hz : z ≠ 0) : Py.prismFzz x y z = at' x y z := by
  unfold Py.prismFzz at' rr; simp [hz]

theorem prismFzx_eq (hz : z ≠ 0) : Py.prismFzx x y z = -lg y z x := by
  have h3 : 0 < y + rr x y z := by rw [← rr1]; exact add_rr_pos hz
  unfold Py.prismFzx lg
  change 0 < y + √(x * x + y * y + z * z) at h3
  simp only [ne_eq, h3.ne', not_false_eq_true, if_true]
  rw [rr1 x y z]; rfl

theorem prismFzy_eq (hy : y ≠ 0) : Py.prismFzy x y z = -lg x y z := by
  have h3 : 0 < x + rr x y z := add_rr_pos hy
  unfold Py.prismFzy lg
  change 0 < x + √(x * x + y * y + z * z) at h3
  simp only [ne_eq, h3.ne', not_false_eq_true, if_true]
  rfl

theorem sq_add_ne (h : x ≠ 0) (y : ℝ) : x * x + y * y ≠ 0 := by
  have h1 := mul_self_pos.2 h
  have h2 := mul_self_nonneg y
  linarith

theorem sq_add_ne' (h : x ≠ 0) (y : ℝ) : y * y + x * x ≠ 0 := by
  have h1 := mul_self_pos.2 h
  have h2 := mul_self_nonneg y
  linarith

theorem prismFzzz_eq (hx : x ≠ 0) (hz : z ≠ 0) :
    Py.prismFzzz x y z = (1 / (x * x + z * z) + 1 / (y * y + z * z)) * (x * y / rr x y z) := by
  unfold Py.prismFzzz
  have hr : √(x * x + y * y + z * z) ≠ 0 := (rr_pos hx).ne'
  simp only [ne_eq, hr, sq_add_ne hx z, sq_add_ne' hz y, not_false_eq_true, if_true]
  rfl

theorem prismFxxy_eq (hx : x ≠ 0) :
    Py.prismFxxy x y z = -(x * z) / (rr x y z * (x * x + y * y)) := by
  unfold Py.prismFxxy
  have hr : √(x * x + y * y + z * z) ≠ 0 := (rr_pos hx).ne'
  simp only [ne_eq, hr, sq_add_ne hx y, not_false_eq_true, if_true, rr]
  field_simp

theorem prismFxxz_eq (hx : x ≠ 0) :
    Py.prismFxxz x y z = -(x * y) / (rr x y z * (x * x + z * z)) := by
  unfold Py.prismFxxz
  have hr : √(x * x + y * y + z * z) ≠ 0 := (rr_pos hx).ne'
  simp only [ne_eq, hr, sq_add_ne hx z, not_false_eq_true, if_true, rr]
  field_simp

theorem prismFxyz_eq (hx : x ≠ 0) : Py.prismFxyz x y z = 1 / rr x y z := by
  unfold Py.prismFxyz
  have hr : √(x * x + y * y + z * z) ≠ 0 := (rr_pos hx).ne'
  simp only [ne_eq, hr, not_false_eq_true, if_true]
  rfl

/-- Derivatives of `prism_f`: minus the cycled `prism_fz`, up to terms that ignore one coordinate. -/
theorem kgrad_prismF (x y z : ℝ) (hx : x ≠ 0) (hy : y ≠ 0) (hz : z ≠ 0) :
    KGrad Py.prismF
      (-Py.prismFz y z x + (-(x * x * y / (x * x + y * y))) + (-(x * x * z / (x * x + z * z))))
      (-Py.prismFz z x y + (-(y * y * x / (x * x + y * y))) + (-(y * y * z / (y * y + z * z))))
      (-Py.prismFz x y z + (-(z * z * x / (x * x + z * z))) + (-(z * z * y / (y * y + z * z))))
      x y z := by
  have hL1 := kgrad_lg (x := x) (z := z) hy
  have hL2 := (kgrad_lg (x := y) (y := z) (z := x) hz).cyc
  have hL3 := (kgrad_lg (x := z) (y := x) (z := y) hx).cyc.cyc
  have hA1 := (kgrad_at (x := y) (y := z) (z := x) hx).cyc
  have hA2 := (kgrad_at (x := z) (y := x) (z := y) hy).cyc.cyc
  have hA3 := kgrad_at (x := x) (y := y) hz
  have X := kgrad_x x y z
  have Y := kgrad_y x y z
  have Z := kgrad_z x y z
  have C := kgrad_const 0.5 x y z
  have h := ((((((X.mul Y).mul hL3).neg.sub ((Y.mul Z).mul hL1)).sub ((X.mul Z).mul hL2)).add
    (((C.mul X).mul X).mul hA1)).add (((C.mul Y).mul Y).mul hA2)).add (((C.mul Z).mul Z).mul hA3)
  have hr : rr x y z ≠ 0 := (rr_pos hx).ne'
  have hxy := sq_add_ne hx y
  have hxz := sq_add_ne hx z
  have hyz := sq_add_ne hy z
  have hxy' := sq_add_ne hy x
  have hxz' := sq_add_ne hz x
  have hyz' := sq_add_ne hz y
  refine (KGrad.congr_deriv h ?_ ?_ ?_).congr_fun (fun x y z hx hy hz => prismF_eq hx hy hz) hx hy hz
  · rw [prismFz_eq hy hz hx, rr1 x y z, rr2 x y z, add_comm (y * y) (x * x), add_comm (z * z) (x * x)]
    generalize lg z x y = l1
    generalize lg y z x = l2
    generalize lg x y z = l3
    generalize at' y z x = a1
    generalize at' z x y = a2
    generalize at' x y z = a3
    generalize rr x y z = r at *
    field_simp
    ring
  · rw [prismFz_eq hz hx hy, rr1 x y z, rr2 x y z, add_comm (y * y) (x * x), add_comm (z * z) (y * y)]
    generalize lg z x y = l1
    generalize lg y z x = l2
    generalize lg x y z = l3
    generalize at' y z x = a1
    generalize at' z x y = a2
    generalize at' x y z = a3
    generalize rr x y z = r at *
    field_simp
    ring
  · rw [prismFz_eq hx hy hz, rr1 x y z, rr2 x y z, add_comm (z * z) (y * y), add_comm (z * z) (x * x)]
    generalize lg z x y = l1
    generalize lg y z x = l2
    generalize lg x y z = l3
    generalize at' y z x = a1
    generalize at' z x y = a2
    generalize at' x y z = a3
    generalize rr x y z = r at *
    field_simp
    ring

/-- Derivatives of `prism_fz`: minus `prism_fzx`, `prism_fzy`, `prism_fzz`. -/
theorem kgrad_prismFz (x y z : ℝ) (hx : x ≠ 0) (hy : y ≠ 0) (hz : z ≠ 0) :
    KGrad Py.prismFz
      (-Py.prismFzx x y z + x * x / (x * x + z * z))
      (-Py.prismFzy x y z + y * y / (y * y + z * z))
      (-Py.prismFzz x y z + x * z / (x * x + z * z) + y * z / (y * y + z * z)) x y z := by
  have hL1 := kgrad_lg (x := x) (z := z) hy
  have hL2 := (kgrad_lg (x := y) (y := z) (z := x) hz).cyc
  have hA3 := kgrad_at (x := x) (y := y) hz
  have X := kgrad_x x y z
  have Y := kgrad_y x y z
  have Z := kgrad_z x y z
  have h := ((X.mul hL2).add (Y.mul hL1)).sub (Z.mul hA3)
  have hr : rr x y z ≠ 0 := (rr_pos hx).ne'
  have hxz := sq_add_ne hx z
  have hyz := sq_add_ne hy z
  refine (KGrad.congr_deriv h ?_ ?_ ?_).congr_fun (fun x y z hx hy hz => prismFz_eq hx hy hz) hx hy hz
  · rw [prismFzx_eq hz, rr1 x y z, add_comm (z * z) (x * x)]
    generalize lg y z x = l2
    generalize lg x y z = l3
    generalize at' x y z = a3
    generalize rr x y z = r at *
    field_simp
    ring
  · rw [prismFzy_eq hy, rr1 x y z]
    generalize lg y z x = l2
    generalize lg x y z = l3
    generalize at' x y z = a3
    generalize rr x y z = r at *
    field_simp
    ring
  · rw [prismFzz_eq hz, rr1 x y z, add_comm (z * z) (x * x)]
    generalize lg y z x = l2
    generalize lg x y z = l3
    generalize at' x y z = a3
    generalize rr x y z = r at *
    field_simp
    ring

/-- Derivatives of `prism_fzz`. -/
theorem kgrad_prismFzz (x y z : ℝ) (hx : x ≠ 0) (hy : y ≠ 0) (hz : z ≠ 0) :
    KGrad Py.prismFzz
      (-Py.prismFxxy z x y) (-Py.prismFxxz z x y) (-Py.prismFzzz x y z) x y z := by
  have hr : rr x y z ≠ 0 := (rr_pos hx).ne'
  have hxz := sq_add_ne hx z
  have hyz := sq_add_ne hy z
  refine (KGrad.congr_deriv (kgrad_at (x := x) (y := y) hz) ?_ ?_ ?_).congr_fun
    (fun x y z hx hy hz => prismFzz_eq hz) hx hy hz
  · rw [prismFxxy_eq hz, rr2 x y z, add_comm (z * z) (x * x)]
    field_simp
  · rw [prismFxxz_eq hz, rr2 x y z, add_comm (z * z) (y * y)]
    field_simp
  · rw [prismFzzz_eq hx hz]
    field_simp

/-- Derivatives of `prism_fzx`. -/
theorem kgrad_prismFzx (x y z : ℝ) (hx : x ≠ 0) (hy : y ≠ 0) (hz : z ≠ 0) :
    KGrad Py.prismFzx
      (-Py.prismFxxz x y z + -(x / (x * x + z * z))) (-Py.prismFxyz x y z)
      (-Py.prismFxxy z x y + -(z / (x * x + z * z))) x y z := by
  have hr : rr x y z ≠ 0 := (rr_pos hx).ne'
  have hxz := sq_add_ne hx z
  refine (KGrad.congr_deriv ((kgrad_lg (x := y) (y := z) (z := x) hz).cyc.neg) ?_ ?_ ?_).congr_fun
    (fun x y z hx hy hz => prismFzx_eq hz) hx hy hz
  · rw [prismFxxz_eq hx, rr1 x y z, add_comm (z * z) (x * x)]
    field_simp; ring
  · rw [prismFxyz_eq hx, rr1 x y z]
  · rw [prismFxxy_eq hz, rr1 x y z, rr2 x y z, add_comm (z * z) (x * x)]
    field_simp; ring

/-- Derivatives of `prism_fzy`. -/
theorem kgrad_prismFzy (x y z : ℝ) (hx : x ≠ 0) (hy : y ≠ 0) (hz : z ≠ 0) :
    KGrad Py.prismFzy
      (-Py.prismFxyz x y z) (-Py.prismFxxy y z x + -(y / (y * y + z * z)))
      (-Py.prismFxxz z x y + -(z / (y * y + z * z))) x y z := by
  have hr : rr x y z ≠ 0 := (rr_pos hx).ne'
  have hyz := sq_add_ne hy z
  refine (KGrad.congr_deriv ((kgrad_lg (x := x) (y := y) (z := z) hy).neg) ?_ ?_ ?_).congr_fun
    (fun x y z hx hy hz => prismFzy_eq hy) hx hy hz
  · rw [prismFxyz_eq hx]
  · rw [prismFxxy_eq hy, rr1 x y z]
    field_simp; ring
  · rw [prismFxxz_eq hz, rr2 x y z, add_comm (z * z) (y * y)]
    field_simp; ring

end Verif.Prism
