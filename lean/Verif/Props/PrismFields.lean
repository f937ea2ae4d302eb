import Verif.Lemmas.PrismEval

/-! # C18, C24 (H = ∇φ), C25: derivative relations of the gravity and magnetic prisms -/

namespace Verif.Prism

open Real

/-- Gradient of the cycle-0 sum of `prism_f`. -/
private theorem grad_f (b : Box) (p : V3 ℝ) (hp : b.OffPlanes p) :
    HasGrad (fun q => b.evalDefInt Py.prismF q 0)
      ⟨b.evalDefInt Py.prismFz p 1, b.evalDefInt Py.prismFz p 2, b.evalDefInt Py.prismFz p 0⟩ p := by
  refine (hasGrad_evalDefInt b kgrad_prismF p hp).congr ?_
  ext
  · simp only [evalDefInt_cycle1]
    rw [evalDefInt_add, evalDefInt_add, evalDefInt_neg b (fun x y z => Py.prismFz y z x),
      evalDefInt_xy b (fun x y => -(x * x * y / (x * x + y * y))),
      evalDefInt_xz b (fun x z => -(x * x * z / (x * x + z * z)))]
    ring
  · simp only [evalDefInt_cycle2]
    rw [evalDefInt_add, evalDefInt_add, evalDefInt_neg b (fun x y z => Py.prismFz z x y),
      evalDefInt_xy b (fun x y => -(y * y * x / (x * x + y * y))),
      evalDefInt_yz b (fun y z => -(y * y * z / (y * y + z * z)))]
    ring
  · simp only
    rw [evalDefInt_add, evalDefInt_add, evalDefInt_neg b (fun x y z => Py.prismFz x y z),
      evalDefInt_xz b (fun x z => -(z * z * x / (x * x + z * z))),
      evalDefInt_yz b (fun y z => -(z * z * y / (y * y + z * z)))]
    ring

/-- Relabelled `fzx` is `fzy` cycled (both are `-log` of the same argument). -/
private theorem fzx_fzy (x y z : ℝ) : Py.prismFzx y z x = Py.prismFzy z x y := by
  unfold Py.prismFzx Py.prismFzy
  rw [show y * y + z * z + x * x = z * z + x * x + y * y by ring]

private theorem fzx_fzy' (x y z : ℝ) : Py.prismFzy y z x = Py.prismFzx x y z := by
  unfold Py.prismFzx Py.prismFzy
  rw [show y * y + z * z + x * x = x * x + y * y + z * z by ring]

private theorem fzx_cyc (x y z : ℝ) : Py.prismFzx z x y = Py.prismFzy x y z := by
  unfold Py.prismFzx Py.prismFzy
  rw [show z * z + x * x + y * y = x * x + y * y + z * z by ring]

/-- Gradient of the three sums of `prism_fz`. -/
private theorem grad_fz0 (b : Box) (p : V3 ℝ) (hp : b.OffPlanes p) :
    HasGrad (fun q => b.evalDefInt Py.prismFz q 0)
      ⟨b.evalDefInt Py.prismFzx p 0, b.evalDefInt Py.prismFzy p 0, b.evalDefInt Py.prismFzz p 0⟩ p := by
  refine (hasGrad_evalDefInt b kgrad_prismFz p hp).congr ?_
  ext
  · simp only
    rw [evalDefInt_add, evalDefInt_neg b Py.prismFzx, evalDefInt_xz b (fun x z => x * x / (x * x + z * z))]
    ring
  · simp only
    rw [evalDefInt_add, evalDefInt_neg b Py.prismFzy, evalDefInt_yz b (fun y z => y * y / (y * y + z * z))]
    ring
  · simp only
    rw [evalDefInt_add, evalDefInt_add, evalDefInt_neg b Py.prismFzz,
      evalDefInt_xz b (fun x z => x * z / (x * x + z * z)),
      evalDefInt_yz b (fun y z => y * z / (y * y + z * z))]
    ring

private theorem grad_fz1 (b : Box) (p : V3 ℝ) (hp : b.OffPlanes p) :
    HasGrad (fun q => b.evalDefInt Py.prismFz q 1)
      ⟨b.evalDefInt Py.prismFzz p 1, b.evalDefInt Py.prismFzx p 1, b.evalDefInt Py.prismFzx p 0⟩ p := by
  simp only [evalDefInt_cycle1]
  have hk : ∀ x y z : ℝ, x ≠ 0 → y ≠ 0 → z ≠ 0 → KGrad (fun x y z => Py.prismFz y z x)
      (-Py.prismFzz y z x + y * x / (y * y + x * x) + z * x / (z * z + x * x))
      (-Py.prismFzx y z x + y * y / (y * y + x * x))
      (-Py.prismFzy y z x + z * z / (z * z + x * x)) x y z := fun x y z hx hy hz =>
    (kgrad_prismFz y z x hy hz hx).cyc
  refine (hasGrad_evalDefInt b hk p hp).congr ?_
  ext
  · simp only
    rw [evalDefInt_add, evalDefInt_add, evalDefInt_neg b (fun x y z => Py.prismFzz y z x),
      evalDefInt_xy b (fun x y => y * x / (y * y + x * x)),
      evalDefInt_xz b (fun x z => z * x / (z * z + x * x))]
    ring
  · simp only
    rw [evalDefInt_add, evalDefInt_neg b (fun x y z => Py.prismFzx y z x),
      evalDefInt_xy b (fun x y => y * y / (y * y + x * x))]
    ring
  · simp only
    rw [evalDefInt_add, evalDefInt_neg b (fun x y z => Py.prismFzy y z x),
      evalDefInt_xz b (fun x z => z * z / (z * z + x * x))]
    simp only [fzx_fzy']
    ring

private theorem grad_fz2 (b : Box) (p : V3 ℝ) (hp : b.OffPlanes p) :
    HasGrad (fun q => b.evalDefInt Py.prismFz q 2)
      ⟨b.evalDefInt Py.prismFzx p 1, b.evalDefInt Py.prismFzz p 2, b.evalDefInt Py.prismFzy p 0⟩ p := by
  simp only [evalDefInt_cycle1, evalDefInt_cycle2]
  have hk : ∀ x y z : ℝ, x ≠ 0 → y ≠ 0 → z ≠ 0 → KGrad (fun x y z => Py.prismFz z x y)
      (-Py.prismFzy z x y + x * x / (x * x + y * y))
      (-Py.prismFzz z x y + z * y / (z * z + y * y) + x * y / (x * x + y * y))
      (-Py.prismFzx z x y + z * z / (z * z + y * y)) x y z := fun x y z hx hy hz =>
    (kgrad_prismFz z x y hz hx hy).cyc.cyc
  refine (hasGrad_evalDefInt b hk p hp).congr ?_
  ext
  · simp only
    rw [evalDefInt_add, evalDefInt_neg b (fun x y z => Py.prismFzy z x y),
      evalDefInt_xy b (fun x y => x * x / (x * x + y * y))]
    simp only [fzx_fzy]
    ring
  · simp only
    rw [evalDefInt_add, evalDefInt_add, evalDefInt_neg b (fun x y z => Py.prismFzz z x y),
      evalDefInt_yz b (fun y z => z * y / (z * z + y * y)),
      evalDefInt_xy b (fun x y => x * y / (x * x + y * y))]
    ring
  · simp only
    rw [evalDefInt_add, evalDefInt_neg b (fun x y z => Py.prismFzx z x y),
      evalDefInt_yz b (fun y z => z * z / (z * z + y * y))]
    simp only [fzx_cyc]
    ring

/-- **C18.** The gravitational field of a prism is the gradient of its potential, off the planes of its
faces. -/
theorem gravPrism_field_is_gradient (s : GravPrism) (p : V3 ℝ) (hp : s.box.OffPlanes p) :
    HasGrad s.gravitationalPotential (s.gravitationalField p) p := by
  refine ((grad_f s.box p hp).const_mul (-Gravity.G * s.rho)).congr ?_
  ext <;> simp [GravPrism.gravitationalField]

/-- **C18.** The gradient tensor of a prism is the Jacobian of its field, off the planes of its faces. -/
theorem gravPrism_gradient_is_jacobian (s : GravPrism) (p : V3 ℝ) (hp : s.box.OffPlanes p) :
    HasJac s.gravitationalField (s.gravitationalGradient p) p := by
  refine ⟨?_, ?_, ?_⟩
  · refine ((grad_fz1 s.box p hp).const_mul (-Gravity.G * s.rho)).congr ?_
    ext <;> simp [GravPrism.gravitationalGradient]
  · refine ((grad_fz2 s.box p hp).const_mul (-Gravity.G * s.rho)).congr ?_
    ext <;> simp [GravPrism.gravitationalGradient]
  · refine ((grad_fz0 s.box p hp).const_mul (-Gravity.G * s.rho)).congr ?_
    ext <;> simp [GravPrism.gravitationalGradient]

/-- **C18.** The gradient tensor is symmetric at every point. -/
theorem gravPrism_gradient_symm (s : GravPrism) (p : V3 ℝ) : (s.gravitationalGradient p).IsSymm := by
  unfold M3.IsSymm M3.transpose
  rfl

/-- Non-vacuity of the off-plane hypothesis: an exterior and an interior point of a box. -/
example : ∃ (b : Box) (p q : V3 ℝ), b.min.x < b.max.x ∧ b.min.y < b.max.y ∧ b.min.z < b.max.z ∧
    b.OffPlanes p ∧ b.OffPlanes q ∧ b.max.x < p.x ∧ b.min.x < q.x ∧ q.x < b.max.x :=
  ⟨⟨⟨0, 0, 0⟩, ⟨1, 2, 3⟩⟩, ⟨5, 6, 7⟩, ⟨1/2, 1/2, 1/2⟩, by norm_num, by norm_num, by norm_num,
    by norm_num [Box.OffPlanes], by norm_num [Box.OffPlanes], by norm_num, by norm_num, by norm_num⟩

/-- **C24.** The magnetic field `H` of a magnetised prism is the gradient of its scalar potential, off the
planes of its faces. -/
theorem magPrism_field_is_gradient (s : MagPrism) (p : V3 ℝ) (hp : s.box.OffPlanes p) :
    HasGrad s.scalarPotential (s.magneticField p) p := by
  have h := ((((grad_fz1 s.box p hp).mul_const s.magnetization.x).add
    ((grad_fz2 s.box p hp).mul_const s.magnetization.y)).add
    ((grad_fz0 s.box p hp).mul_const s.magnetization.z)).const_mul (-1.0 / (4 * π))
  refine HasGrad.congr h ?_
  ext <;> simp [MagPrism.magneticField]

/-- Gradients of the second-derivative sums. -/
private theorem grad_fzz0 (b : Box) (p : V3 ℝ) (hp : b.OffPlanes p) :
    HasGrad (fun q => b.evalDefInt Py.prismFzz q 0)
      ⟨b.evalDefInt Py.prismFxxy p 2, b.evalDefInt Py.prismFxxz p 2, b.evalDefInt Py.prismFzzz p 0⟩ p := by
  refine (hasGrad_evalDefInt b kgrad_prismFzz p hp).congr ?_
  simp only [evalDefInt_cycle2]
  ext
  · simp only
    rw [evalDefInt_neg b (fun x y z => Py.prismFxxy z x y)]; ring
  · simp only
    rw [evalDefInt_neg b (fun x y z => Py.prismFxxz z x y)]; ring
  · simp only
    rw [evalDefInt_neg b Py.prismFzzz]; ring

private theorem grad_fzz1 (b : Box) (p : V3 ℝ) (hp : b.OffPlanes p) :
    HasGrad (fun q => b.evalDefInt Py.prismFzz q 1)
      ⟨b.evalDefInt Py.prismFzzz p 1, b.evalDefInt Py.prismFxxy p 0, b.evalDefInt Py.prismFxxz p 0⟩ p := by
  simp only [evalDefInt_cycle1]
  refine (hasGrad_evalDefInt b (fun x y z hx hy hz => (kgrad_prismFzz y z x hy hz hx).cyc) p hp).congr ?_
  ext
  · simp only
    rw [evalDefInt_neg b (fun x y z => Py.prismFzzz y z x)]; ring
  · simp only
    rw [evalDefInt_neg b (fun x y z => Py.prismFxxy x y z)]; ring
  · simp only
    rw [evalDefInt_neg b (fun x y z => Py.prismFxxz x y z)]; ring

private theorem grad_fzz2 (b : Box) (p : V3 ℝ) (hp : b.OffPlanes p) :
    HasGrad (fun q => b.evalDefInt Py.prismFzz q 2)
      ⟨b.evalDefInt Py.prismFxxz p 1, b.evalDefInt Py.prismFzzz p 2, b.evalDefInt Py.prismFxxy p 1⟩ p := by
  simp only [evalDefInt_cycle1, evalDefInt_cycle2]
  refine (hasGrad_evalDefInt b
    (fun x y z hx hy hz => (kgrad_prismFzz z x y hz hx hy).cyc.cyc) p hp).congr ?_
  ext
  · simp only
    rw [evalDefInt_neg b (fun x y z => Py.prismFxxz y z x)]; ring
  · simp only
    rw [evalDefInt_neg b (fun x y z => Py.prismFzzz z x y)]; ring
  · simp only
    rw [evalDefInt_neg b (fun x y z => Py.prismFxxy y z x)]; ring

private theorem grad_fzx0 (b : Box) (p : V3 ℝ) (hp : b.OffPlanes p) :
    HasGrad (fun q => b.evalDefInt Py.prismFzx q 0)
      ⟨b.evalDefInt Py.prismFxxz p 0, b.evalDefInt Py.prismFxyz p 0, b.evalDefInt Py.prismFxxy p 2⟩ p := by
  refine (hasGrad_evalDefInt b kgrad_prismFzx p hp).congr ?_
  simp only [evalDefInt_cycle2]
  ext
  · simp only
    rw [evalDefInt_add, evalDefInt_neg b Py.prismFxxz, evalDefInt_xz b (fun x z => -(x / (x * x + z * z)))]
    ring
  · simp only
    rw [evalDefInt_neg b Py.prismFxyz]; ring
  · simp only
    rw [evalDefInt_add, evalDefInt_neg b (fun x y z => Py.prismFxxy z x y),
      evalDefInt_xz b (fun x z => -(z / (x * x + z * z)))]
    ring

private theorem fxyz_cyc (x y z : ℝ) : Py.prismFxyz y z x = Py.prismFxyz x y z := by
  unfold Py.prismFxyz
  rw [show y * y + z * z + x * x = x * x + y * y + z * z by ring]

private theorem grad_fzx1 (b : Box) (p : V3 ℝ) (hp : b.OffPlanes p) :
    HasGrad (fun q => b.evalDefInt Py.prismFzx q 1)
      ⟨b.evalDefInt Py.prismFxxy p 0, b.evalDefInt Py.prismFxxz p 1, b.evalDefInt Py.prismFxyz p 0⟩ p := by
  simp only [evalDefInt_cycle1]
  refine (hasGrad_evalDefInt b (fun x y z hx hy hz => (kgrad_prismFzx y z x hy hz hx).cyc) p hp).congr ?_
  ext
  · simp only
    rw [evalDefInt_add, evalDefInt_neg b (fun x y z => Py.prismFxxy x y z),
      evalDefInt_xy b (fun x y => -(x / (y * y + x * x)))]
    ring
  · simp only
    rw [evalDefInt_add, evalDefInt_neg b (fun x y z => Py.prismFxxz y z x),
      evalDefInt_xy b (fun x y => -(y / (y * y + x * x)))]
    ring
  · simp only
    rw [evalDefInt_neg b (fun x y z => Py.prismFxyz y z x)]
    simp only [fxyz_cyc]; ring

private theorem grad_fzy0 (b : Box) (p : V3 ℝ) (hp : b.OffPlanes p) :
    HasGrad (fun q => b.evalDefInt Py.prismFzy q 0)
      ⟨b.evalDefInt Py.prismFxyz p 0, b.evalDefInt Py.prismFxxy p 1, b.evalDefInt Py.prismFxxz p 2⟩ p := by
  refine (hasGrad_evalDefInt b kgrad_prismFzy p hp).congr ?_
  simp only [evalDefInt_cycle1, evalDefInt_cycle2]
  ext
  · simp only
    rw [evalDefInt_neg b Py.prismFxyz]; ring
  · simp only
    rw [evalDefInt_add, evalDefInt_neg b (fun x y z => Py.prismFxxy y z x),
      evalDefInt_yz b (fun y z => -(y / (y * y + z * z)))]
    ring
  · simp only
    rw [evalDefInt_add, evalDefInt_neg b (fun x y z => Py.prismFxxz z x y),
      evalDefInt_yz b (fun y z => -(z / (y * y + z * z)))]
    ring

/-- **C25.** The gradient tensor of a magnetised prism is the Jacobian of its magnetic field, off the planes of
its faces. -/
theorem magPrism_gradient_is_jacobian (s : MagPrism) (p : V3 ℝ) (hp : s.box.OffPlanes p) :
    HasJac s.magneticField (s.magneticFieldGradient p) p := by
  refine ⟨?_, ?_, ?_⟩
  · have h := ((((grad_fzz1 s.box p hp).mul_const s.magnetization.x).add
      ((grad_fzx1 s.box p hp).mul_const s.magnetization.y)).add
      ((grad_fzx0 s.box p hp).mul_const s.magnetization.z)).const_mul (-1.0 / (4 * π))
    refine HasGrad.congr h ?_
    ext <;> simp [MagPrism.magneticFieldGradient]
  · have h := ((((grad_fzx1 s.box p hp).mul_const s.magnetization.x).add
      ((grad_fzz2 s.box p hp).mul_const s.magnetization.y)).add
      ((grad_fzy0 s.box p hp).mul_const s.magnetization.z)).const_mul (-1.0 / (4 * π))
    refine HasGrad.congr h ?_
    ext <;> simp [MagPrism.magneticFieldGradient]
  · have h := ((((grad_fzx0 s.box p hp).mul_const s.magnetization.x).add
      ((grad_fzy0 s.box p hp).mul_const s.magnetization.y)).add
      ((grad_fzz0 s.box p hp).mul_const s.magnetization.z)).const_mul (-1.0 / (4 * π))
    refine HasGrad.congr h ?_
    ext <;> simp [MagPrism.magneticFieldGradient]

/-- **C25.** The tensor is symmetric at every point. -/
theorem magPrism_gradient_symm (s : MagPrism) (p : V3 ℝ) : (s.magneticFieldGradient p).IsSymm := by
  unfold M3.IsSymm M3.transpose
  rfl

end Verif.Prism
