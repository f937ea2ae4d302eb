import Verif.Lemmas.PrismTensor
import Verif.Lemmas.BoxIntegral

/-!
# C82: outside a prism its gradient tensor and its magnetic field are the volume integrals they stand for

At every point off the closed prism, also on the extensions of its faces and edges.
-/

namespace Verif.Prism

open Real Set MeasureTheory Gravity

/-- Second derivatives of `1 / |d|`: the matrix `3 d dᵀ / |d|⁵ - I / |d|³`. -/
noncomputable def tidal (d : V3 ℝ) : M3 ℝ :=
  ⟨⟨3 * d.x * d.x / d.len ^ 5 - 1 / d.len ^ 3, 3 * d.x * d.y / d.len ^ 5, 3 * d.x * d.z / d.len ^ 5⟩,
   ⟨3 * d.y * d.x / d.len ^ 5, 3 * d.y * d.y / d.len ^ 5 - 1 / d.len ^ 3, 3 * d.y * d.z / d.len ^ 5⟩,
   ⟨3 * d.z * d.x / d.len ^ 5, 3 * d.z * d.y / d.len ^ 5, 3 * d.z * d.z / d.len ^ 5 - 1 / d.len ^ 3⟩⟩

/-- The integral of a matrix over the box, entry by entry. -/
noncomputable def Box.integralM (b : Box) (T : ℝ × ℝ × ℝ → M3 ℝ) : M3 ℝ :=
  ⟨⟨∫ q in b.points, (T q).x.x, ∫ q in b.points, (T q).x.y, ∫ q in b.points, (T q).x.z⟩,
   ⟨∫ q in b.points, (T q).y.x, ∫ q in b.points, (T q).y.y, ∫ q in b.points, (T q).y.z⟩,
   ⟨∫ q in b.points, (T q).z.x, ∫ q in b.points, (T q).z.y, ∫ q in b.points, (T q).z.z⟩⟩

/-- The integral of a vector over the box, component by component. -/
noncomputable def Box.integralV (b : Box) (T : ℝ × ℝ × ℝ → V3 ℝ) : V3 ℝ :=
  ⟨∫ q in b.points, (T q).x, ∫ q in b.points, (T q).y, ∫ q in b.points, (T q).z⟩

theorem outside_of (b : Box) (p : V3 ℝ) (hp : (p.x, p.y, p.z) ∉ b.closed) :
    Outside (b.min.x - p.x) (b.max.x - p.x) (b.min.y - p.y) (b.max.y - p.y) (b.min.z - p.z) (b.max.z - p.z) := by
  rintro ⟨⟨h1, h2⟩, ⟨h3, h4⟩, h5, h6⟩
  exact hp ⟨⟨by simpa using h1, by simpa using h2⟩, ⟨by simpa using h3, by simpa using h4⟩,
    ⟨by simpa using h5, by simpa using h6⟩⟩

/-- The integral of the tidal tensor over a box, outside it. -/
theorem tidal_box (b : Box) (h : b.Proper) (p : V3 ℝ) (hp : (p.x, p.y, p.z) ∉ b.closed) :
    b.integralM (fun q => tidal (vec q - p)) =
      ⟨⟨-b.evalDefInt Py.prismFzz p 1, -b.evalDefInt Py.prismFzx p 1, -b.evalDefInt Py.prismFzx p 0⟩,
       ⟨-b.evalDefInt Py.prismFzx p 1, -b.evalDefInt Py.prismFzz p 2, -b.evalDefInt Py.prismFzy p 0⟩,
       ⟨-b.evalDefInt Py.prismFzx p 0, -b.evalDefInt Py.prismFzy p 0, -b.evalDefInt Py.prismFzz p 0⟩⟩ := by
  have h1 : b.min.x - p.x ≤ b.max.x - p.x := by linarith [h.1]
  have h2 : b.min.y - p.y ≤ b.max.y - p.y := by linarith [h.2.1]
  have h3 : b.min.z - p.z ≤ b.max.z - p.z := by linarith [h.2.2]
  have ho := outside_of b p hp
  obtain ⟨hxx, hyy, hxy, hxz⟩ := integral_tensor h1 h2 h3 ho
  have hzz := integral_zz h1 h2 h3 ho
  have hyz := integral_yz h1 h2 h3 ho
  rw [evalDefInt_neg_corners, ← evalDefInt_cycle1] at hxx hxy
  rw [evalDefInt_neg_corners, ← evalDefInt_cycle2] at hyy
  rw [evalDefInt_neg_corners] at hxz hyz hzz
  rw [← integral_shift b p fun q => 3 * q.1 * q.1 / rr q.1 q.2.1 q.2.2 ^ 5 - 1 / rr q.1 q.2.1 q.2.2 ^ 3] at hxx
  rw [← integral_shift b p fun q => 3 * q.2.1 * q.2.1 / rr q.1 q.2.1 q.2.2 ^ 5 - 1 / rr q.1 q.2.1 q.2.2 ^ 3] at hyy
  rw [← integral_shift b p fun q => 3 * q.2.2 * q.2.2 / rr q.1 q.2.1 q.2.2 ^ 5 - 1 / rr q.1 q.2.1 q.2.2 ^ 3] at hzz
  rw [← integral_shift b p fun q => 3 * q.1 * q.2.1 / rr q.1 q.2.1 q.2.2 ^ 5] at hxy
  rw [← integral_shift b p fun q => 3 * q.1 * q.2.2 / rr q.1 q.2.1 q.2.2 ^ 5] at hxz
  rw [← integral_shift b p fun q => 3 * q.2.1 * q.2.2 / rr q.1 q.2.1 q.2.2 ^ 5] at hyz
  have c : ∀ u v : ℝ, 3 * u * v = 3 * v * u := fun u v => by ring
  have e1 : ∀ q : ℝ × ℝ × ℝ, (vec q - p).x = q.1 - p.x := fun _ => rfl
  have e2 : ∀ q : ℝ × ℝ × ℝ, (vec q - p).y = q.2.1 - p.y := fun _ => rfl
  have e3 : ∀ q : ℝ × ℝ × ℝ, (vec q - p).z = q.2.2 - p.z := fun _ => rfl
  simp only [Box.integralM, tidal, len_vec_sub, e1, e2, e3]
  simp only [Prod.fst_sub, Prod.snd_sub] at hxx hyy hzz hxy hxz hyz ⊢
  refine V3.ext (V3.ext hxx hxy hxz) (V3.ext ?_ hyy hyz) (V3.ext ?_ ?_ hzz)
  · simpa only [c (_ - p.y) (_ - p.x)] using hxy
  · simpa only [c (_ - p.z) (_ - p.x)] using hxz
  · simpa only [c (_ - p.z) (_ - p.y)] using hyz

/-- **C82.** Outside the prism the gradient tensor is `G ρ ∭ (3 d dᵀ / |d|⁵ - I / |d|³) dq` with `d = q - p`. -/
theorem gravPrism_gradient_is_integral (s : GravPrism) (h : s.box.Proper) (p : V3 ℝ) (hp : (p.x, p.y, p.z) ∉ s.box.closed) :
    s.gravitationalGradient p = s.box.integralM fun q => (tidal (vec q - p)).map fun row => row.map (G * s.rho * ·) := by
  have key := tidal_box s.box h p hp
  simp only [Box.integralM, V3.mk.injEq] at key
  obtain ⟨⟨xx, xy, xz⟩, ⟨yx, yy, yz⟩, zx, zy, zz⟩ := key
  simp only [Box.integralM, V3.map, integral_const_mul, xx, xy, xz, yx, yy, yz, zx, zy, zz, GravPrism.gravitationalGradient]
  ext <;> simp

/-- The field of a magnetic dipole `m` at displacement `d` from the observer: `(3 (m · d) d / |d|⁵ - m / |d|³) / (4 π)`. -/
noncomputable def dipoleH (m d : V3 ℝ) : V3 ℝ :=
  ⟨(3 * m.dot d * d.x / d.len ^ 5 - m.x / d.len ^ 3) / (4 * π), (3 * m.dot d * d.y / d.len ^ 5 - m.y / d.len ^ 3) / (4 * π),
   (3 * m.dot d * d.z / d.len ^ 5 - m.z / d.len ^ 3) / (4 * π)⟩

theorem tidal_integrable (b : Box) (p : V3 ℝ) (hp : (p.x, p.y, p.z) ∉ b.closed) :
    (IntegrableOn (fun q => (tidal (vec q - p)).x.x) b.points ∧ IntegrableOn (fun q => (tidal (vec q - p)).x.y) b.points ∧
      IntegrableOn (fun q => (tidal (vec q - p)).x.z) b.points) ∧
    (IntegrableOn (fun q => (tidal (vec q - p)).y.x) b.points ∧ IntegrableOn (fun q => (tidal (vec q - p)).y.y) b.points ∧
      IntegrableOn (fun q => (tidal (vec q - p)).y.z) b.points) ∧
    IntegrableOn (fun q => (tidal (vec q - p)).z.x) b.points ∧ IntegrableOn (fun q => (tidal (vec q - p)).z.y) b.points ∧
      IntegrableOn (fun q => (tidal (vec q - p)).z.z) b.points := by
  have ho := outside_of b p hp
  have e1 : ∀ q : ℝ × ℝ × ℝ, (vec q - p).x = (q - (p.x, p.y, p.z)).1 := fun _ => rfl
  have e2 : ∀ q : ℝ × ℝ × ℝ, (vec q - p).y = (q - (p.x, p.y, p.z)).2.1 := fun _ => rfl
  have e3 : ∀ q : ℝ × ℝ × ℝ, (vec q - p).z = (q - (p.x, p.y, p.z)).2.2 := fun _ => rfl
  have off : ∀ {f : ℝ × ℝ × ℝ → ℝ}, Continuous f → IntegrableOn (fun q => f (q - (p.x, p.y, p.z)) / (vec q - p).len ^ 5) b.points := by
    intro f hf
    simp only [len_vec_sub]
    exact integrableOn_shift b p (g := fun q => f q / rr q.1 q.2.1 q.2.2 ^ 5) (Outside.integrableOn (ho.continuousOn_div hf 5))
  have dia : ∀ {f : ℝ × ℝ × ℝ → ℝ}, Continuous f →
      IntegrableOn (fun q => f (q - (p.x, p.y, p.z)) / (vec q - p).len ^ 5 - 1 / (vec q - p).len ^ 3) b.points := by
    intro f hf
    simp only [len_vec_sub]
    exact integrableOn_shift b p (g := fun q => f q / rr q.1 q.2.1 q.2.2 ^ 5 - 1 / rr q.1 q.2.1 q.2.2 ^ 3)
      (Outside.integrableOn ((ho.continuousOn_div hf 5).sub (ho.continuousOn_div continuous_const 3)))
  simp only [tidal, e1, e2, e3]
  refine ⟨⟨dia (f := fun q => 3 * q.1 * q.1) (by fun_prop), off (f := fun q => 3 * q.1 * q.2.1) (by fun_prop),
      off (f := fun q => 3 * q.1 * q.2.2) (by fun_prop)⟩, ⟨off (f := fun q => 3 * q.2.1 * q.1) (by fun_prop),
      dia (f := fun q => 3 * q.2.1 * q.2.1) (by fun_prop), off (f := fun q => 3 * q.2.1 * q.2.2) (by fun_prop)⟩,
    off (f := fun q => 3 * q.2.2 * q.1) (by fun_prop), off (f := fun q => 3 * q.2.2 * q.2.1) (by fun_prop),
      dia (f := fun q => 3 * q.2.2 * q.2.2) (by fun_prop)⟩

theorem dipoleH_eq (m d : V3 ℝ) :
    dipoleH m d = ⟨1 / (4 * π) * (m.x * (tidal d).x.x + m.y * (tidal d).x.y + m.z * (tidal d).x.z),
      1 / (4 * π) * (m.x * (tidal d).y.x + m.y * (tidal d).y.y + m.z * (tidal d).y.z),
      1 / (4 * π) * (m.x * (tidal d).z.x + m.y * (tidal d).z.y + m.z * (tidal d).z.z)⟩ := by
  simp only [dipoleH, tidal, V3.dot]
  generalize d.len = l
  ext <;> simp only <;> ring

/-- **C82.** Outside the prism the magnetic field is the integral of the fields of the dipoles `M dq`. -/
theorem magPrism_field_is_integral (s : MagPrism) (h : s.box.Proper) (p : V3 ℝ) (hp : (p.x, p.y, p.z) ∉ s.box.closed) :
    s.magneticField p = s.box.integralV fun q => dipoleH s.magnetization (vec q - p) := by
  have key := tidal_box s.box h p hp
  simp only [Box.integralM, V3.mk.injEq] at key
  obtain ⟨⟨xx, xy, xz⟩, ⟨yx, yy, yz⟩, zx, zy, zz⟩ := key
  obtain ⟨⟨ixx, ixy, ixz⟩, ⟨iyx, iyy, iyz⟩, izx, izy, izz⟩ := tidal_integrable s.box p hp
  have lin : ∀ {f g k : ℝ × ℝ × ℝ → ℝ} {a b c : ℝ}, IntegrableOn f s.box.points → IntegrableOn g s.box.points →
      IntegrableOn k s.box.points → ∫ q in s.box.points, f q = a → ∫ q in s.box.points, g q = b → ∫ q in s.box.points, k q = c →
      ∫ q in s.box.points, 1 / (4 * π) * (s.magnetization.x * f q + s.magnetization.y * g q + s.magnetization.z * k q) =
        1 / (4 * π) * (s.magnetization.x * a + s.magnetization.y * b + s.magnetization.z * c) := by
    intro f g k a b c hf hg hk ha hb hc
    rw [integral_const_mul, integral_add (f := fun q => s.magnetization.x * f q + s.magnetization.y * g q)
      ((hf.const_mul _).add (hg.const_mul _)) (hk.const_mul _), integral_add (hf.const_mul _) (hg.const_mul _),
      integral_const_mul, integral_const_mul, integral_const_mul, ha, hb, hc]
  have ek : (-1.0 : ℝ) = -1 := by norm_num
  simp only [Box.integralV, dipoleH_eq, MagPrism.magneticField, ek]
  rw [lin ixx ixy ixz xx xy xz, lin iyx iyy iyz yx yy yz, lin izx izy izz zx zy zz]
  ext <;> simp only <;> ring

/-- **C82.** Outside the prism the flux density is `μ₀` times that integral. -/
theorem magPrism_flux_is_integral (s : MagPrism) (h : s.box.Proper) (p : V3 ℝ) (hp : (p.x, p.y, p.z) ∉ s.box.closed) :
    s.magneticFluxDensity p = (s.box.integralV fun q => dipoleH s.magnetization (vec q - p)).map (mu0 * ·) := by
  have hin : ¬s.isInside p := fun hc => hp ⟨⟨hc.1.1, hc.2.1⟩, ⟨hc.1.2.1, hc.2.2.1⟩, ⟨hc.1.2.2, hc.2.2.2⟩⟩
  rw [← magPrism_field_is_integral s h p hp, MagPrism.magneticFluxDensity, if_neg hin]

/-- The hypotheses are met on the extension of an edge of the box. -/
example : (MagPrism.magneticField ⟨⟨⟨0, 0, 0⟩, ⟨1, 2, 3⟩⟩, ⟨5, 6, 7⟩⟩ ⟨0, 0, 4⟩) =
    Box.integralV ⟨⟨0, 0, 0⟩, ⟨1, 2, 3⟩⟩ fun q => dipoleH ⟨5, 6, 7⟩ (vec q - ⟨0, 0, 4⟩) :=
  magPrism_field_is_integral ⟨⟨⟨0, 0, 0⟩, ⟨1, 2, 3⟩⟩, ⟨5, 6, 7⟩⟩ ⟨by norm_num, by norm_num, by norm_num⟩ _
    (by norm_num [Box.closed])

end Verif.Prism
