import Verif.Props.CoilWires
import Verif.Props.Gauss
import Verif.Spec.Crossing

/-!
# Lemmas for C137: the field of a straight piece of wire around the piece itself

`bs a b q` is the field of the piece from `a` to `b` in a form that is regular everywhere off the piece, also on the line through it. -/

namespace Verif.Static

open V3 Spatial BiotSavart Coil

/-- The field of a piece of wire, up to the factor `I/4π`. -/
noncomputable def bs (a b q : V3 ℝ) : V3 ℝ :=
  ((1 / (q - a).len + 1 / (q - b).len) * ((q - a).len * (q - b).len + (q - a).dot (q - b))⁻¹) • (q - a).cross (q - b)

/-- What flows from the end `b` to the end `a`. -/
noncomputable def pair (a b q : V3 ℝ) : V3 ℝ := (1 / (q - b).len ^ 3) • (q - b) - (1 / (q - a).len ^ 3) • (q - a)

/-- Not a point of the piece. -/
def OffSeg (a b q : V3 ℝ) : Prop := ∀ t ∈ Set.Icc (0 : ℝ) 1, q ≠ a + t • (b - a)

theorem OffSeg.ne {a b q : V3 ℝ} (h : OffSeg a b q) : q ≠ a ∧ q ≠ b :=
  ⟨by simpa using h 0 (by simp), by simpa [show a + (b - a) = b by ext <;> simp] using h 1 (by simp)⟩

theorem OffLine.offSeg {a b q : V3 ℝ} (h : OffLine a b q) : OffSeg a b q := by
  rintro t - rfl
  exact h (by ext <;> simp <;> ring)

theorem OffSeg.den_pos {a b q : V3 ℝ} (h : OffSeg a b q) : 0 < (q - a).len * (q - b).len + (q - a).dot (q - b) := by
  have ha := len_sub_pos h.ne.1
  have hb := len_sub_pos h.ne.2
  by_contra hc
  have h1 : ((q - a).len • (q - b) + (q - b).len • (q - a)).dot ((q - a).len • (q - b) + (q - b).len • (q - a)) =
      2 * ((q - a).len * (q - b).len) * ((q - a).len * (q - b).len + (q - a).dot (q - b)) := by
    have e1 := V3.dot_self (q - a)
    have e2 := V3.dot_self (q - b)
    generalize (q - a).len = A at *
    generalize (q - b).len = B at *
    generalize q - a = x at *
    generalize q - b = y at *
    simp only [V3.dot, add_x, add_y, add_z, smul_x, smul_y, smul_z, smul_eq_mul] at *
    linear_combination A ^ 2 * e2 + B ^ 2 * e1
  have h2 : ((q - a).len • (q - b) + (q - b).len • (q - a)).dot ((q - a).len • (q - b) + (q - b).len • (q - a)) ≤ 0 := by
    rw [h1]
    exact mul_nonpos_of_nonneg_of_nonpos (by positivity) (not_lt.1 hc)
  have h3 : (q - a).len • (q - b) + (q - b).len • (q - a) = 0 := by
    rw [V3.dot_self] at h2
    exact V3.len_eq_zero.1 (pow_eq_zero_iff (two_ne_zero) |>.1 (le_antisymm h2 (sq_nonneg _)))
  have hs : 0 < (q - a).len + (q - b).len := by positivity
  refine h ((q - a).len / ((q - a).len + (q - b).len)) ⟨by positivity, by rw [div_le_one hs]; linarith⟩ ?_
  have hx := congrArg V3.x h3
  have hy := congrArg V3.y h3
  have hz := congrArg V3.z h3
  generalize (q - a).len = A at *
  generalize (q - b).len = B at *
  simp only [add_x, add_y, add_z, smul_x, smul_y, smul_z, smul_eq_mul, sub_x, sub_y, sub_z, zero_x, zero_y, zero_z] at hx hy hz
  ext <;> simp only [add_x, add_y, add_z, smul_x, smul_y, smul_z, smul_eq_mul, sub_x, sub_y, sub_z] <;> field_simp
  · linear_combination hx
  · linear_combination hy
  · linear_combination hz

theorem cross_cross_left (a b : V3 ℝ) : a.cross (a.cross b) = (a.dot b) • a - (a.dot a) • b := by
  ext <;> simp only [V3.cross, V3.dot, sub_x, sub_y, sub_z, smul_x, smul_y, smul_z, smul_eq_mul] <;> ring

theorem cross_cross_right (a b : V3 ℝ) : b.cross (a.cross b) = (b.dot b) • a - (a.dot b) • b := by
  ext <;> simp only [V3.cross, V3.dot, sub_x, sub_y, sub_z, smul_x, smul_y, smul_z, smul_eq_mul] <;> ring

/-- Off the line through the piece it is the field of the code. -/
theorem fluxFree_eq_bs {a b q : V3 ℝ} (h : a ≠ b) (ho : OffLine a b q) : fluxFree a b q = -bs a b q := by
  have hd := len_sub_pos h.symm
  have ha := len_sub_pos (offLine_ne ho).1
  have hb := len_sub_pos (offLine_ne ho).2
  have hg := (OffLine.offSeg ho).den_pos
  have hr := rho2_pos h ho
  have e1 : (tan a b).cross (q - a) = (1 / (b - a).len) • (q - a).cross (q - b) := by
    ext <;> simp [unit, V3.cross] <;> field_simp <;> ring
  have e2 : (tan a b).dot (q - a) = ((q - a).len ^ 2 - (q - a).dot (q - b)) / (b - a).len := by
    rw [← V3.dot_self]
    simp [unit, V3.dot]
    field_simp
    ring
  have e3 : (tan a b).dot (q - b) = ((q - a).dot (q - b) - (q - b).len ^ 2) / (b - a).len := by
    rw [← V3.dot_self]
    simp [unit, V3.dot]
    field_simp
    ring
  have e4 : rho2 a b q * (b - a).len ^ 2 = ((q - a).len * (q - b).len - (q - a).dot (q - b)) * ((q - a).len * (q - b).len + (q - a).dot (q - b)) := by
    rw [rho2_eq h, e1]
    have : ((1 / (b - a).len) • (q - a).cross (q - b)).dot ((1 / (b - a).len) • (q - a).cross (q - b)) * (b - a).len ^ 2 =
        ((q - a).cross (q - b)).dot ((q - a).cross (q - b)) := by
      simp only [V3.dot, smul_x, smul_y, smul_z, smul_eq_mul]
      field_simp
    rw [this, V3.cross_dot_self, V3.dot_self, V3.dot_self]
    ring
  rw [fluxFree, bs, e1, e2, e3, smul_smul, ← neg_smul]
  congr 1
  generalize (q - a).dot (q - b) = c at *
  generalize (q - a).len = A at *
  generalize (q - b).len = B at *
  generalize (b - a).len = D at *
  have hm : A * B - c ≠ 0 := by
    intro h0
    rw [h0, zero_mul] at e4
    exact (mul_pos hr (pow_pos hd 2)).ne' e4
  have hg' := hg.ne'
  have er : rho2 a b q = (A * B - c) * (A * B + c) / D ^ 2 := by
    rw [eq_div_iff (pow_pos hd 2).ne', e4]
  rw [er]
  generalize hM : A * B - c = M at *
  generalize hG : A * B + c = N at *
  field_simp
  linear_combination -(A + B) * hM

theorem smooth_bs {a b p : V3 ℝ} (h : OffSeg a b p) : Smooth (bs a b) p := by
  have la := len_sub_ne_zero h.ne.1
  have lb := len_sub_ne_zero h.ne.2
  have hg := h.den_pos.ne'
  have d1 := diff_len la
  have d2 := diff_len lb
  have d3 : DifferentiableAt ℝ (fun q => (at3 q - a).dot (at3 q - b)) (p.x, p.y, p.z) := by
    simp only [V3.dot, at3, V3.sub_x, V3.sub_y, V3.sub_z]
    fun_prop
  have d4 : DifferentiableAt ℝ (fun q => ((at3 q - a).len * (at3 q - b).len + (at3 q - a).dot (at3 q - b))⁻¹) (p.x, p.y, p.z) :=
    ((d1.mul d2).add d3).inv hg
  have d5 : DifferentiableAt ℝ (fun q => 1 / (at3 q - a).len + 1 / (at3 q - b).len) (p.x, p.y, p.z) := by
    simp only [one_div]
    exact (d1.inv la).add (d2.inv lb)
  refine smooth_smul (f := fun q => (1 / (q - a).len + 1 / (q - b).len) * ((q - a).len * (q - b).len + (q - a).dot (q - b))⁻¹)
    (F := fun q => (q - a).cross (q - b)) (d5.mul d4) ⟨?_, ?_, ?_⟩ <;>
  · simp only [V3.cross, at3, V3.sub_x, V3.sub_y, V3.sub_z]
    fun_prop

theorem smooth_pair {a b p : V3 ℝ} (ha : p ≠ a) (hb : p ≠ b) : Smooth (pair a b) p := by
  have h1 := smooth_pole ha
  have h2 := smooth_pole hb
  exact ⟨h2.1.sub h1.1, h2.2.1.sub h1.2.1, h2.2.2.sub h1.2.2⟩

theorem curl_bs {a b p : V3 ℝ} (h : OffSeg a b p) : HasCurl (bs a b) (pair a b p) p := by
  have la := len_sub_ne_zero h.ne.1
  have lb := len_sub_ne_zero h.ne.2
  have hg := h.den_pos.ne'
  have g1 := hasGrad_len_sub a p la
  have g2 := hasGrad_len_sub b p lb
  have i1 := hasGrad_radial a p la (hasDerivAt_inv la)
  have i2 := hasGrad_radial b p lb (hasDerivAt_inv lb)
  have xa := hasGrad_sub_x a p
  have ya := hasGrad_sub_y a p
  have za := hasGrad_sub_z a p
  have xb := hasGrad_sub_x b p
  have yb := hasGrad_sub_y b p
  have zb := hasGrad_sub_z b p
  have gd := (g1.mul g2).add (((xa.mul xb).add (ya.mul yb)).add (za.mul zb))
  have gi := HasGrad.comp (hasDerivAt_inv (x := (p - a).len * (p - b).len + ((p.x - a.x) * (p.x - b.x) + (p.y - a.y) * (p.y - b.y) + (p.z - a.z) * (p.z - b.z)))
    (by simpa [V3.dot] using hg)) gd
  have gf := (i1.add i2).mul gi
  have gx := gf.mul ((ya.mul zb).sub (za.mul yb))
  have gy := gf.mul ((za.mul xb).sub (xa.mul zb))
  have gz := gf.mul ((xa.mul yb).sub (ya.mul xb))
  have e : bs a b = fun q => ⟨((q - a).len⁻¹ + (q - b).len⁻¹) * ((q - a).len * (q - b).len + ((q.x - a.x) * (q.x - b.x) + (q.y - a.y) * (q.y - b.y) + (q.z - a.z) * (q.z - b.z)))⁻¹ * ((q.y - a.y) * (q.z - b.z) - (q.z - a.z) * (q.y - b.y)),
      ((q - a).len⁻¹ + (q - b).len⁻¹) * ((q - a).len * (q - b).len + ((q.x - a.x) * (q.x - b.x) + (q.y - a.y) * (q.y - b.y) + (q.z - a.z) * (q.z - b.z)))⁻¹ * ((q.z - a.z) * (q.x - b.x) - (q.x - a.x) * (q.z - b.z)),
      ((q - a).len⁻¹ + (q - b).len⁻¹) * ((q - a).len * (q - b).len + ((q.x - a.x) * (q.x - b.x) + (q.y - a.y) * (q.y - b.y) + (q.z - a.z) * (q.z - b.z)))⁻¹ * ((q.x - a.x) * (q.y - b.y) - (q.y - a.y) * (q.x - b.x))⟩ := by
    funext q
    ext <;> simp [bs, V3.cross, V3.dot]
  rw [e]
  refine ⟨⟨_, _, _⟩, ⟨gx, gy, gz⟩, ?_⟩
  clear gx gy gz gf gi gd xa ya za xb yb zb i1 i2 g1 g2 e
  have ea := V3.dot_self (p - a)
  have eb := V3.dot_self (p - b)
  have ed : (p - a).len * (p - b).len + ((p.x - a.x) * (p.x - b.x) + (p.y - a.y) * (p.y - b.y) + (p.z - a.z) * (p.z - b.z)) =
    (p - a).len * (p - b).len + (p - a).dot (p - b) := by simp [V3.dot]
  have key : ∀ (A B g : ℝ) (x y : V3 ℝ), A ≠ 0 → B ≠ 0 → x.dot x = A ^ 2 → y.dot y = B ^ 2 → (A * B + x.dot y) * g = 1 →
      (-g / A ^ 3 - (A + B) ^ 2 * g ^ 2 / (A ^ 2 * B)) • x.cross (x.cross y) + (-g / B ^ 3 - (A + B) ^ 2 * g ^ 2 / (A * B ^ 2)) • y.cross (x.cross y) +
        (2 * (A + B) * g / (A * B)) • (x - y) = (1 / B ^ 3) • y - (1 / A ^ 3) • x := by
    intro A B g x y hA hB hx hy hg
    rw [cross_cross_left, cross_cross_right, hx, hy]
    generalize x.dot y = c at *
    have hc : c = 1 / g - A * B := by
      have : g ≠ 0 := fun h0 => by simp [h0] at hg
      field_simp
      linear_combination hg
    have hg0 : g ≠ 0 := fun h0 => by simp [h0] at hg
    subst hc
    match_scalars <;> field_simp <;> ring
  have hgi := mul_inv_cancel₀ hg
  rw [pair, ← key _ _ _ _ _ la lb ea eb hgi]
  have hg2 : (((p - a).len * (p - b).len + (p - a).dot (p - b)) ^ 2)⁻¹ = (((p - a).len * (p - b).len + (p - a).dot (p - b))⁻¹) ^ 2 := by
    rw [inv_pow]
  simp only [M3.curl, ed, hg2]
  generalize ((p - a).len * (p - b).len + (p - a).dot (p - b))⁻¹ = g at *
  generalize (p - a).len = A at *
  generalize (p - b).len = B at *
  ext <;> simp only [add_x, add_y, add_z, smul_x, smul_y, smul_z, smul_eq_mul, sub_x, sub_y, sub_z, map_x, map_y, map_z, V3.cross] <;> field_simp <;> ring

/-! ## Gauss's law for upright boxes in any direction -/

open MeasureTheory Set Real Prism Gauss

/-- Rectangles of any size are images of the unit square. -/
theorem scale2 {U V : ℝ} (hU : 0 < U) (hV : 0 < V) (f : ℝ × ℝ → ℝ) :
    ∫ w in Icc (0 : ℝ) U ×ˢ Icc (0 : ℝ) V, f w = U * V * ∫ w in Icc (0 : ℝ) 1 ×ˢ Icc (0 : ℝ) 1, f (w.1 * U, w.2 * V) := by
  have e : MeasurableEmbedding (Prod.map (· * U) (· * V) : ℝ × ℝ → ℝ × ℝ) :=
    ((MeasurableEquiv.mulRight₀ U hU.ne').prodCongr (MeasurableEquiv.mulRight₀ V hV.ne')).measurableEmbedding
  have hm : (volume : Measure (ℝ × ℝ)).map (Prod.map (· * U) (· * V)) = ENNReal.ofReal (U⁻¹ * V⁻¹) • volume := by
    rw [Measure.volume_eq_prod, ← Measure.map_prod_map _ _ (measurable_mul_const U) (measurable_mul_const V), Real.map_volume_mul_right hU.ne',
      Real.map_volume_mul_right hV.ne', Measure.prod_smul_left, Measure.prod_smul_right, smul_smul, abs_of_pos (inv_pos.2 hU), abs_of_pos (inv_pos.2 hV),
      ← ENNReal.ofReal_mul (inv_pos.2 hU).le]
  have h := e.setIntegral_map (μ := volume) f (Icc (0 : ℝ) U ×ˢ Icc (0 : ℝ) V)
  rw [hm, Measure.restrict_smul, integral_smul_measure, ENNReal.toReal_ofReal (by positivity)] at h
  have hp : (Prod.map (· * U) (· * V) : ℝ × ℝ → ℝ × ℝ) ⁻¹' (Icc (0 : ℝ) U ×ˢ Icc (0 : ℝ) V) = Icc (0 : ℝ) 1 ×ˢ Icc (0 : ℝ) 1 := by
    ext ⟨x, y⟩
    simp only [mem_preimage, Prod.map, mem_prod, mem_Icc]
    constructor
    · rintro ⟨⟨h1, h2⟩, h3, h4⟩
      exact ⟨⟨nonneg_of_mul_nonneg_left h1 hU, by nlinarith⟩, nonneg_of_mul_nonneg_left h3 hV, by nlinarith⟩
    · rintro ⟨⟨h1, h2⟩, h3, h4⟩
      exact ⟨⟨by positivity, by nlinarith⟩, by positivity, by nlinarith⟩
  rw [hp] at h
  simp only [Prod.map, smul_eq_mul] at h
  rw [← h]
  field_simp

/-- The field of a point. -/
noncomputable def pole (l q : V3 ℝ) : V3 ℝ := (1 / (q - l).len ^ 3) • (q - l)

theorem gram (u v r : V3 ℝ) (h : u.dot v = 0) :
    u.dot u * v.dot v * r.dot r = (r.dot u) ^ 2 * v.dot v + (r.dot v) ^ 2 * u.dot u + (r.dot (u.cross v)) ^ 2 := by
  simp only [V3.dot, V3.cross] at *
  linear_combination ((u.x * v.x + u.y * v.y + u.z * v.z) * (r.x * r.x + r.y * r.y + r.z * r.z) - 2 * (r.x * u.x + r.y * u.y + r.z * u.z) * (r.x * v.x + r.y * v.y + r.z * v.z)) * h

/-- The flux of the field of a point through a rectangle. -/
theorem flux_pole {o u v l : V3 ℝ} (hu : u ≠ 0) (hv : v ≠ 0) (h : u.dot v = 0) :
    flux (pole l) o u v = corners (-((l - o).dot u / u.len)) (u.len - (l - o).dot u / u.len) (-((l - o).dot v / v.len))
      (v.len - (l - o).dot v / v.len) ((o - l).dot (u.cross v) / (u.len * v.len)) := by
  have hU := V3.len_pos hu
  have hV := V3.len_pos hv
  have hf := (face (h := (o - l).dot (u.cross v) / (u.len * v.len)) ((l - o).dot u / u.len) ((l - o).dot v / v.len) hU.le hV.le).2
  rw [zero_sub, zero_sub] at hf
  rw [← hf, scale2 hU hV, ← integral_const_mul, flux]
  refine integral_congr_ae (Filter.Eventually.of_forall fun w => ?_)
  have eu := V3.dot_self u
  have ev := V3.dot_self v
  have hl : (o + w.1 • u + w.2 • v - l).len =
      √((w.1 * u.len - (l - o).dot u / u.len) ^ 2 + (w.2 * v.len - (l - o).dot v / v.len) ^ 2 + ((o - l).dot (u.cross v) / (u.len * v.len)) ^ 2) := by
    rw [← sqrt_sq (V3.len_nonneg (o + w.1 • u + w.2 • v - l))]
    congr 1
    have g := gram u v (o + w.1 • u + w.2 • v - l) h
    rw [eu, ev, V3.dot_self] at g
    have e1 : (o + w.1 • u + w.2 • v - l).dot u = w.1 * u.len ^ 2 - (l - o).dot u := by
      rw [← eu]
      simp only [V3.dot, add_x, add_y, add_z, sub_x, sub_y, sub_z, smul_x, smul_y, smul_z, smul_eq_mul] at h ⊢
      linear_combination w.2 * h
    have e2 : (o + w.1 • u + w.2 • v - l).dot v = w.2 * v.len ^ 2 - (l - o).dot v := by
      rw [← ev]
      simp only [V3.dot, add_x, add_y, add_z, sub_x, sub_y, sub_z, smul_x, smul_y, smul_z, smul_eq_mul] at h ⊢
      linear_combination w.1 * h
    have e3 : (o + w.1 • u + w.2 • v - l).dot (u.cross v) = (o - l).dot (u.cross v) := by
      simp only [V3.dot, V3.cross, add_x, add_y, add_z, sub_x, sub_y, sub_z, smul_x, smul_y, smul_z, smul_eq_mul]
      ring
    rw [e1, e2, e3] at g
    field_simp
    linear_combination g
  have hn : ((pole l (o + w.1 • u + w.2 • v)).app (u.cross v)) = (o - l).dot (u.cross v) / (o + w.1 • u + w.2 • v - l).len ^ 3 := by
    generalize hL : (o + w.1 • u + w.2 • v - l).len = L
    simp only [pole, hL, V3.app, V3.dot, V3.cross, add_x, add_y, add_z, sub_x, sub_y, sub_z, smul_x, smul_y, smul_z, smul_eq_mul]
    ring
  simp only [hn, hl, ker]
  field_simp

/-- Gauss's law for a box with the sides `u`, `v` and `w` at right angles. -/
theorem pole_crate {o u v l : V3 ℝ} (hu : u ≠ 0) (hv : v ≠ 0) (h : u.dot v = 0) {η : ℝ} (hη : 0 < η) :
    crateFlux (pole l) o u v (η • u.cross v) = 4 * π * (cover 0 u.len ((l - o).dot u / u.len) * cover 0 v.len ((l - o).dot v / v.len) *
      cover 0 (η * (u.len * v.len)) ((l - o).dot (u.cross v) / (u.len * v.len))) := by
  have hU := V3.len_pos hu
  have hV := V3.len_pos hv
  have eu := V3.dot_self u
  have ev := V3.dot_self v
  have en : (u.cross v).len = u.len * v.len := by
    have := V3.cross_dot_self u v
    rw [V3.dot_self, eu, ev, h] at this
    rw [← sqrt_sq (V3.len_nonneg (u.cross v)), this, ← sqrt_sq (mul_pos hU hV).le]
    congr 1
    ring
  have ew : (η • u.cross v).len = η * (u.len * v.len) := by rw [V3.len_smul, abs_of_pos hη, en]
  have hw : η • u.cross v ≠ 0 := fun e => by
    rw [e] at ew
    have : 0 < η * (u.len * v.len) := by positivity
    rw [← ew] at this
    simp [V3.len] at this
  have hvw : v.dot (η • u.cross v) = 0 := by
    simp only [V3.dot, V3.cross, smul_x, smul_y, smul_z, smul_eq_mul]; ring
  have hwu : (η • u.cross v).dot u = 0 := by
    simp only [V3.dot, V3.cross, smul_x, smul_y, smul_z, smul_eq_mul]; ring
  have c1 : v.cross (η • u.cross v) = (η * v.len ^ 2) • u := by
    rw [← ev]
    simp only [V3.dot] at h
    ext <;> simp only [V3.dot, V3.cross, smul_x, smul_y, smul_z, smul_eq_mul]
    · linear_combination -η * v.x * h
    · linear_combination -η * v.y * h
    · linear_combination -η * v.z * h
  have c2 : (η • u.cross v).cross u = (η * u.len ^ 2) • v := by
    rw [← eu]
    simp only [V3.dot] at h
    ext <;> simp only [V3.dot, V3.cross, smul_x, smul_y, smul_z, smul_eq_mul]
    · linear_combination -η * u.x * h
    · linear_combination -η * u.y * h
    · linear_combination -η * u.z * h
  have lin : ∀ a b c d : V3 ℝ, (a - (b + c)).dot d = (a - b).dot d - c.dot d ∧ (b + c - a).dot d = -(a - b).dot d + c.dot d := fun a b c d => by
    simp only [V3.dot, add_x, add_y, add_z, sub_x, sub_y, sub_z]
    constructor <;> ring
  have neg : ∀ a b d : V3 ℝ, (b - a).dot d = -(a - b).dot d := fun a b d => by
    simp only [V3.dot, sub_x, sub_y, sub_z]; ring
  have hvu : v.dot u = 0 := by rw [← h]; simp only [V3.dot]; ring
  have huw : u.dot (η • u.cross v) = 0 := by
    simp only [V3.dot, V3.cross, smul_x, smul_y, smul_z, smul_eq_mul]; ring
  have hwv : (η • u.cross v).dot v = 0 := by
    simp only [V3.dot, V3.cross, smul_x, smul_y, smul_z, smul_eq_mul]; ring
  have hww : (η • u.cross v).dot (u.cross v) = η * (u.len * v.len) ^ 2 := by
    rw [← en, ← V3.dot_self]
    simp only [V3.dot, smul_x, smul_y, smul_z, smul_eq_mul]; ring
  have ds : ∀ (a b : V3 ℝ) (c : ℝ), a.dot (c • b) = c * a.dot b := fun a b c => by
    simp only [V3.dot, smul_x, smul_y, smul_z, smul_eq_mul]; ring
  have six := six_eq (lo := ⟨0, 0, 0⟩) (hi := ⟨u.len, v.len, η * (u.len * v.len)⟩) ⟨hU, hV, by positivity⟩ ((l - o).dot u / u.len) ((l - o).dot v / v.len)
    ((l - o).dot (u.cross v) / (u.len * v.len))
  rw [← six, crateFlux, flux_pole hu hv h, flux_pole hu hv h, flux_pole hv hw hvw, flux_pole hv hw hvw, flux_pole hw hu hwu, flux_pole hw hu hwu, c1, c2, ew]
  simp only [(lin _ _ _ _).1, (lin _ _ _ _).2, ds, hww, eu, ev, h, hvu, hwu, hwv, neg l o, Gauss.six, zero_sub]
  have z1 : u.dot (u.cross v) = 0 := by simp only [V3.dot, V3.cross]; ring
  have z2 : v.dot (u.cross v) = 0 := by simp only [V3.dot, V3.cross]; ring
  simp only [z1, z2, sub_zero, mul_zero]
  clear six lin neg ds z1 z2 hww hwv huw hvu c1 c2 hwu hvw hw ew en eu ev h hu hv
  generalize (l - o).dot u = x
  generalize (l - o).dot v = y
  generalize (l - o).dot (u.cross v) = z
  generalize u.len = U at *
  generalize v.len = V at *
  rw [show (-z + η * (U * V) ^ 2) / (U * V) = η * (U * V) - z / (U * V) by field_simp; ring, neg_div,
    show η * z / (η * (U * V)) = z / (U * V) by field_simp,
    show (-(η * V ^ 2 * x) + η * V ^ 2 * U ^ 2) / (V * (η * (U * V))) = U - x / U by field_simp; ring,
    show η * V ^ 2 * -x / (V * (η * (U * V))) = -(x / U) by field_simp,
    show (-(η * U ^ 2 * y) + η * U ^ 2 * V ^ 2) / (η * (U * V) * U) = V - y / V by field_simp; ring,
    show η * U ^ 2 * -y / (η * (U * V) * U) = -(y / V) by field_simp,
    corners_swap (-(z / (U * V))) _ (-(x / U)), corners_swap (-(z / (U * V))) _ (-(x / U))]
  ring

/-! ## Around a piece of wire -/

theorem rim_sides (o u v : V3 ℝ) {t : ℝ} (ht : t ∈ Icc (0 : ℝ) 1) :
    o + t • u ∈ rim o u v ∧ o + u + t • v ∈ rim o u v ∧ o + u + v + t • (-u) ∈ rim o u v ∧ o + v + t • (-v) ∈ rim o u v := by
  have ht' : 1 - t ∈ Icc (0 : ℝ) 1 := ⟨by linarith [ht.2], by linarith [ht.1]⟩
  exact ⟨⟨t, ht, 0, by simp, by simp, by module⟩, ⟨1, by simp, t, ht, by simp, by module⟩, ⟨1 - t, ht', 1, by simp, by simp, by module⟩,
    ⟨0, by simp, 1 - t, ht', by simp, by module⟩⟩

theorem smooth_line {F : V3 ℝ → V3 ℝ} {a u : V3 ℝ} {t : ℝ} (h : Smooth F (a + t • u)) (d : V3 ℝ) : ContinuousAt (fun t : ℝ => (F (a + t • u)).app d) t := by
  have h0 := (Smooth.patch (F := F) (o := a) (u := u) (v := 0) (w := (t, 0)) (by simpa using h) d).continuousAt
  have h1 : ContinuousAt (fun t : ℝ => ((t, 0) : ℝ × ℝ)) t := by fun_prop
  have := ContinuousAt.comp (f := fun t : ℝ => ((t, 0) : ℝ × ℝ)) (x := t) h0 h1
  simpa [Function.comp_def] using this

theorem along_add {F G : V3 ℝ → V3 ℝ} {a u : V3 ℝ} (hF : ∀ t ∈ Icc (0 : ℝ) 1, Smooth F (a + t • u)) (hG : ∀ t ∈ Icc (0 : ℝ) 1, Smooth G (a + t • u)) :
    along (fun q => F q + G q) a u = along F a u + along G a u := by
  have i : ∀ {F : V3 ℝ → V3 ℝ}, (∀ t ∈ Icc (0 : ℝ) 1, Smooth F (a + t • u)) → IntervalIntegrable (fun t : ℝ => (F (a + t • u)).app u) volume 0 1 := fun h =>
    ContinuousOn.intervalIntegrable fun t ht => (smooth_line (h t (by rwa [uIcc_of_le zero_le_one] at ht)) u).continuousWithinAt
  rw [along, along, along, ← intervalIntegral.integral_add (i hF) (i hG)]
  refine intervalIntegral.integral_congr fun t _ => ?_
  simp [V3.app]
  ring

theorem circulation_add {F G : V3 ℝ → V3 ℝ} {o u v : V3 ℝ} (hF : ∀ p ∈ rim o u v, Smooth F p) (hG : ∀ p ∈ rim o u v, Smooth G p) :
    circulation (fun q => F q + G q) o u v = circulation F o u v + circulation G o u v := by
  rw [circulation, along_add (fun t ht => hF _ (rim_sides o u v ht).1) (fun t ht => hG _ (rim_sides o u v ht).1),
    along_add (fun t ht => hF _ (rim_sides o u v ht).2.1) (fun t ht => hG _ (rim_sides o u v ht).2.1),
    along_add (fun t ht => hF _ (rim_sides o u v ht).2.2.1) (fun t ht => hG _ (rim_sides o u v ht).2.2.1),
    along_add (fun t ht => hF _ (rim_sides o u v ht).2.2.2) (fun t ht => hG _ (rim_sides o u v ht).2.2.2), circulation, circulation]
  ring

theorem circulation_congr {F G : V3 ℝ → V3 ℝ} {o u v : V3 ℝ} (h : ∀ p ∈ rim o u v, F p = G p) : circulation F o u v = circulation G o u v := by
  have seg : ∀ a d : V3 ℝ, (∀ t ∈ Icc (0 : ℝ) 1, a + t • d ∈ rim o u v) → along F a d = along G a d := fun a d hm => by
    refine intervalIntegral.integral_congr fun t ht => ?_
    rw [uIcc_of_le zero_le_one] at ht
    simp only [h _ (hm t ht)]
  rw [circulation, circulation, seg _ _ fun t ht => (rim_sides o u v ht).1, seg _ _ fun t ht => (rim_sides o u v ht).2.1,
    seg _ _ fun t ht => (rim_sides o u v ht).2.2.1, seg _ _ fun t ht => (rim_sides o u v ht).2.2.2]

theorem circulation_smul (c : ℝ) (F : V3 ℝ → V3 ℝ) (o u v : V3 ℝ) : circulation (fun q => c • F q) o u v = c * circulation F o u v := by
  have seg : ∀ a d : V3 ℝ, along (fun q => c • F q) a d = c * along F a d := fun a d => by
    rw [along, along, ← intervalIntegral.integral_const_mul]
    refine intervalIntegral.integral_congr fun t _ => ?_
    simp [V3.app]
    ring
  simp only [circulation, seg]
  ring

theorem flux_add {F G : V3 ℝ → V3 ℝ} {o u v : V3 ℝ} (hF : ∀ p ∈ coil o u v, Smooth F p) (hG : ∀ p ∈ coil o u v, Smooth G p) :
    flux (fun q => F q + G q) o u v = flux F o u v + flux G o u v := by
  have i : ∀ {F : V3 ℝ → V3 ℝ}, (∀ p ∈ coil o u v, Smooth F p) →
      IntegrableOn (fun w : ℝ × ℝ => (F (o + w.1 • u + w.2 • v)).app (u.cross v)) (Icc (0 : ℝ) 1 ×ˢ Icc (0 : ℝ) 1) := fun h =>
    ContinuousOn.integrableOn_compact (isCompact_Icc.prod isCompact_Icc)
      fun w hw => (Smooth.patch (h _ ⟨w.1, hw.1, w.2, hw.2, rfl⟩) _).continuousAt.continuousWithinAt
  rw [flux, flux, flux, ← integral_add (i hF) (i hG)]
  refine integral_congr_ae (Filter.Eventually.of_forall fun w => ?_)
  simp [V3.app]
  ring

theorem smooth_pole' {l p : V3 ℝ} (h : p ≠ l) : Smooth (pole l) p := smooth_pole h

theorem flux_pair {a b o u v : V3 ℝ} (ha : a ∉ coil o u v) (hb : b ∉ coil o u v) : flux (pair a b) o u v = flux (pole b) o u v - flux (pole a) o u v := by
  have e : pair a b = fun q => pole b q + (-1 : ℝ) • pole a q := by
    funext q
    simp only [pair, pole]
    module
  rw [e, flux_add (fun p hp => smooth_pole' fun h : p = b => hb (h ▸ hp)) (fun p hp => (smooth_pole' fun h : p = a => ha (h ▸ hp)).real_mul _), flux_real_smul]
  ring

/-- An open box over the coil instead of the coil. -/
theorem circulation_open {A F : V3 ℝ → V3 ℝ} {o u v w : V3 ℝ}
    (h : ∀ p ∈ coil (o + w) u v ∪ (coil o v w ∪ coil (o + u) v w) ∪ (coil o w u ∪ coil (o + v) w u), Smooth A p ∧ Smooth F p ∧ HasCurl A (F p) p) :
    circulation A o u v = flux F o u v + crateFlux F o u v w := by
  have st : ∀ {o' u' v' : V3 ℝ}, coil o' u' v' ⊆ coil (o + w) u v ∪ (coil o v w ∪ coil (o + u) v w) ∪ (coil o w u ∪ coil (o + v) w u) →
      flux F o' u' v' = circulation A o' u' v' := fun hs =>
    (stokes (fun p hp => (h p (hs hp)).1) (fun p hp => (h p (hs hp)).2.1) (fun p hp => (h p (hs hp)).2.2)).symm
  rw [crateFlux, st (fun p hp => Or.inl (Or.inl hp)),
    st (fun p hp => Or.inl (Or.inr (Or.inr hp))), st (fun p hp => Or.inl (Or.inr (Or.inl hp))),
    st (fun p hp => Or.inr (Or.inr hp)), st (fun p hp => Or.inr (Or.inl hp))]
  have e : ∀ a b c : V3 ℝ, circulation A a b c = along A a b + along A (a + b) c - along A (a + c) b - along A a c := fun a b c => by
    rw [circulation, show a + b + c = a + c + b by module, along_neg, along_neg]
    abel
  simp only [e]
  rw [show o + w + u = o + u + w by module, show o + w + v = o + v + w by module, show o + v + u = o + u + v by module]
  abel

theorem bs_swap (a b q : V3 ℝ) : bs b a q = (-1 : ℝ) • bs a b q := by
  have : (q - b).dot (q - a) = (q - a).dot (q - b) := by simp only [V3.dot]; ring
  rw [bs, bs, this, mul_comm (q - b).len, add_comm (1 / (q - b).len), show (q - b).cross (q - a) = (-1 : ℝ) • (q - a).cross (q - b) by
    ext <;> simp [V3.cross] <;> ring]
  module

theorem pair_swap (a b q : V3 ℝ) : pair b a q = (-1 : ℝ) • pair a b q := by
  rw [pair, pair]
  module

/-- A piece in two parts. -/
theorem bs_split {a b q : V3 ℝ} (h : a ≠ b) (ho : OffLine a b q) {t : ℝ} (h0 : 0 < t) (h1 : t < 1) :
    bs a b q = bs a (a + t • (b - a)) q + bs (a + t • (b - a)) b q := by
  have hd := len_sub_pos h.symm
  have t1 : 0 < 1 - t := by linarith
  have d1 : a + t • (b - a) - a = t • (b - a) := by module
  have d2 : b - (a + t • (b - a)) = (1 - t) • (b - a) := by module
  have l1 : (t • (b - a)).len = t * (b - a).len := by rw [V3.len_smul, abs_of_pos h0]
  have l2 : ((1 - t) • (b - a)).len = (1 - t) * (b - a).len := by rw [V3.len_smul, abs_of_pos t1]
  have ne1 : a ≠ a + t • (b - a) := fun e => by
    have : (a + t • (b - a) - a).len = 0 := by rw [← e]; exact V3.len_eq_zero.2 (by simp)
    rw [d1, l1] at this
    exact (mul_pos h0 hd).ne' this
  have ne2 : a + t • (b - a) ≠ b := fun e => by
    have : (b - (a + t • (b - a))).len = 0 := by rw [e]; exact V3.len_eq_zero.2 (by simp)
    rw [d2, l2] at this
    exact (mul_pos t1 hd).ne' this
  have o1 : OffLine a (a + t • (b - a)) q := fun e => ho (by
    rw [d1] at e
    have := congrArg (fun w => t⁻¹ • w) e
    have e' : (t • (b - a)).cross (q - a) = t • (b - a).cross (q - a) := by ext <;> simp [V3.cross] <;> ring
    simpa only [e', smul_smul, inv_mul_cancel₀ h0.ne', one_smul, smul_zero] using this)
  have o2 : OffLine (a + t • (b - a)) b q := fun e => ho (by
    rw [d2] at e
    have := congrArg (fun w => (1 - t)⁻¹ • w) e
    have e' : ((1 - t) • (b - a)).cross (q - (a + t • (b - a))) = (1 - t) • (b - a).cross (q - a) := by ext <;> simp [V3.cross] <;> ring
    simpa only [e', smul_smul, inv_mul_cancel₀ t1.ne', one_smul, smul_zero] using this)
  have n1 : tan a (a + t • (b - a)) = tan a b := by
    rw [tan, tan, d1, unit, unit, l1]
    ext <;> simp <;> field_simp
  have n2 : tan (a + t • (b - a)) b = tan a b := by
    rw [tan, tan, d2, unit, unit, l2]
    ext <;> simp <;> field_simp
  have c2 : (tan a b).cross (q - (a + t • (b - a))) = (tan a b).cross (q - a) := by
    rw [tan, unit]
    ext <;> simp [V3.cross] <;> ring
  have r1 : rho2 a (a + t • (b - a)) q = rho2 a b q := by rw [rho2_eq ne1, rho2_eq h, n1]
  have r2 : rho2 (a + t • (b - a)) b q = rho2 a b q := by rw [rho2_eq ne2, rho2_eq h, n2, c2]
  have key : fluxFree a b q = fluxFree a (a + t • (b - a)) q + fluxFree (a + t • (b - a)) b q := by
    simp only [fluxFree, n1, n2, r1, r2, c2]
    module
  rw [fluxFree_eq_bs h ho, fluxFree_eq_bs ne1 o1, fluxFree_eq_bs ne2 o2] at key
  have := congrArg (fun w => -w) key
  simpa [neg_add, add_comm] using this

end Verif.Static
