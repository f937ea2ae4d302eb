import Verif.Model.StaticWholeSpace
import Verif.Spec.BiotSavart
import Verif.Props.Rotation
import Verif.Lemmas.Radial
import Verif.Lemmas.Arctan2
import Mathlib.Analysis.SpecialFunctions.Log.Deriv
import Mathlib.MeasureTheory.Integral.IntervalIntegral.FundThmCalculus

/-! # One segment of a line current (helper lemmas) -/

namespace Verif

namespace M3

/-- `mᵀ ((m a) × (m b)) = det m (a × b)`. -/
theorem transpose_cross (m : M3 ℝ) (a b : V3 ℝ) :
    m.transpose.mulVec ((m.mulVec a).cross (m.mulVec b)) = m.det • a.cross b := by
  ext <;> simp only [mulVec, transpose, det, V3.dot, V3.cross, V3.smul_x, V3.smul_y, V3.smul_z,
    smul_eq_mul] <;> ring

end M3

namespace Static

open V3 Spatial BiotSavart

/-- The unit tangent of the segment. -/
noncomputable abbrev tan (p0 p1 : V3 ℝ) : V3 ℝ := unit (p1 - p0)

/-- The direction is exactly along the `x` axis or at least the tolerance away from it. -/
def OffBand (p0 p1 : V3 ℝ) : Prop :=
  ((tan p0 p1).cross ⟨1, 0, 0⟩).len = 0 ∨ defaultTol ≤ ((tan p0 p1).cross ⟨1, 0, 0⟩).len

theorem tan_dot_self {p0 p1 : V3 ℝ} (h : p0 ≠ p1) : (tan p0 p1).dot (tan p0 p1) = 1 :=
  V3.unit_dot (sub_ne_zero.2 h.symm)

theorem unit_ex : unit ⟨1, 0, 0⟩ = ⟨1, 0, 0⟩ := by ext <;> simp [unit, V3.len]

theorem unit_tan {p0 p1 : V3 ℝ} (h : p0 ≠ p1) : unit (tan p0 p1) = tan p0 p1 := by
  have h1 := tan_dot_self h
  rw [V3.dot_self] at h1
  have : (tan p0 p1).len = 1 := by
    have := V3.len_nonneg (tan p0 p1)
    nlinarith
  rw [show unit (tan p0 p1) = (tan p0 p1).map (· / (tan p0 p1).len) from rfl, this]
  ext <;> simp

theorem tan_ne_zero {p0 p1 : V3 ℝ} (h : p0 ≠ p1) : tan p0 p1 ≠ 0 := by
  intro e
  have := tan_dot_self h
  rw [e] at this; simp [V3.dot] at this

/-- The rotation used for a segment. -/
theorem segment_rotation {p0 p1 : V3 ℝ} (h : p0 ≠ p1) :
    ∃ rot, rotationMatrixFromNormals (arr3 (tan p0 p1)) (arr3 ⟨1, 0, 0⟩) defaultTol = .ok rot ∧
      rot.IsRotation ∧ (OffBand p0 p1 → rot.mulVec (tan p0 p1) = ⟨1, 0, 0⟩) := by
  obtain ⟨R, h1, h2, h3, -⟩ := rotationMatrix_spec (arr3 (tan p0 p1)) (arr3 ⟨1, 0, 0⟩) rfl rfl
    (tan_ne_zero h) (by change (⟨1, 0, 0⟩ : V3 ℝ) ≠ 0; simp [V3.ext_iff]) defaultTol
    (by norm_num [defaultTol]) (by norm_num [defaultTol])
  refine ⟨R, h1, h2, fun hb => ?_⟩
  have e1 : unit (vec (arr3 (tan p0 p1))) = tan p0 p1 := unit_tan h
  have e2 : unit (vec (arr3 ⟨1, 0, 0⟩)) = ⟨1, 0, 0⟩ := unit_ex
  rw [e1, e2] at h3
  exact h3 hb

section frame

variable {p0 p1 : V3 ℝ} {rot : M3 ℝ}

theorem frame_x (hr : rot.IsRotation) (ht : rot.mulVec (tan p0 p1) = ⟨1, 0, 0⟩) (v : V3 ℝ) :
    (rot.mulVec v).x = (tan p0 p1).dot v := by
  rw [← hr.dot, ht]; simp [V3.dot]

theorem frame_rho (hr : rot.IsRotation) (ht : rot.mulVec (tan p0 p1) = ⟨1, 0, 0⟩) (v : V3 ℝ) :
    (rot.mulVec v).y ^ 2 + (rot.mulVec v).z ^ 2 = v.len ^ 2 - ((tan p0 p1).dot v) ^ 2 := by
  have h := hr.len v
  rw [← h, V3.len_sq, frame_x hr ht]; ring

theorem frame_shift (ht : rot.mulVec (tan p0 p1) = ⟨1, 0, 0⟩) (h : p0 ≠ p1) (q : V3 ℝ) :
    rot.mulVec (q - p0) - ⟨(p1 - p0).len, 0, 0⟩ = rot.mulVec (q - p1) := by
  have hl := len_sub_ne_zero h.symm
  have e : p1 - p0 = (p1 - p0).len • tan p0 p1 := by
    ext <;> simp [unit] <;> field_simp
  have e2 : rot.mulVec (p1 - p0) = ⟨(p1 - p0).len, 0, 0⟩ := by
    conv_lhs => rw [e]
    rw [M3.mulVec_smul, ht]
    ext <;> simp
  rw [← e2, ← M3.mulVec_sub]
  congr 1
  abel

end frame

/-- Squared distance from the line of the segment. -/
noncomputable def rho2 (p0 p1 q : V3 ℝ) : ℝ := (q - p0).len ^ 2 - ((tan p0 p1).dot (q - p0)) ^ 2

/-- The observation point is off the line through the segment. -/
def OffLine (p0 p1 q : V3 ℝ) : Prop := (p1 - p0).cross (q - p0) ≠ 0

theorem rho2_eq {p0 p1 : V3 ℝ} (h : p0 ≠ p1) (q : V3 ℝ) :
    rho2 p0 p1 q = ((tan p0 p1).cross (q - p0)).dot ((tan p0 p1).cross (q - p0)) := by
  rw [V3.cross_dot_self, tan_dot_self h, V3.dot_self, rho2]; ring

theorem rho2_pos {p0 p1 q : V3 ℝ} (h : p0 ≠ p1) (ho : OffLine p0 p1 q) : 0 < rho2 p0 p1 q := by
  have hl := len_sub_ne_zero h.symm
  rw [rho2_eq h]
  refine lt_of_le_of_ne (V3.dot_self_nonneg _) fun e => ho ?_
  rw [V3.dot_self] at e
  have e' := V3.len_eq_zero.1 (pow_eq_zero_iff (by norm_num) |>.1 e.symm)
  have e2 : (p1 - p0).cross (q - p0) = (p1 - p0).len • (tan p0 p1).cross (q - p0) := by
    ext <;> simp [unit] <;> field_simp
  rw [e2, e', smul_zero]

theorem tan_dot_p1 {p0 p1 : V3 ℝ} (h : p0 ≠ p1) (q : V3 ℝ) :
    (tan p0 p1).dot (q - p1) = (tan p0 p1).dot (q - p0) - (p1 - p0).len := by
  have hl := len_sub_ne_zero h.symm
  have h2 := len_sq (p1 - p0)
  have e : (tan p0 p1).dot (p1 - p0) = (p1 - p0).len := by
    simp only [V3.dot, unit, map_x, map_y, map_z]; field_simp; linear_combination -h2
  rw [← e]
  simp only [V3.dot, sub_x, sub_y, sub_z]; ring

theorem rho2_p1 {p0 p1 : V3 ℝ} (h : p0 ≠ p1) (q : V3 ℝ) :
    (q - p1).len ^ 2 - ((tan p0 p1).dot (q - p1)) ^ 2 = rho2 p0 p1 q := by
  rw [rho2_eq h]
  have e : (tan p0 p1).cross (q - p0) = (tan p0 p1).cross (q - p1) := by
    have hl := len_sub_ne_zero h.symm
    ext <;> simp [unit] <;> field_simp <;> ring
  rw [e, V3.cross_dot_self, tan_dot_self h, V3.dot_self]; ring

/-- The flux of one segment, free of frames (up to the factor of the code). -/
noncomputable def fluxFree (p0 p1 q : V3 ℝ) : V3 ℝ :=
  (((tan p0 p1).dot (q - p1) / (q - p1).len - (tan p0 p1).dot (q - p0) / (q - p0).len) / rho2 p0 p1 q) •
    (tan p0 p1).cross (q - p0)

/-- The potential of one segment, free of frames. -/
noncomputable def potFree (p0 p1 q : V3 ℝ) : V3 ℝ :=
  (Real.log ((tan p0 p1).dot (q - p1) + (q - p1).len) -
    Real.log ((tan p0 p1).dot (q - p0) + (q - p0).len)) • tan p0 p1

theorem segmentFlux_eq {p0 p1 q : V3 ℝ} (h : p0 ≠ p1) (hb : OffBand p0 p1) (ho : OffLine p0 p1 q) :
    segmentFlux p0 p1 q = .ok (fluxFree p0 p1 q) := by
  obtain ⟨rot, h1, hr, ht⟩ := segment_rotation h
  have ht := ht hb
  have hrho := rho2_pos h ho
  have h1' : rotationMatrixFromNormals (arr3 ((p1 - p0).map (· / (p1 - p0).len))) (arr3 ⟨1, 0, 0⟩)
      defaultTol = .ok rot := h1
  simp only [segmentFlux, h1', bind, Except.bind, pure, Except.pure]
  congr 1
  rw [frame_shift ht h]
  simp only [cartToCyl2, cylToCartVec2, map_x, hr.len, frame_x hr ht]
  set θ := arctan2 (rot.mulVec (q - p0)).z (rot.mulVec (q - p0)).y with hθ
  have hc := sqrt_mul_cos_arctan2 (rot.mulVec (q - p0)).z (rot.mulVec (q - p0)).y
  have hs := sqrt_mul_sin_arctan2 (rot.mulVec (q - p0)).z (rot.mulVec (q - p0)).y
  rw [← hθ] at hc hs
  have hq := frame_rho hr ht (q - p0)
  have hsq : Real.sqrt ((rot.mulVec (q - p0)).y ^ 2 + (rot.mulVec (q - p0)).z ^ 2) =
      Real.sqrt (rho2 p0 p1 q) := by rw [hq]; rfl
  rw [hsq] at hc hs ⊢
  have hρ : 0 < Real.sqrt (rho2 p0 p1 q) := Real.sqrt_pos.2 hrho
  have hρ2 : Real.sqrt (rho2 p0 p1 q) ^ 2 = rho2 p0 p1 q := Real.sq_sqrt hrho.le
  set ρ := Real.sqrt (rho2 p0 p1 q)
  set k := (tan p0 p1).dot (q - p1) / (q - p1).len - (tan p0 p1).dot (q - p0) / (q - p0).len
  have hcos : Real.cos θ = (rot.mulVec (q - p0)).y / ρ := by field_simp; linarith
  have hsin : Real.sin θ = (rot.mulVec (q - p0)).z / ρ := by field_simp; linarith
  rw [hcos, hsin]
  have key : (⟨0, 0 * ((rot.mulVec (q - p0)).y / ρ) - k / ρ * ((rot.mulVec (q - p0)).z / ρ),
      0 * ((rot.mulVec (q - p0)).z / ρ) + k / ρ * ((rot.mulVec (q - p0)).y / ρ)⟩ : V3 ℝ) =
      (k / ρ ^ 2) • (rot.mulVec (tan p0 p1)).cross (rot.mulVec (q - p0)) := by
    rw [ht]; ext <;> simp <;> field_simp
  rw [key, M3.mulVec_smul, M3.transpose_cross, hr.2, one_smul, hρ2]
  rfl

theorem add_len_pos {p0 p1 : V3 ℝ} (v : V3 ℝ) (hv : 0 < v.len ^ 2 - ((tan p0 p1).dot v) ^ 2) :
    0 < (tan p0 p1).dot v + v.len := by
  have := V3.len_nonneg v
  have h1 : |(tan p0 p1).dot v| < v.len := abs_lt_of_sq_lt_sq (by linarith) this
  linarith [neg_abs_le ((tan p0 p1).dot v)]

theorem fzy_eq (v : V3 ℝ) (h : 0 < v.x + v.len) : -Prism.Py.prismFzy v.x v.y v.z = Real.log (v.x + v.len) := by
  have e : Real.sqrt (v.x * v.x + v.y * v.y + v.z * v.z) = v.len := by
    rw [V3.len]; congr 1; ring
  simp only [Prism.Py.prismFzy, e]
  simp [h.ne']

theorem segmentPotential_eq {p0 p1 q : V3 ℝ} (h : p0 ≠ p1) (hb : OffBand p0 p1)
    (ho : OffLine p0 p1 q) : segmentPotential p0 p1 q = .ok (potFree p0 p1 q) := by
  obtain ⟨rot, h1, hr, ht⟩ := segment_rotation h
  have ht := ht hb
  have hrho := rho2_pos h ho
  have h1' : rotationMatrixFromNormals (arr3 ((p1 - p0).map (· / (p1 - p0).len))) (arr3 ⟨1, 0, 0⟩)
      defaultTol = .ok rot := h1
  simp only [segmentPotential, h1', bind, Except.bind, pure, Except.pure]
  congr 1
  rw [frame_shift ht h]
  have a0 : 0 < (tan p0 p1).dot (q - p0) + (q - p0).len := add_len_pos _ hrho
  have a1 : 0 < (tan p0 p1).dot (q - p1) + (q - p1).len :=
    add_len_pos _ (by rw [rho2_p1 h]; exact hrho)
  rw [fzy_eq _ (by rw [frame_x hr ht, hr.len]; exact a1), fzy_eq _ (by rw [frame_x hr ht, hr.len]; exact a0),
    frame_x hr ht, frame_x hr ht, hr.len, hr.len]
  have key : ∀ k : ℝ, (⟨k, 0, 0⟩ : V3 ℝ) = k • rot.mulVec (tan p0 p1) := by
    intro k; rw [ht]; ext <;> simp
  rw [key, M3.mulVec_smul, hr.transpose_mulVec]
  rfl

/-- The potential of a segment is defined everywhere (no exception), whatever the point. -/
theorem segmentPotential_ok {p0 p1 : V3 ℝ} (h : p0 ≠ p1) (q : V3 ℝ) :
    ∃ a, segmentPotential p0 p1 q = .ok a := by
  obtain ⟨rot, h1, -⟩ := segment_rotation h
  have h1' : rotationMatrixFromNormals (arr3 ((p1 - p0).map (· / (p1 - p0).len))) (arr3 ⟨1, 0, 0⟩)
      defaultTol = .ok rot := h1
  simp only [segmentPotential, h1', bind, Except.bind, pure, Except.pure]
  exact ⟨_, rfl⟩

/-- Being off the line is stable along lines. -/
theorem eventually_offLine {p0 p1 q : V3 ℝ} (ho : OffLine p0 p1 q) (v : V3 ℝ) :
    ∀ᶠ t : ℝ in nhds 0, OffLine p0 p1 (q + t • v) := by
  have hc : ContinuousAt (fun t : ℝ => ((p1 - p0).cross (q + t • v - p0)).dot
      ((p1 - p0).cross (q + t • v - p0))) 0 := by
    simp only [V3.dot, V3.cross, V3.sub_x, V3.sub_y, V3.sub_z, V3.add_x, V3.add_y, V3.add_z, V3.smul_x,
      V3.smul_y, V3.smul_z, smul_eq_mul]
    fun_prop
  have h0 : ((p1 - p0).cross (q + (0:ℝ) • v - p0)).dot ((p1 - p0).cross (q + (0:ℝ) • v - p0)) ≠ 0 := by
    rw [zero_smul, add_zero, V3.dot_self]
    exact pow_ne_zero 2 (V3.len_pos ho).ne'
  filter_upwards [hc.eventually_ne h0] with t ht e
  apply ht; rw [e]; simp [V3.dot]

/-- curl of the potential of one segment. -/
theorem potFree_curl {p0 p1 p : V3 ℝ} (h : p0 ≠ p1) (ho : OffLine p0 p1 p) :
    HasCurl (potFree p0 p1) (fluxFree p0 p1 p) p := by
  have hrho := rho2_pos h ho
  have hrho1 := hrho
  rw [← rho2_p1 h] at hrho1
  have a0 := add_len_pos (p - p0) hrho
  have a1 := add_len_pos (p - p1) hrho1
  have l0 : (p - p0).len ≠ 0 := by
    intro e; rw [rho2, e] at hrho; nlinarith [sq_nonneg ((tan p0 p1).dot (p - p0))]
  have l1 : (p - p1).len ≠ 0 := by
    intro e; rw [e] at hrho1; nlinarith [sq_nonneg ((tan p0 p1).dot (p - p1))]
  have g : ∀ c : V3 ℝ, (p - c).len ≠ 0 → (tan p0 p1).dot (p - c) + (p - c).len ≠ 0 →
      HasGrad (fun q => Real.log ((tan p0 p1).dot (q - c) + (q - c).len))
        (V3.map (fun x => x • ((tan p0 p1).dot (p - c) + (p - c).len)⁻¹)
          (tan p0 p1 + (p - c).map (· / (p - c).len))) p := fun c hc hn =>
    HasGrad.comp (f := fun q => (tan p0 p1).dot (q - c) + (q - c).len) (Real.hasDerivAt_log hn)
      ((hasGrad_dot (tan p0 p1) c p).add (hasGrad_len_sub c p hc))
  have G := (g p1 l1 a1.ne').sub (g p0 l0 a0.ne')
  have hdot1 := tan_dot_p1 h p
  have hR : rho2 p0 p1 p = (p - p0).len ^ 2 - ((tan p0 p1).dot (p - p0)) ^ 2 := rfl
  have hR1 := rho2_p1 h p
  refine ⟨⟨_, _, _⟩, ⟨(G.mul_const (tan p0 p1).x).congr rfl, (G.mul_const (tan p0 p1).y).congr rfl,
    (G.mul_const (tan p0 p1).z).congr rfl⟩, ?_⟩
  have ecr : (tan p0 p1).cross (p - p1) = (tan p0 p1).cross (p - p0) := by
    have hl := len_sub_ne_zero h.symm
    ext <;> simp [unit] <;> field_simp <;> ring
  -- coefficients
  set T := tan p0 p1 with hT
  set s0 := T.dot (p - p0)
  set s1 := T.dot (p - p1)
  set r0 := (p - p0).len
  set r1 := (p - p1).len
  set ρ := rho2 p0 p1 p
  have c0 : (s0 + r0)⁻¹ * (1 / r0) = (1 - s0 / r0) / ρ := by
    rw [hR]; 
    have : r0 ^ 2 - s0 ^ 2 ≠ 0 := by rw [← hR]; exact hrho.ne'
    field_simp; ring
  have c1 : (s1 + r1)⁻¹ * (1 / r1) = (1 - s1 / r1) / ρ := by
    rw [← hR1]
    have : r1 ^ 2 - s1 ^ 2 ≠ 0 := by rw [hR1]; exact hrho.ne'
    field_simp; ring
  have ex := congrArg V3.x ecr
  have ey := congrArg V3.y ecr
  have ez := congrArg V3.z ecr
  simp only [V3.cross_x, V3.cross_y, V3.cross_z] at ex ey ez
  ext
  · simp only [M3.curl, V3.sub_x, V3.sub_y, V3.sub_z, V3.map_x, V3.map_y, V3.map_z, V3.add_x, V3.add_y,
      V3.add_z, fluxFree, V3.smul_x, V3.cross_x, smul_eq_mul] at c0 c1 ex ⊢
    have e0 : (s1 / r1 - s0 / r0) / ρ = (s0 + r0)⁻¹ * (1 / r0) - (s1 + r1)⁻¹ * (1 / r1) := by
      rw [c0, c1]; ring
    change _ = (s1 / r1 - s0 / r0) / ρ * _
    rw [e0]
    linear_combination (-(s1 + r1)⁻¹ * (1 / r1)) * ex
  · simp only [M3.curl, V3.sub_x, V3.sub_y, V3.sub_z, V3.map_x, V3.map_y, V3.map_z, V3.add_x, V3.add_y,
      V3.add_z, fluxFree, V3.smul_y, V3.cross_y, smul_eq_mul] at c0 c1 ey ⊢
    have e0 : (s1 / r1 - s0 / r0) / ρ = (s0 + r0)⁻¹ * (1 / r0) - (s1 + r1)⁻¹ * (1 / r1) := by
      rw [c0, c1]; ring
    change _ = (s1 / r1 - s0 / r0) / ρ * _
    rw [e0]
    linear_combination (-(s1 + r1)⁻¹ * (1 / r1)) * ey
  · simp only [M3.curl, V3.sub_x, V3.sub_y, V3.sub_z, V3.map_x, V3.map_y, V3.map_z, V3.add_x, V3.add_y,
      V3.add_z, fluxFree, V3.smul_z, V3.cross_z, smul_eq_mul] at c0 c1 ez ⊢
    have e0 : (s1 / r1 - s0 / r0) / ρ = (s0 + r0)⁻¹ * (1 / r0) - (s1 + r1)⁻¹ * (1 / r1) := by
      rw [c0, c1]; ring
    change _ = (s1 / r1 - s0 / r0) / ρ * _
    rw [e0]
    linear_combination (-(s1 + r1)⁻¹ * (1 / r1)) * ez

/-- The integral of Biot–Savart over one segment in closed form. -/
theorem segment_integral {p0 p1 q : V3 ℝ} (h : p0 ≠ p1) (ho : OffLine p0 p1 q) :
    segment p0 p1 q = -fluxFree p0 p1 q := by
  have hrho := rho2_pos h ho
  have hl := len_sub_pos h.symm
  set l := (p1 - p0).len with hl'
  set T := tan p0 p1 with hT
  set s := T.dot (q - p0) with hs
  set ρ := rho2 p0 p1 q with hρ
  have eL : p1 - p0 = l • T := by ext <;> simp [hT, unit, ← hl'] <;> field_simp
  have hTT : T.dot T = 1 := tan_dot_self h
  -- distance along the segment
  have hd : ∀ t : ℝ, (q - (p0 + t • (p1 - p0))).len ^ 2 = (s - t * l) ^ 2 + ρ := by
    intro t
    have e1 : (q - (p0 + t • (p1 - p0))).len ^ 2 =
        (q - p0).len ^ 2 - 2 * t * l * s + t ^ 2 * l ^ 2 * T.dot T := by
      rw [eL, V3.len_sq, V3.len_sq, hs]
      simp only [V3.dot, V3.sub_x, V3.sub_y, V3.sub_z, V3.add_x, V3.add_y, V3.add_z, V3.smul_x, V3.smul_y,
        V3.smul_z, smul_eq_mul]
      ring
    rw [e1, hTT, hρ, rho2]; ring
  have hdpos : ∀ t : ℝ, 0 < (s - t * l) ^ 2 + ρ := fun t => by positivity
  have hdl : ∀ t : ℝ, (q - (p0 + t • (p1 - p0))).len = Real.sqrt ((s - t * l) ^ 2 + ρ) := fun t => by
    rw [← hd t, Real.sqrt_sq (V3.len_nonneg _)]
  have hint : ∀ t : ℝ, integrand p0 p1 q t =
      (l / Real.sqrt ((s - t * l) ^ 2 + ρ) ^ 3) • T.cross (q - p0) := by
    intro t
    simp only [integrand, hdl t]
    rw [eL]
    ext <;> simp <;> ring
  -- antiderivative
  have hder : ∀ t : ℝ, HasDerivAt (fun t : ℝ => -(s - t * l) / (ρ * Real.sqrt ((s - t * l) ^ 2 + ρ)))
      (l / Real.sqrt ((s - t * l) ^ 2 + ρ) ^ 3) t := by
    intro t
    have h1 : HasDerivAt (fun t : ℝ => s - t * l) (-l) t := by
      simpa using ((hasDerivAt_id t).mul_const l).const_sub s
    have h2 := ((h1.pow 2).add_const ρ).sqrt (hdpos t).ne'
    have h3 := h1.neg.div (h2.const_mul ρ)
      (mul_ne_zero hrho.ne' (Real.sqrt_pos.2 (hdpos t)).ne')
    refine h3.congr_deriv ?_
    have hsq := Real.sq_sqrt (hdpos t).le
    have hp := (Real.sqrt_pos.2 (hdpos t)).ne'
    simp only [Pi.pow_apply, Pi.neg_apply, neg_neg, Nat.cast_ofNat, Nat.add_one_sub_one, pow_one]
    set D := Real.sqrt ((s - t * l) ^ 2 + ρ)
    field_simp
    rw [hsq]; ring
  have hcont : Continuous (fun t : ℝ => l / Real.sqrt ((s - t * l) ^ 2 + ρ) ^ 3) := by
    refine continuous_const.div (by fun_prop) fun t => ?_
    exact pow_ne_zero 3 (Real.sqrt_pos.2 (hdpos t)).ne'
  have hI : ∫ t in (0:ℝ)..1, l / Real.sqrt ((s - t * l) ^ 2 + ρ) ^ 3 =
      -(s - l) / (ρ * Real.sqrt ((s - l) ^ 2 + ρ)) - -s / (ρ * Real.sqrt (s ^ 2 + ρ)) := by
    rw [intervalIntegral.integral_eq_sub_of_hasDerivAt (fun t _ => hder t)
      (hcont.intervalIntegrable _ _)]
    simp
  have e0 : (q - p0).len = Real.sqrt (s ^ 2 + ρ) := by
    have := hdl 0; simpa using this
  have e1 : (q - p1).len = Real.sqrt ((s - l) ^ 2 + ρ) := by
    have := hdl 1
    rw [one_mul, one_smul] at this
    rw [← this]; congr 1; abel
  have es1 : T.dot (q - p1) = s - l := tan_dot_p1 h q
  have hsc : ∀ c : ℝ, ∫ t in (0:ℝ)..1, l / Real.sqrt ((s - t * l) ^ 2 + ρ) ^ 3 * c =
      -(((s - l) / (q - p1).len - s / (q - p0).len) / ρ * c) := by
    intro c
    rw [intervalIntegral.integral_mul_const, hI, ← e0, ← e1]
    have := hrho.ne'
    field_simp
    ring
  simp only [BiotSavart.segment, hint, V3.smul_x, V3.smul_y, V3.smul_z, smul_eq_mul]
  rw [hsc, hsc, hsc]
  simp only [fluxFree, ← hT, ← hs, es1, ← hρ]
  ext <;> simp

end Static

end Verif
