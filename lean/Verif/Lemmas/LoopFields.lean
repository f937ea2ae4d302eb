import Verif.Lemmas.LoopFrame
import Verif.Lemmas.LoopIntegrals
import Verif.Props.LineCurrent

/-! # Closed forms of the loop's fields and their derivatives (helper lemmas) -/

namespace Verif.Static

open Spatial Real

/-- In the frame of a loop of radius `a`, `(rho, z)` is outside the near-axis region and off the wire. -/
structure Plain (a rho z : ℝ) : Prop where
  away : 1e-6 * (a ^ 2 + z ^ 2) ≤ rho ^ 2
  off : (a - rho) ^ 2 + z ^ 2 ≠ 0

variable {s : Loop} {rho z : ℝ}

theorem smallRho_iff {a : ℝ} (ha : 0 < a) : smallRho a rho z ↔ rho ^ 2 < 1e-6 * (a ^ 2 + z ^ 2) := by
  have : 0 < a ^ 2 + z ^ 2 := by positivity
  unfold smallRho
  rw [div_lt_iff₀ this]
  exact ⟨fun h => h.2, fun h => ⟨this.ne', h⟩⟩

theorem Plain.pos {a : ℝ} (h : Plain a rho z) (ha : 0 < a) (hr : 0 ≤ rho) : 0 < rho := by
  rcases hr.lt_or_eq with h1 | h1
  · exact h1
  · have h2 := h.away
    rw [← h1] at h2
    have : 0 < a ^ 2 + z ^ 2 := by positivity
    norm_num at h2
    linarith

theorem potentialPhi_plain (ha : 0 < s.radius) (h : Plain s.radius rho z) (hr : 0 ≤ rho) :
    s.potentialPhi rho z = some (s.mu * s.current / π * loopA s.radius rho z) := by
  have hp := h.pos ha hr
  have hb : ¬ ((s.radius + rho) ^ 2 + z ^ 2 = 0 ∨ (s.radius - rho) ^ 2 + z ^ 2 = 0) := by
    rintro (h1 | h1)
    · have : 0 < (s.radius + rho) ^ 2 + z ^ 2 := by positivity
      exact this.ne' h1
    · exact h.off h1
  have hs : ¬ smallRho s.radius rho z := by rw [smallRho_iff ha]; exact not_lt.2 h.away
  simp only [Loop.potentialPhi, if_neg hs, if_neg hb, loopA]
  congr 1; ring

theorem fluxRhoZ_plain (ha : 0 < s.radius) (h : Plain s.radius rho z) (hr : 0 ≤ rho) :
    s.fluxRhoZ rho z = some (s.mu * s.current / π * loopBr s.radius rho z, s.mu * s.current / π * loopBz s.radius rho z) := by
  have hp := h.pos ha hr
  have hb : ¬ ((s.radius + rho) ^ 2 + z ^ 2 = 0 ∨ (s.radius - rho) ^ 2 + z ^ 2 = 0) := by
    rintro (h1 | h1)
    · have : 0 < (s.radius + rho) ^ 2 + z ^ 2 := by positivity
      exact this.ne' h1
    · exact h.off h1
  have hs : ¬ smallRho s.radius rho z := by rw [smallRho_iff ha]; exact not_lt.2 h.away
  simp only [Loop.fluxRhoZ, if_neg hs, if_neg hb, loopBr, loopBz]
  congr 2 <;> ring

/-- The vector potential of a loop with axis `n`, at `d` from its centre, in units of `mu I / π`. -/
noncomputable def freeA (n : V3 ℝ) (a : ℝ) (d : V3 ℝ) : V3 ℝ :=
  (loopA a (axisDist n d) (n.dot d) / axisDist n d) • n.cross d

/-- Its flux density. -/
noncomputable def freeB (n : V3 ℝ) (a : ℝ) (d : V3 ℝ) : V3 ℝ :=
  (loopBr a (axisDist n d) (n.dot d) / axisDist n d) • (d - n.dot d • n) + loopBz a (axisDist n d) (n.dot d) • n

theorem axisDist_nonneg (n d : V3 ℝ) : 0 ≤ axisDist n d := sqrt_nonneg _

theorem axisDist_eq_cross {n : V3 ℝ} (hn : n.len = 1) (d : V3 ℝ) : axisDist n d = (n.cross d).len := by
  exact (pow_left_inj₀ (axisDist_nonneg n d) (V3.len_nonneg _) two_ne_zero).1 (axisDist_sq_cross hn d)

/-- Derivatives along a line of the distances along and from the axis. -/
theorem hasDerivAt_axis {n : V3 ℝ} (hn : n.len = 1) (d v : V3 ℝ) (h : 0 < axisDist n d) :
    HasDerivAt (fun t : ℝ => axisDist n (d + t • v)) ((d - n.dot d • n).dot v / axisDist n d) 0 ∧
      HasDerivAt (fun t : ℝ => n.dot (d + t • v)) (n.dot v) 0 := by
  have hx : HasDerivAt (fun t : ℝ => d.x + t * v.x) v.x 0 := by simpa using ((hasDerivAt_id (0 : ℝ)).mul_const v.x).const_add d.x
  have hy : HasDerivAt (fun t : ℝ => d.y + t * v.y) v.y 0 := by simpa using ((hasDerivAt_id (0 : ℝ)).mul_const v.y).const_add d.y
  have hz : HasDerivAt (fun t : ℝ => d.z + t * v.z) v.z 0 := by simpa using ((hasDerivAt_id (0 : ℝ)).mul_const v.z).const_add d.z
  have hd : HasDerivAt (fun t : ℝ => n.dot (d + t • v)) (n.dot v) 0 :=
    ((hx.const_mul n.x).fun_add (hy.const_mul n.y)).fun_add (hz.const_mul n.z)
  refine ⟨?_, hd⟩
  have hq : HasDerivAt (fun t : ℝ => (d + t • v).len ^ 2 - n.dot (d + t • v) ^ 2)
      (2 * (d - n.dot d • n).dot v) 0 := by
    have := (((hx.fun_pow 2).fun_add (hy.fun_pow 2)).fun_add (hz.fun_pow 2)).fun_sub (hd.fun_pow 2)
    simp only [V3.len_sq]
    refine this.congr_deriv ?_
    simp [V3.dot]
    ring
  have hpos : (fun t : ℝ => (d + t • v).len ^ 2 - n.dot (d + t • v) ^ 2) 0 ≠ 0 := by
    simp only [zero_smul, add_zero]
    rw [← axisDist_sq hn]
    exact (pow_pos h 2).ne'
  refine (hq.sqrt hpos).congr_deriv ?_
  simp only [zero_smul, add_zero]
  change _ / (2 * axisDist n d) = _
  field_simp

/-- Curl of a multiple of the rotation about an axis. -/
theorem hasCurl_smul_cross {g : V3 ℝ → ℝ} {G p : V3 ℝ} (n o : V3 ℝ) (hg : HasGrad g G p) :
    HasCurl (fun q => g q • n.cross (q - o)) (G.cross (n.cross (p - o)) + (2 * g p) • n) p := by
  have hx := hasGrad_sub_x o p
  have hy := hasGrad_sub_y o p
  have hz := hasGrad_sub_z o p
  refine ⟨⟨_, _, _⟩, ⟨hg.mul ((hz.const_mul n.y).sub (hy.const_mul n.z)), hg.mul ((hx.const_mul n.z).sub (hz.const_mul n.x)),
    hg.mul ((hy.const_mul n.x).sub (hx.const_mul n.y))⟩, ?_⟩
  ext <;> simp [M3.curl] <;> ring

theorem hasGrad_loopCoeff {n : V3 ℝ} (hn : n.len = 1) {a : ℝ} (ha : 0 < a) (o p : V3 ℝ) (hr : 0 < axisDist n (p - o))
    (hne : (a - axisDist n (p - o)) ^ 2 + n.dot (p - o) ^ 2 ≠ 0) :
    HasGrad (fun q => loopA a (axisDist n (q - o)) (n.dot (q - o)) / axisDist n (q - o))
      (((loopBz a (axisDist n (p - o)) (n.dot (p - o)) -
            2 * loopA a (axisDist n (p - o)) (n.dot (p - o)) / axisDist n (p - o)) / axisDist n (p - o) ^ 2) •
          ((p - o) - n.dot (p - o) • n) -
        (loopBr a (axisDist n (p - o)) (n.dot (p - o)) / axisDist n (p - o)) • n) p := by
  intro v
  have e : ∀ t : ℝ, p + t • v - o = (p - o) + t • v := fun t => by abel
  simp only [e]
  generalize p - o = d at *
  obtain ⟨h1, h2⟩ := hasDerivAt_axis hn d v hr
  have h3 := hasDerivAt_loopA ha h1 h2 (by simpa using hr) (by simpa using hne)
  have h4 := h3.fun_div h1 (by simpa using hr.ne')
  refine h4.congr_deriv ?_
  simp only [zero_smul, add_zero]
  generalize loopBz a (axisDist n d) (n.dot d) = bz
  generalize loopBr a (axisDist n d) (n.dot d) = br
  generalize loopA a (axisDist n d) (n.dot d) = A
  have e1 : ∀ w : V3 ℝ, w.app v = w.dot v := fun w => by simp [V3.app, V3.dot]; ring
  have e2 : ∀ (c : ℝ) (x y : V3 ℝ) (b : ℝ), (c • x - b • y).dot v = c * x.dot v - b * y.dot v := fun c x y b => by
    simp [V3.dot]; ring
  rw [e1, e2]
  generalize (d - n.dot d • n).dot v = r'
  generalize axisDist n d = r at *
  field_simp
  ring

theorem freeA_curl {n : V3 ℝ} (hn : n.len = 1) {a : ℝ} (ha : 0 < a) (o p : V3 ℝ) (hr : 0 < axisDist n (p - o))
    (hne : (a - axisDist n (p - o)) ^ 2 + n.dot (p - o) ^ 2 ≠ 0) :
    HasCurl (fun q => freeA n a (q - o)) (freeB n a (p - o)) p := by
  have h := hasCurl_smul_cross n o (hasGrad_loopCoeff hn ha o p hr hne)
  simp only [freeA]
  convert h using 1
  have hsq := axisDist_sq hn (p - o)
  have hn2 : n.dot n = 1 := by rw [V3.dot_self, hn]; norm_num
  unfold freeB
  generalize p - o = d at *
  have i1 : ∀ (c b : ℝ) (x y w : V3 ℝ), (c • x - b • y).cross w = c • x.cross w - b • y.cross w := fun c b x y w => by
    ext <;> simp <;> ring
  have i2 : (d - n.dot d • n).cross (n.cross d) = (axisDist n d ^ 2) • n := by
    rw [hsq, ← V3.dot_self]
    simp only [V3.dot] at hn2
    ext <;> simp [V3.dot]
    · linear_combination (d.x * (n.x * d.x + n.y * d.y + n.z * d.z)) * hn2
    · linear_combination (d.y * (n.x * d.x + n.y * d.y + n.z * d.z)) * hn2
    · linear_combination (d.z * (n.x * d.x + n.y * d.y + n.z * d.z)) * hn2
  have i3 : n.cross (n.cross d) = n.dot d • n - d := by
    simp only [V3.dot] at hn2
    ext <;> simp [V3.dot]
    · linear_combination -d.x * hn2
    · linear_combination -d.y * hn2
    · linear_combination -d.z * hn2
  rw [i1, i2, i3]
  generalize loopBz a (axisDist n d) (n.dot d) = bz
  generalize loopBr a (axisDist n d) (n.dot d) = br
  generalize loopA a (axisDist n d) (n.dot d) = A
  generalize axisDist n d = r at *
  match_scalars <;> field_simp <;> ring

end Verif.Static
