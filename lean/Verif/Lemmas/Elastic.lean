import Verif.Spec.Elastic
import Verif.Lemmas.Grad

/-! # The fields of surface forces, differentiated (helper lemmas) -/

namespace Verif.Elastic

open Real

theorem _root_.Verif.HasGrad.pow {f : V3 ℝ → ℝ} {a : V3 ℝ} {p : V3 ℝ} (hf : HasGrad f a p) (n : ℕ) :
    HasGrad (fun q => f q ^ n) (a.map (n * f p ^ (n - 1) * ·)) p := fun v => by
  refine ((hf v).fun_pow n).congr_deriv ?_
  simp [V3.app]; ring

/-- `1/R` -/
noncomputable def U (q : V3 ℝ) : ℝ := (q.len)⁻¹

/-- `1/(R - z)` -/
noncomputable def W (q : V3 ℝ) : ℝ := (q.len - q.z)⁻¹

theorem len_pos_of {p : V3 ℝ} (h : 0 < p.len - p.z) : 0 < p.len := by
  rcases (V3.len_nonneg p).lt_or_eq with h1 | h1
  · exact h1
  · have : p.len ^ 2 = 0 := by rw [← h1]; ring
    rw [V3.len_sq] at this
    have : p.z = 0 := by nlinarith [sq_nonneg p.x, sq_nonneg p.y, sq_nonneg p.z]
    linarith

theorem hasGrad_len {p : V3 ℝ} (h : 0 < p.len) : HasGrad V3.len (p.map (· * U p)) p := by
  have e : ∀ q : V3 ℝ, q - 0 = q := fun q => by ext <;> simp
  have := hasGrad_len_sub 0 p (by rw [e]; exact h.ne')
  simp only [e] at this
  exact this

theorem hasGrad_U {p : V3 ℝ} (h : 0 < p.len - p.z) : HasGrad U ⟨-p.x * U p ^ 3, -p.y * U p ^ 3, -p.z * U p ^ 3⟩ p := by
  have hp := len_pos_of h
  refine ((hasGrad_len hp).comp (g := fun r => r⁻¹) (hasDerivAt_inv hp.ne')).congr ?_
  ext <;> simp [U] <;> field_simp

theorem hasGrad_W {p : V3 ℝ} (h : 0 < p.len - p.z) :
    HasGrad W ⟨-p.x * U p * W p ^ 2, -p.y * U p * W p ^ 2, (1 - p.z * U p) * W p ^ 2⟩ p := by
  have hp := len_pos_of h
  refine (((hasGrad_len hp).sub (hasGrad_z p)).comp (g := fun r => r⁻¹) (hasDerivAt_inv h.ne')).congr ?_
  ext <;> simp [W] <;> field_simp
  ring

/-- The field of a unit force along `x`, up to the factor `1/(4πμ)`. -/
noncomputable def forceX (m : ℝ) (q : V3 ℝ) : V3 ℝ :=
  ⟨U q + q.x ^ 2 * U q ^ 3 + m * W q - m * q.x ^ 2 * U q * W q ^ 2,
   q.x * q.y * U q ^ 3 - m * q.x * q.y * U q * W q ^ 2,
   q.x * q.z * U q ^ 3 - m * q.x * U q * W q⟩

/-- Its Jacobian. -/
noncomputable def jacX (m : ℝ) (p : V3 ℝ) : M3 ℝ :=
  ⟨⟨p.x * U p ^ 3 - 3 * p.x ^ 3 * U p ^ 5 - 3 * m * p.x * U p * W p ^ 2 + m * p.x ^ 3 * U p ^ 3 * W p ^ 2 + 2 * m * p.x ^ 3 * U p ^ 2
       * W p ^ 3,
     -p.y * U p ^ 3 - 3 * p.x ^ 2 * p.y * U p ^ 5 - m * p.y * U p * W p ^ 2 + m * p.x ^ 2 * p.y * U p ^ 3 * W p ^ 2 + 2 * m * p.x ^ 2 *
       p.y * U p ^ 2 * W p ^ 3,
     -p.z * U p ^ 3 - 3 * p.x ^ 2 * p.z * U p ^ 5 + m * W p ^ 2 - m * p.z * U p * W p ^ 2 + m * p.x ^ 2 * p.z * U p ^ 3 * W p ^ 2 - 2 *
       m * p.x ^ 2 * U p * W p ^ 3 + 2 * m * p.x ^ 2 * p.z * U p ^ 2 * W p ^ 3⟩,
   ⟨p.y * U p ^ 3 - 3 * p.x ^ 2 * p.y * U p ^ 5 - m * p.y * U p * W p ^ 2 + m * p.x ^ 2 * p.y * U p ^ 3 * W p ^ 2 + 2 * m * p.x ^ 2 *
       p.y * U p ^ 2 * W p ^ 3,
     p.x * U p ^ 3 - 3 * p.x * p.y ^ 2 * U p ^ 5 - m * p.x * U p * W p ^ 2 + m * p.x * p.y ^ 2 * U p ^ 3 * W p ^ 2 + 2 * m * p.x * p.y
       ^ 2 * U p ^ 2 * W p ^ 3,
     -3 * p.x * p.y * p.z * U p ^ 5 + m * p.x * p.y * p.z * U p ^ 3 * W p ^ 2 - 2 * m * p.x * p.y * U p * W p ^ 3 + 2 * m * p.x * p.y *
       p.z * U p ^ 2 * W p ^ 3⟩,
   ⟨p.z * U p ^ 3 - 3 * p.x ^ 2 * p.z * U p ^ 5 - m * U p * W p + m * p.x ^ 2 * U p ^ 3 * W p + m * p.x ^ 2 * U p ^ 2 * W p ^ 2,
     -3 * p.x * p.y * p.z * U p ^ 5 + m * p.x * p.y * U p ^ 3 * W p + m * p.x * p.y * U p ^ 2 * W p ^ 2,
     p.x * U p ^ 3 - 3 * p.x * p.z ^ 2 * U p ^ 5 + m * p.x * p.z * U p ^ 3 * W p - m * p.x * U p * W p ^ 2 + m * p.x * p.z * U p ^ 2 *
       W p ^ 2⟩⟩

theorem hasJac_forceX (m : ℝ) {p : V3 ℝ} (h : 0 < p.len - p.z) : HasJac (forceX m) (jacX m p) p := by
  have hx := hasGrad_x p
  have hy := hasGrad_y p
  have hz := hasGrad_z p
  have hU := hasGrad_U h
  have hW := hasGrad_W h
  refine ⟨?_, ?_, ?_⟩
  · refine HasGrad.congr
      (((hU.add ((hx.pow 2).mul (hU.pow 3))).add ((hasGrad_const m p).mul hW)).sub ((((hasGrad_const m p).mul (hx.pow 2)).mul hU).mul
        (hW.pow 2))) ?_
    ext <;> simp [jacX] <;> ring
  · refine HasGrad.congr
      (((hx.mul hy).mul (hU.pow 3)).sub (((((hasGrad_const m p).mul hx).mul hy).mul hU).mul (hW.pow 2))) ?_
    ext <;> simp [jacX] <;> ring
  · refine HasGrad.congr
      (((hx.mul hz).mul (hU.pow 3)).sub ((((hasGrad_const m p).mul hx).mul hU).mul hW)) ?_
    ext <;> simp [jacX] <;> ring

/-- The field of a unit force along `y`, up to the factor `1/(4πμ)`. -/
noncomputable def forceY (m : ℝ) (q : V3 ℝ) : V3 ℝ :=
  ⟨q.x * q.y * U q ^ 3 - m * q.x * q.y * U q * W q ^ 2,
   U q + q.y ^ 2 * U q ^ 3 + m * W q - m * q.y ^ 2 * U q * W q ^ 2,
   q.y * q.z * U q ^ 3 - m * q.y * U q * W q⟩

/-- Its Jacobian. -/
noncomputable def jacY (m : ℝ) (p : V3 ℝ) : M3 ℝ :=
  ⟨⟨p.y * U p ^ 3 - 3 * p.x ^ 2 * p.y * U p ^ 5 - m * p.y * U p * W p ^ 2 + m * p.x ^ 2 * p.y * U p ^ 3 * W p ^ 2 + 2 * m * p.x ^ 2 *
       p.y * U p ^ 2 * W p ^ 3,
     p.x * U p ^ 3 - 3 * p.x * p.y ^ 2 * U p ^ 5 - m * p.x * U p * W p ^ 2 + m * p.x * p.y ^ 2 * U p ^ 3 * W p ^ 2 + 2 * m * p.x * p.y
       ^ 2 * U p ^ 2 * W p ^ 3,
     -3 * p.x * p.y * p.z * U p ^ 5 + m * p.x * p.y * p.z * U p ^ 3 * W p ^ 2 - 2 * m * p.x * p.y * U p * W p ^ 3 + 2 * m * p.x * p.y *
       p.z * U p ^ 2 * W p ^ 3⟩,
   ⟨-p.x * U p ^ 3 - 3 * p.x * p.y ^ 2 * U p ^ 5 - m * p.x * U p * W p ^ 2 + m * p.x * p.y ^ 2 * U p ^ 3 * W p ^ 2 + 2 * m * p.x * p.y
       ^ 2 * U p ^ 2 * W p ^ 3,
     p.y * U p ^ 3 - 3 * p.y ^ 3 * U p ^ 5 - 3 * m * p.y * U p * W p ^ 2 + m * p.y ^ 3 * U p ^ 3 * W p ^ 2 + 2 * m * p.y ^ 3 * U p ^ 2
       * W p ^ 3,
     -p.z * U p ^ 3 - 3 * p.y ^ 2 * p.z * U p ^ 5 + m * W p ^ 2 - m * p.z * U p * W p ^ 2 + m * p.y ^ 2 * p.z * U p ^ 3 * W p ^ 2 - 2 *
       m * p.y ^ 2 * U p * W p ^ 3 + 2 * m * p.y ^ 2 * p.z * U p ^ 2 * W p ^ 3⟩,
   ⟨-3 * p.x * p.y * p.z * U p ^ 5 + m * p.x * p.y * U p ^ 3 * W p + m * p.x * p.y * U p ^ 2 * W p ^ 2,
     p.z * U p ^ 3 - 3 * p.y ^ 2 * p.z * U p ^ 5 - m * U p * W p + m * p.y ^ 2 * U p ^ 3 * W p + m * p.y ^ 2 * U p ^ 2 * W p ^ 2,
     p.y * U p ^ 3 - 3 * p.y * p.z ^ 2 * U p ^ 5 + m * p.y * p.z * U p ^ 3 * W p - m * p.y * U p * W p ^ 2 + m * p.y * p.z * U p ^ 2 *
       W p ^ 2⟩⟩

theorem hasJac_forceY (m : ℝ) {p : V3 ℝ} (h : 0 < p.len - p.z) : HasJac (forceY m) (jacY m p) p := by
  have hx := hasGrad_x p
  have hy := hasGrad_y p
  have hz := hasGrad_z p
  have hU := hasGrad_U h
  have hW := hasGrad_W h
  refine ⟨?_, ?_, ?_⟩
  · refine HasGrad.congr
      (((hx.mul hy).mul (hU.pow 3)).sub (((((hasGrad_const m p).mul hx).mul hy).mul hU).mul (hW.pow 2))) ?_
    ext <;> simp [jacY] <;> ring
  · refine HasGrad.congr
      (((hU.add ((hy.pow 2).mul (hU.pow 3))).add ((hasGrad_const m p).mul hW)).sub ((((hasGrad_const m p).mul (hy.pow 2)).mul hU).mul
        (hW.pow 2))) ?_
    ext <;> simp [jacY] <;> ring
  · refine HasGrad.congr
      (((hy.mul hz).mul (hU.pow 3)).sub ((((hasGrad_const m p).mul hy).mul hU).mul hW)) ?_
    ext <;> simp [jacY] <;> ring

/-- The field of a unit force along `z`, up to the factor `1/(4πμ)`. -/
noncomputable def forceZ (m : ℝ) (q : V3 ℝ) : V3 ℝ :=
  ⟨q.x * q.z * U q ^ 3 + m * q.x * U q * W q,
   q.y * q.z * U q ^ 3 + m * q.y * U q * W q,
   U q + q.z ^ 2 * U q ^ 3 + m * U q⟩

/-- Its Jacobian. -/
noncomputable def jacZ (m : ℝ) (p : V3 ℝ) : M3 ℝ :=
  ⟨⟨p.z * U p ^ 3 - 3 * p.x ^ 2 * p.z * U p ^ 5 + m * U p * W p - m * p.x ^ 2 * U p ^ 3 * W p - m * p.x ^ 2 * U p ^ 2 * W p ^ 2,
     -3 * p.x * p.y * p.z * U p ^ 5 - m * p.x * p.y * U p ^ 3 * W p - m * p.x * p.y * U p ^ 2 * W p ^ 2,
     p.x * U p ^ 3 - 3 * p.x * p.z ^ 2 * U p ^ 5 - m * p.x * p.z * U p ^ 3 * W p + m * p.x * U p * W p ^ 2 - m * p.x * p.z * U p ^ 2 *
       W p ^ 2⟩,
   ⟨-3 * p.x * p.y * p.z * U p ^ 5 - m * p.x * p.y * U p ^ 3 * W p - m * p.x * p.y * U p ^ 2 * W p ^ 2,
     p.z * U p ^ 3 - 3 * p.y ^ 2 * p.z * U p ^ 5 + m * U p * W p - m * p.y ^ 2 * U p ^ 3 * W p - m * p.y ^ 2 * U p ^ 2 * W p ^ 2,
     p.y * U p ^ 3 - 3 * p.y * p.z ^ 2 * U p ^ 5 - m * p.y * p.z * U p ^ 3 * W p + m * p.y * U p * W p ^ 2 - m * p.y * p.z * U p ^ 2 *
       W p ^ 2⟩,
   ⟨-p.x * U p ^ 3 - 3 * p.x * p.z ^ 2 * U p ^ 5 - m * p.x * U p ^ 3,
     -p.y * U p ^ 3 - 3 * p.y * p.z ^ 2 * U p ^ 5 - m * p.y * U p ^ 3,
     p.z * U p ^ 3 - 3 * p.z ^ 3 * U p ^ 5 - m * p.z * U p ^ 3⟩⟩

theorem hasJac_forceZ (m : ℝ) {p : V3 ℝ} (h : 0 < p.len - p.z) : HasJac (forceZ m) (jacZ m p) p := by
  have hx := hasGrad_x p
  have hy := hasGrad_y p
  have hz := hasGrad_z p
  have hU := hasGrad_U h
  have hW := hasGrad_W h
  refine ⟨?_, ?_, ?_⟩
  · refine HasGrad.congr
      (((hx.mul hz).mul (hU.pow 3)).add ((((hasGrad_const m p).mul hx).mul hU).mul hW)) ?_
    ext <;> simp [jacZ] <;> ring
  · refine HasGrad.congr
      (((hy.mul hz).mul (hU.pow 3)).add ((((hasGrad_const m p).mul hy).mul hU).mul hW)) ?_
    ext <;> simp [jacZ] <;> ring
  · refine HasGrad.congr
      ((hU.add ((hz.pow 2).mul (hU.pow 3))).add ((hasGrad_const m p).mul hU)) ?_
    ext <;> simp [jacZ] <;> ring
theorem jac_eq {F : V3 ℝ → V3 ℝ} {J : M3 ℝ} {p : V3 ℝ} (h : HasJac F J p) : jac F p = J := by
  obtain ⟨hx, hy, hz⟩ := h
  obtain ⟨a1, a2, a3⟩ := hx.partials
  obtain ⟨b1, b2, b3⟩ := hy.partials
  obtain ⟨c1, c2, c3⟩ := hz.partials
  ext <;> simp only [jac]
  exacts [a1.deriv, a2.deriv, a3.deriv, b1.deriv, b2.deriv, b3.deriv, c1.deriv, c2.deriv, c3.deriv]

theorem hasJac_smul {F : V3 ℝ → V3 ℝ} {J : M3 ℝ} {p : V3 ℝ} (c : ℝ) (h : HasJac F J p) : HasJac (fun q => c • F q) (c • J) p :=
  ⟨(h.1.const_mul c).congr (by ext <;> simp), (h.2.1.const_mul c).congr (by ext <;> simp), (h.2.2.const_mul c).congr (by ext <;> simp)⟩

theorem surfaceForce_x (lam mu : ℝ) : (fun q => (surfaceForce lam mu q).x) = fun q => (1 / (4 * π * mu)) • forceX (mu / (lam + mu)) q := by
  funext q
  ext <;> simp only [surfaceForce, forceX, U, W, V3.smul_x, V3.smul_y, V3.smul_z, smul_eq_mul, div_eq_mul_inv, mul_inv, inv_pow] <;> ring

theorem surfaceForce_y (lam mu : ℝ) : (fun q => (surfaceForce lam mu q).y) = fun q => (1 / (4 * π * mu)) • forceY (mu / (lam + mu)) q := by
  funext q
  ext <;> simp only [surfaceForce, forceY, U, W, V3.smul_x, V3.smul_y, V3.smul_z, smul_eq_mul, div_eq_mul_inv, mul_inv, inv_pow] <;> ring

theorem surfaceForce_z (lam mu : ℝ) : (fun q => (surfaceForce lam mu q).z) = fun q => (1 / (4 * π * mu)) • forceZ (mu / (lam + mu)) q := by
  funext q
  ext <;> simp only [surfaceForce, forceZ, U, W, V3.smul_x, V3.smul_y, V3.smul_z, smul_eq_mul, div_eq_mul_inv, mul_inv, inv_pow] <;> ring

theorem jac_surfaceForce_x (lam mu : ℝ) {p : V3 ℝ} (h : 0 < p.len - p.z) :
    jac (fun q => (surfaceForce lam mu q).x) p = (1 / (4 * π * mu)) • jacX (mu / (lam + mu)) p := by
  rw [surfaceForce_x]
  exact jac_eq (hasJac_smul _ (hasJac_forceX _ h))

theorem jac_surfaceForce_y (lam mu : ℝ) {p : V3 ℝ} (h : 0 < p.len - p.z) :
    jac (fun q => (surfaceForce lam mu q).y) p = (1 / (4 * π * mu)) • jacY (mu / (lam + mu)) p := by
  rw [surfaceForce_y]
  exact jac_eq (hasJac_smul _ (hasJac_forceY _ h))

theorem jac_surfaceForce_z (lam mu : ℝ) {p : V3 ℝ} (h : 0 < p.len - p.z) :
    jac (fun q => (surfaceForce lam mu q).z) p = (1 / (4 * π * mu)) • jacZ (mu / (lam + mu)) p := by
  rw [surfaceForce_z]
  exact jac_eq (hasJac_smul _ (hasJac_forceZ _ h))

/-- For a slip along the fault the dilatation does no work. -/
theorem dot_traction (lam mu c : ℝ) (J : M3 ℝ) (b n : V3 ℝ) (hbn : b.dot n = 0) (hmu : mu ≠ 0) (hc : c = 1 / (4 * π * mu)) :
    b.dot (traction (stress lam mu (c • J)) n) = (b.dot (traction (stress 0 1 J) n)) / (4 * π) := by
  have hp : π ≠ 0 := pi_ne_zero
  simp only [V3.dot] at hbn
  have e1 : c * mu = 1 / (4 * π) := by rw [hc]; field_simp
  have e2 : b.dot (traction (stress lam mu (c • J)) n) = (c * mu) * (b.dot (traction (stress 0 1 J) n)) := by
    simp only [V3.dot, traction, stress, V3.smul_x, V3.smul_y, V3.smul_z, smul_eq_mul]
    linear_combination lam * c * (J.x.x + J.y.y + J.z.z) * hbn
  rw [e2, e1]
  ring

end Verif.Elastic
