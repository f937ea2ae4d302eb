import Verif.Lemmas.Elastic

/-!
# Turning the axes about the vertical
-/

namespace Verif.Elastic

open Real

/-- The vector with the components of `v` along axes turned about the vertical: `x` along `(c, -s)` and `y` along `(s, c)`. -/
def unturn (c s : ℝ) (v : V3 ℝ) : V3 ℝ := ⟨c * v.x + s * v.y, -s * v.x + c * v.y, v.z⟩

/-- The same for a matrix. -/
def unturnM (c s : ℝ) (J : M3 ℝ) : M3 ℝ :=
  ⟨unturn c s (c • J.x + s • J.y), unturn c s (-s • J.x + c • J.y), unturn c s J.z⟩

variable {c s : ℝ}

theorem unturn_len (h : c ^ 2 + s ^ 2 = 1) (p : V3 ℝ) : (unturn c s p).len = p.len := by
  rw [V3.len, V3.len]
  congr 1
  simp only [unturn]
  linear_combination (p.x ^ 2 + p.y ^ 2) * h

theorem work_unturn (h : c ^ 2 + s ^ 2 = 1) (lam mu : ℝ) (J : M3 ℝ) (b n : V3 ℝ) :
    (unturn c s b).dot (traction (stress lam mu (unturnM c s J)) (unturn c s n)) = b.dot (traction (stress lam mu J) n) := by
  have e1 : stress lam mu (unturnM c s J) = unturnM c s (stress lam mu J) := by
    ext <;> simp only [unturn, unturnM, stress, V3.smul_x, V3.smul_y, V3.smul_z, V3.add_x, V3.add_y, V3.add_z, smul_eq_mul] <;> grind
  have e2 : ∀ S : M3 ℝ, traction (unturnM c s S) (unturn c s n) = unturn c s (traction S n) := by
    intro S
    ext <;> simp only [unturn, unturnM, traction, V3.dot, V3.smul_x, V3.smul_y, V3.smul_z, V3.add_x, V3.add_y, V3.add_z, smul_eq_mul] <;> grind
  rw [e1, e2]
  simp only [unturn, V3.dot]
  grind

theorem work_comb (lam mu p q : ℝ) (J K : M3 ℝ) (b n : V3 ℝ) :
    b.dot (traction (stress lam mu (p • J + q • K)) n) = p * b.dot (traction (stress lam mu J) n) + q * b.dot (traction (stress lam mu K) n) := by
  simp only [traction, stress, V3.dot, V3.smul_x, V3.smul_y, V3.smul_z, V3.add_x, V3.add_y, V3.add_z, smul_eq_mul]
  ring

variable {m : ℝ} {p : V3 ℝ}

theorem jac_unturn (h : c ^ 2 + s ^ 2 = 1) :
    jacX m (unturn c s p) = unturnM c s (c • jacX m p + s • jacY m p) ∧
    jacY m (unturn c s p) = unturnM c s (-s • jacX m p + c • jacY m p) ∧
    jacZ m (unturn c s p) = unturnM c s (jacZ m p) := by
  have hl := unturn_len h p
  have hU : U (unturn c s p) = U p := by simp only [U, hl]
  have hW : W (unturn c s p) = W p := by simp only [W, hl]; rfl
  simp only [jacX, jacY, jacZ, hU, hW]
  generalize U p = u
  generalize W p = w
  clear hU hW hl
  refine ⟨?_, ?_, ?_⟩ <;> ext <;>
    simp only [unturn, unturnM, V3.smul_x, V3.smul_y, V3.smul_z, V3.add_x, V3.add_y, V3.add_z, smul_eq_mul] <;> grind

theorem dislocation_unturn {lam mu : ℝ} (h : c ^ 2 + s ^ 2 = 1) (b n : V3 ℝ) (hp : 0 < p.len - p.z) :
    dislocation lam mu (unturn c s b) (unturn c s n) (unturn c s p) = unturn c s (dislocation lam mu b n p) := by
  have hl := unturn_len h p
  have hp' : 0 < (unturn c s p).len - (unturn c s p).z := by rw [hl]; exact hp
  obtain ⟨jx, jy, jz⟩ := jac_unturn (m := mu / (lam + mu)) (p := p) h
  have hs : ∀ (k : ℝ) (J : M3 ℝ), k • unturnM c s J = unturnM c s (k • J) := by
    intro k J
    ext <;> simp only [unturn, unturnM, V3.smul_x, V3.smul_y, V3.smul_z, V3.add_x, V3.add_y, V3.add_z, smul_eq_mul] <;> ring
  simp only [dislocation, jac_surfaceForce_x lam mu hp, jac_surfaceForce_y lam mu hp, jac_surfaceForce_z lam mu hp,
    jac_surfaceForce_x lam mu hp', jac_surfaceForce_y lam mu hp', jac_surfaceForce_z lam mu hp', jx, jy, jz, hs, work_unturn h]
  have hd : ∀ (k p q : ℝ) (J K : M3 ℝ), k • (p • J + q • K) = p • (k • J) + q • (k • K) := by
    intro k p q J K
    ext <;> simp only [V3.smul_x, V3.smul_y, V3.smul_z, V3.add_x, V3.add_y, V3.add_z, smul_eq_mul] <;> ring
  simp only [hd, work_comb]
  rfl

end Verif.Elastic
