import Verif.Lemmas.LineSegment

/-! # Curl and divergence of the flux density of a segment -/

namespace Verif.Static

open V3 Spatial BiotSavart

/-- The algebra behind the curl: `c` is the gradient of the factor of `t × d`. -/
theorem ampere_algebra {tx ty tz dx dy dz l a b u0 u1 w cx cy cz : ℝ} (ht : tx * tx + ty * ty + tz * tz = 1)
    (ha : a = tx * dx + ty * dy + tz * dz) (hb : b = a - l) (hu0 : u0 ^ 2 * (dx ^ 2 + dy ^ 2 + dz ^ 2) = 1)
    (hu1 : u1 ^ 2 * ((dx - l * tx) ^ 2 + (dy - l * ty) ^ 2 + (dz - l * tz) ^ 2) = 1)
    (hw : w * (dx ^ 2 + dy ^ 2 + dz ^ 2 - a ^ 2) = 1)
    (hx : cx = w * ((tx * u1 - b * (dx - l * tx) * u1 ^ 3) - (tx * u0 - a * dx * u0 ^ 3)) - (b * u1 - a * u0) * (w ^ 2 * (2 * dx - 2 * a * tx)))
    (hy : cy = w * ((ty * u1 - b * (dy - l * ty) * u1 ^ 3) - (ty * u0 - a * dy * u0 ^ 3)) - (b * u1 - a * u0) * (w ^ 2 * (2 * dy - 2 * a * ty)))
    (hz : cz = w * ((tz * u1 - b * (dz - l * tz) * u1 ^ 3) - (tz * u0 - a * dz * u0 ^ 3)) - (b * u1 - a * u0) * (w ^ 2 * (2 * dz - 2 * a * tz))) :
    cx * tx + cy * ty + cz * tz = u1 ^ 3 - u0 ^ 3 ∧ cx * dx + cy * dy + cz * dz = l * u1 ^ 3 - 2 * (w * (b * u1 - a * u0)) := by
  have ed : dx ^ 2 + dy ^ 2 + dz ^ 2 = (dx ^ 2 + dy ^ 2 + dz ^ 2 - a ^ 2) + a ^ 2 := by ring
  set P := dx ^ 2 + dy ^ 2 + dz ^ 2 - a ^ 2 with hP
  have e1 : (dx - l * tx) ^ 2 + (dy - l * ty) ^ 2 + (dz - l * tz) ^ 2 = P + b ^ 2 := by rw [hP]; grind
  rw [ed] at hu0
  rw [e1] at hu1
  have t1 : cx * tx + cy * ty + cz * tz = w * ((u1 - b * b * u1 ^ 3) - (u0 - a * a * u0 ^ 3)) := by
    subst hx hy hz; grind
  have t2 : cx * dx + cy * dy + cz * dz =
      w * ((a * u1 - b * (P + a ^ 2 - l * a) * u1 ^ 3) - (a * u0 - a * (P + a ^ 2) * u0 ^ 3)) - (b * u1 - a * u0) * (w ^ 2 * (2 * P)) := by
    subst hx hy hz; grind
  clear hx hy hz ed e1 hP ha ht
  clear_value P
  constructor
  · rw [t1]; clear t1 t2; grind
  · rw [t2]; clear t1 t2; grind

/-- A multiple of the field of a rigid rotation. -/
theorem jac_times_cross {f : V3 ℝ → ℝ} {C p : V3 ℝ} (T o : V3 ℝ) (hf : HasGrad f C p) :
    ∃ J, HasJac (fun q => f q • T.cross (q - o)) J p ∧
      J.curl = (C.dot (p - o)) • T - (C.dot T) • (p - o) + (2 * f p) • T ∧ M3.trace J = C.dot (T.cross (p - o)) := by
  have hx := hasGrad_sub_x o p
  have hy := hasGrad_sub_y o p
  have hz := hasGrad_sub_z o p
  refine ⟨⟨_, _, _⟩, ⟨hf.mul ((hz.const_mul T.y).sub (hy.const_mul T.z)), hf.mul ((hx.const_mul T.z).sub (hz.const_mul T.x)),
    hf.mul ((hy.const_mul T.x).sub (hx.const_mul T.y))⟩, ?_, ?_⟩
  · ext <;> simp [M3.curl, V3.dot] <;> ring
  · simp only [M3.trace, V3.dot, V3.add_x, V3.add_y, V3.add_z, V3.map_x, V3.map_y, V3.map_z, V3.sub_x, V3.sub_y, V3.sub_z, V3.cross_x,
      V3.cross_y, V3.cross_z]
    ring

theorem fluxFree_jac {p0 p1 p : V3 ℝ} (h : p0 ≠ p1) (ho : OffLine p0 p1 p) :
    ∃ J, HasJac (fluxFree p0 p1) J p ∧ J.curl = (1 / (p - p0).len ^ 3) • (p - p0) - (1 / (p - p1).len ^ 3) • (p - p1) ∧ M3.trace J = 0 := by
  have hrho := rho2_pos h ho
  have hrho1 := hrho
  rw [← rho2_p1 h] at hrho1
  have l0 : (p - p0).len ≠ 0 := by
    intro e; rw [rho2, e] at hrho; nlinarith [sq_nonneg ((tan p0 p1).dot (p - p0))]
  have l1 : (p - p1).len ≠ 0 := by
    intro e; rw [e] at hrho1; nlinarith [sq_nonneg ((tan p0 p1).dot (p - p1))]
  have gu : ∀ c : V3 ℝ, (p - c).len ≠ 0 → HasGrad (fun q => 1 / (q - c).len) ((-(1 / (p - c).len) ^ 3) • (p - c)) p := by
    intro c hc
    have := hasGrad_radial c p hc (hasDerivAt_const_div_pow 1 1 hc)
    simp only [pow_one] at this
    refine this.congr ?_
    ext <;> simp <;> field_simp
  have gw : HasGrad (fun q => 1 / rho2 p0 p1 q)
      ((-(1 / rho2 p0 p1 p) ^ 2) • ((2 : ℝ) • (p - p0) - (2 * (tan p0 p1).dot (p - p0)) • tan p0 p1)) p := by
    have g1 := HasGrad.comp (f := fun q => (q - p0).len) (hasDerivAt_pow 2 (p - p0).len) (hasGrad_len_sub p0 p l0)
    have g2 := HasGrad.comp (f := fun q => (tan p0 p1).dot (q - p0)) (hasDerivAt_pow 2 ((tan p0 p1).dot (p - p0))) (hasGrad_dot (tan p0 p1) p0 p)
    have g3 := HasGrad.comp (f := rho2 p0 p1) (hasDerivAt_const_div_pow 1 1 hrho.ne') (g1.sub g2)
    simp only [pow_one] at g3
    refine g3.congr ?_
    ext <;> simp <;> field_simp
  have gf := (((hasGrad_dot (tan p0 p1) p1 p).mul (gu p1 l1)).sub ((hasGrad_dot (tan p0 p1) p0 p).mul (gu p0 l0))).mul gw
  have e : fluxFree p0 p1 = fun q => (((tan p0 p1).dot (q - p1) * (1 / (q - p1).len) - (tan p0 p1).dot (q - p0) * (1 / (q - p0).len)) *
      (1 / rho2 p0 p1 q)) • (tan p0 p1).cross (q - p0) := by
    funext q; rw [fluxFree]; congr 1; ring
  have hdot1 := tan_dot_p1 h p
  have ht := tan_dot_self h
  have hl := len_sub_ne_zero h.symm
  have ed : p - p1 = (p - p0) - (p1 - p0).len • tan p0 p1 := by
    ext <;> simp [unit] <;> field_simp <;> ring
  obtain ⟨J, hJ, hc, hd⟩ := jac_times_cross (tan p0 p1) p0 gf
  have hR0 := len_sq (p - p0)
  have hR1 := len_sq (p - p1)
  have hw : 1 / rho2 p0 p1 p * rho2 p0 p1 p = 1 := one_div_mul_cancel hrho.ne'
  have hu0 : 1 / (p - p0).len * (p - p0).len = 1 := one_div_mul_cancel l0
  have hu1 : 1 / (p - p1).len * (p - p1).len = 1 := one_div_mul_cancel l1
  have hrr : rho2 p0 p1 p = (p - p0).len ^ 2 - ((tan p0 p1).dot (p - p0)) ^ 2 := rfl
  have e3 : ∀ x : ℝ, 1 / x ^ 3 = (1 / x) ^ 3 := fun x => by rw [one_div_pow]
  refine ⟨J, e ▸ hJ, ?_, ?_⟩
  · rw [hc, e3, e3]
    clear hc hd hJ gf gw gu e
    generalize 1 / (p - p0).len = u0 at *
    generalize 1 / (p - p1).len = u1 at *
    generalize 1 / rho2 p0 p1 p = w at *
    generalize rho2 p0 p1 p = P at *
    generalize (p - p0).len = R0 at *
    generalize (p - p1).len = R1 at *
    generalize (p1 - p0).len = l at *
    generalize tan p0 p1 = T at *
    rw [ed] at hR1 hdot1 ⊢
    generalize p - p0 = d at *
    clear ed hrho1
    obtain ⟨tx, ty, tz⟩ := T
    obtain ⟨dx, dy, dz⟩ := d
    simp only [V3.dot, V3.sub_x, V3.sub_y, V3.sub_z, V3.smul_x, V3.smul_y, V3.smul_z, smul_eq_mul] at hR0 hR1 hdot1 hrr ht
    have key := ampere_algebra (u0 := u0) (u1 := u1) (w := w) ht (b := tx * dx + ty * dy + tz * dz - l) rfl rfl
      (by rw [← hR0, ← mul_pow, hu0, one_pow]) (by rw [← hR1, ← mul_pow, hu1, one_pow]) (by rw [← hR0, ← hrr, hw]) rfl rfl rfl
    have e1 := key.1
    have e2 := key.2
    clear key
    ext <;> simp [V3.dot, hdot1]
    · linear_combination tx * e2 - dx * e1
    · linear_combination ty * e2 - dy * e1
    · linear_combination tz * e2 - dz * e1
  · rw [hd]
    clear hc hd hJ gf gw gu e
    rw [ed]
    simp [V3.dot]
    ring

end Verif.Static
