import Verif.Lemmas.Elliptic

/-! # The elliptic-integral formulas of a circular current loop (helper lemmas)

`loopA`, `loopBr`, `loopBz` are the closed forms in units of `mu I / π`. -/

namespace Verif

open Real MeasureTheory intervalIntegral

/-- `A_φ` -/
noncomputable def loopA (a rho z : ℝ) : ℝ :=
  1 / (2 * rho * √((a + rho) ^ 2 + z ^ 2)) *
    ((a ^ 2 + rho ^ 2 + z ^ 2) * ellipK (1 - ((a - rho) ^ 2 + z ^ 2) / ((a + rho) ^ 2 + z ^ 2)) -
      ((a + rho) ^ 2 + z ^ 2) * ellipE (1 - ((a - rho) ^ 2 + z ^ 2) / ((a + rho) ^ 2 + z ^ 2)))

/-- `B_ρ` -/
noncomputable def loopBr (a rho z : ℝ) : ℝ :=
  z / (2 * ((a - rho) ^ 2 + z ^ 2) * √((a + rho) ^ 2 + z ^ 2) * rho) *
    ((a ^ 2 + rho ^ 2 + z ^ 2) * ellipE (1 - ((a - rho) ^ 2 + z ^ 2) / ((a + rho) ^ 2 + z ^ 2)) -
      ((a - rho) ^ 2 + z ^ 2) * ellipK (1 - ((a - rho) ^ 2 + z ^ 2) / ((a + rho) ^ 2 + z ^ 2)))

/-- `B_z` -/
noncomputable def loopBz (a rho z : ℝ) : ℝ :=
  1 / (2 * ((a - rho) ^ 2 + z ^ 2) * √((a + rho) ^ 2 + z ^ 2)) *
    ((a ^ 2 - rho ^ 2 - z ^ 2) * ellipE (1 - ((a - rho) ^ 2 + z ^ 2) / ((a + rho) ^ 2 + z ^ 2)) +
      ((a - rho) ^ 2 + z ^ 2) * ellipK (1 - ((a - rho) ^ 2 + z ^ 2) / ((a + rho) ^ 2 + z ^ 2)))

/-- Along any curve, `dA_φ = (B_z - A_φ/ρ) dρ - B_ρ dz`. -/
theorem hasDerivAt_loopA {a : ℝ} (ha : 0 < a) {rho z : ℝ → ℝ} {rho' z' : ℝ} {t : ℝ} (hr : HasDerivAt rho rho' t)
    (hz : HasDerivAt z z' t) (hpos : 0 < rho t) (hne : (a - rho t) ^ 2 + z t ^ 2 ≠ 0) :
    HasDerivAt (fun t => loopA a (rho t) (z t))
      ((loopBz a (rho t) (z t) - loopA a (rho t) (z t) / rho t) * rho' - loopBr a (rho t) (z t) * z') t := by
  have hal : 0 < (a - rho t) ^ 2 + z t ^ 2 := lt_of_le_of_ne (by positivity) (Ne.symm hne)
  have hbe : 0 < (a + rho t) ^ 2 + z t ^ 2 := by positivity
  have hm0 : 0 < 1 - ((a - rho t) ^ 2 + z t ^ 2) / ((a + rho t) ^ 2 + z t ^ 2) := by
    rw [sub_pos, div_lt_one hbe]; nlinarith
  have hm1 : 1 - ((a - rho t) ^ 2 + z t ^ 2) / ((a + rho t) ^ 2 + z t ^ 2) < 1 := by
    have : 0 < ((a - rho t) ^ 2 + z t ^ 2) / ((a + rho t) ^ 2 + z t ^ 2) := by positivity
    linarith
  have dal : HasDerivAt (fun t => (a - rho t) ^ 2 + z t ^ 2) (-2 * (a - rho t) * rho' + 2 * z t * z') t := by
    refine (((hr.const_sub a).pow 2).add (hz.pow 2)).congr_deriv ?_
    simp
  have dbe : HasDerivAt (fun t => (a + rho t) ^ 2 + z t ^ 2) (2 * (a + rho t) * rho' + 2 * z t * z') t := by
    refine (((hr.const_add a).pow 2).add (hz.pow 2)).congr_deriv ?_
    simp
  have ds : HasDerivAt (fun t => a ^ 2 + rho t ^ 2 + z t ^ 2) (2 * rho t * rho' + 2 * z t * z') t := by
    refine (((hr.pow 2).const_add (a ^ 2)).add (hz.pow 2)).congr_deriv ?_
    simp
  have dm := (dal.fun_div dbe hbe.ne').const_sub 1
  have dK := (hasDerivAt_ellipK hm0 hm1).comp t dm
  have dE := (hasDerivAt_ellipE hm0 hm1).comp t dm
  have db := dbe.sqrt hbe.ne'
  have hb := sqrt_pos.2 hbe
  have key := ((hasDerivAt_const t (1 : ℝ)).fun_div ((hr.const_mul 2).fun_mul db) (by positivity)).fun_mul
    ((ds.fun_mul dK).fun_sub (dbe.fun_mul dE))
  refine key.congr_deriv ?_
  clear key db dE dK dm ds dbe dal
  simp only [loopA, loopBr, loopBz, Function.comp_apply]
  have hsq := sq_sqrt hbe.le
  have hrel : ((a + rho t) ^ 2 + z t ^ 2) - ((a - rho t) ^ 2 + z t ^ 2) = 4 * a * rho t := by ring
  generalize hK : ellipK (1 - ((a - rho t) ^ 2 + z t ^ 2) / ((a + rho t) ^ 2 + z t ^ 2)) = K
  generalize hE : ellipE (1 - ((a - rho t) ^ 2 + z t ^ 2) / ((a + rho t) ^ 2 + z t ^ 2)) = E
  have hmv : 1 - ((a - rho t) ^ 2 + z t ^ 2) / ((a + rho t) ^ 2 + z t ^ 2) = 4 * a * rho t / √((a + rho t) ^ 2 + z t ^ 2) ^ 2 := by
    rw [hsq]; field_simp; ring
  have hmc : 1 - (1 - ((a - rho t) ^ 2 + z t ^ 2) / ((a + rho t) ^ 2 + z t ^ 2)) =
      ((a - rho t) ^ 2 + z t ^ 2) / √((a + rho t) ^ 2 + z t ^ 2) ^ 2 := by
    rw [hsq]; ring
  rw [hmc, hmv]
  generalize hbb : √((a + rho t) ^ 2 + z t ^ 2) = b at *
  generalize hall : (a - rho t) ^ 2 + z t ^ 2 = al at *
  have hbee : (a + rho t) ^ 2 + z t ^ 2 = b ^ 2 := hsq.symm
  rw [hbee]
  rw [hbee] at hrel
  generalize rho t = r at *
  generalize z t = zz at *
  field_simp
  rw [← hall, hsq]
  ring

end Verif
