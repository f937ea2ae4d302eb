import Verif.Lemmas.LoopFields

/-! # Derivatives of the flux density of a circular loop (helper lemmas) -/

namespace Verif

open Real

/-- Differentials of the quantities in the formulas, for `dρ = p` and `dz = q`. -/
noncomputable def dAl (a r z p q : ℝ) : ℝ := -2 * (a - r) * p + 2 * z * q
noncomputable def dBe (a r z p q : ℝ) : ℝ := 2 * (a + r) * p + 2 * z * q
noncomputable def dS (r z p q : ℝ) : ℝ := 2 * r * p + 2 * z * q

/-- `d K` and `d E`, with the values `K`, `E` and `α²`, `β²`. -/
noncomputable def dK (a r z al be K E p q : ℝ) : ℝ := -((be * E - al * K) * (be * dAl a r z p q - al * dBe a r z p q)) / (8 * a * r * al * be)
noncomputable def dE (a r z al be K E p q : ℝ) : ℝ := -((E - K) * (be * dAl a r z p q - al * dBe a r z p q)) / (8 * a * r * be)

/-- `d B_ρ` and `d B_z`. -/
noncomputable def dBr (a r z al be b K E p q : ℝ) : ℝ :=
  (q / (2 * al * b * r) - z / (2 * al * b * r) * (dAl a r z p q / al + dBe a r z p q / (2 * be) + p / r)) * ((a ^ 2 + r ^ 2 + z ^ 2) * E - al * K) +
    z / (2 * al * b * r) * (dS r z p q * E + (a ^ 2 + r ^ 2 + z ^ 2) * dE a r z al be K E p q - dAl a r z p q * K - al * dK a r z al be K E p q)
noncomputable def dBz (a r z al be b K E p q : ℝ) : ℝ :=
  (-(1 / (2 * al * b)) * (dAl a r z p q / al + dBe a r z p q / (2 * be))) * ((a ^ 2 - r ^ 2 - z ^ 2) * E + al * K) +
    1 / (2 * al * b) * (-dS r z p q * E + (a ^ 2 - r ^ 2 - z ^ 2) * dE a r z al be K E p q + dAl a r z p q * K + al * dK a r z al be K E p q)

/-- The two relations of a field without curl and divergence. -/
theorem loop_relations {a r z al be b K E : ℝ} (ha : a ≠ 0) (hr : r ≠ 0) (hal : al ≠ 0) (hbe : be ≠ 0) (hb : b ≠ 0)
    (e1 : al = (a - r) ^ 2 + z ^ 2) (e2 : be = (a + r) ^ 2 + z ^ 2) :
    dBr a r z al be b K E 0 1 = dBz a r z al be b K E 1 0 ∧
    dBz a r z al be b K E 0 1 = -dBr a r z al be b K E 1 0 - z / (2 * al * b * r) * ((a ^ 2 + r ^ 2 + z ^ 2) * E - al * K) / r := by
  constructor
  · simp only [dBr, dBz, dK, dE, dAl, dBe, dS]
    field_simp
    rw [e1, e2]
    ring
  · simp only [dBr, dBz, dK, dE, dAl, dBe, dS]
    field_simp
    rw [e1, e2]
    ring

section
variable {a : ℝ} {rho z : ℝ → ℝ} {rho' z' t : ℝ}

/-- The value of `K` or `E` at the point. -/
noncomputable abbrev loopM (a r z : ℝ) : ℝ := 1 - ((a - r) ^ 2 + z ^ 2) / ((a + r) ^ 2 + z ^ 2)

theorem loop_parts (ha : 0 < a) (hr : HasDerivAt rho rho' t) (hz : HasDerivAt z z' t) (hpos : 0 < rho t)
    (hne : (a - rho t) ^ 2 + z t ^ 2 ≠ 0) :
    0 < (a - rho t) ^ 2 + z t ^ 2 ∧ 0 < (a + rho t) ^ 2 + z t ^ 2 ∧
    HasDerivAt (fun t => (a - rho t) ^ 2 + z t ^ 2) (dAl a (rho t) (z t) rho' z') t ∧
    HasDerivAt (fun t => (a + rho t) ^ 2 + z t ^ 2) (dBe a (rho t) (z t) rho' z') t ∧
    HasDerivAt (fun t => ellipK (loopM a (rho t) (z t))) (dK a (rho t) (z t) ((a - rho t) ^ 2 + z t ^ 2) ((a + rho t) ^ 2 + z t ^ 2)
      (ellipK (loopM a (rho t) (z t))) (ellipE (loopM a (rho t) (z t))) rho' z') t ∧
    HasDerivAt (fun t => ellipE (loopM a (rho t) (z t))) (dE a (rho t) (z t) ((a - rho t) ^ 2 + z t ^ 2) ((a + rho t) ^ 2 + z t ^ 2)
      (ellipK (loopM a (rho t) (z t))) (ellipE (loopM a (rho t) (z t))) rho' z') t := by
  have hal : 0 < (a - rho t) ^ 2 + z t ^ 2 := lt_of_le_of_ne (by positivity) (Ne.symm hne)
  have hbe : 0 < (a + rho t) ^ 2 + z t ^ 2 := by positivity
  have hm0 : 0 < 1 - ((a - rho t) ^ 2 + z t ^ 2) / ((a + rho t) ^ 2 + z t ^ 2) := by
    rw [sub_pos, div_lt_one hbe]; nlinarith
  have hm1 : 1 - ((a - rho t) ^ 2 + z t ^ 2) / ((a + rho t) ^ 2 + z t ^ 2) < 1 := by
    have : 0 < ((a - rho t) ^ 2 + z t ^ 2) / ((a + rho t) ^ 2 + z t ^ 2) := by positivity
    linarith
  have dal : HasDerivAt (fun t => (a - rho t) ^ 2 + z t ^ 2) (dAl a (rho t) (z t) rho' z') t := by
    refine (((hr.const_sub a).pow 2).add (hz.pow 2)).congr_deriv ?_
    simp [dAl]
  have dbe : HasDerivAt (fun t => (a + rho t) ^ 2 + z t ^ 2) (dBe a (rho t) (z t) rho' z') t := by
    refine (((hr.const_add a).pow 2).add (hz.pow 2)).congr_deriv ?_
    simp [dBe]
  have dm := (dal.fun_div dbe hbe.ne').const_sub 1
  have hmv : loopM a (rho t) (z t) = 4 * a * rho t / ((a + rho t) ^ 2 + z t ^ 2) := by
    rw [loopM]; field_simp; ring
  have hmc : 1 - loopM a (rho t) (z t) = ((a - rho t) ^ 2 + z t ^ 2) / ((a + rho t) ^ 2 + z t ^ 2) := by
    rw [loopM]; ring
  have kK := (hasDerivAt_ellipK hm0 hm1).comp t dm
  change HasDerivAt (fun t => ellipK (loopM a (rho t) (z t))) _ t at kK
  have kE := (hasDerivAt_ellipE hm0 hm1).comp t dm
  change HasDerivAt (fun t => ellipE (loopM a (rho t) (z t))) _ t at kE
  refine ⟨hal, hbe, dal, dbe, kK.congr_deriv ?_, kE.congr_deriv ?_⟩
  · change (ellipE (loopM a (rho t) (z t)) / (1 - loopM a (rho t) (z t)) - ellipK (loopM a (rho t) (z t))) / (2 * loopM a (rho t) (z t)) * _ = _
    rw [dK]
    generalize ellipK (loopM a (rho t) (z t)) = K
    generalize ellipE (loopM a (rho t) (z t)) = E
    rw [hmc, hmv]
    generalize (a - rho t) ^ 2 + z t ^ 2 = al at *
    generalize (a + rho t) ^ 2 + z t ^ 2 = be at *
    field_simp
    ring
  · change (ellipE (loopM a (rho t) (z t)) - ellipK (loopM a (rho t) (z t))) / (2 * loopM a (rho t) (z t)) * _ = _
    rw [dE]
    generalize ellipK (loopM a (rho t) (z t)) = K
    generalize ellipE (loopM a (rho t) (z t)) = E
    rw [hmv]
    generalize (a - rho t) ^ 2 + z t ^ 2 = al at *
    generalize (a + rho t) ^ 2 + z t ^ 2 = be at *
    field_simp
    ring

/-- `B` is irrotational and free of sources: along any curve `dB_ρ = P dρ + Q dz` and `dB_z = Q dρ - (P + B_ρ/ρ) dz`. -/
theorem loop_B_derivs (ha : 0 < a) {r0 z0 : ℝ} (hpos : 0 < r0) (hne : (a - r0) ^ 2 + z0 ^ 2 ≠ 0) :
    ∃ P Q : ℝ, ∀ {rho z : ℝ → ℝ} {rho' z' t : ℝ}, rho t = r0 → z t = z0 → HasDerivAt rho rho' t → HasDerivAt z z' t →
      HasDerivAt (fun t => loopBr a (rho t) (z t)) (P * rho' + Q * z') t ∧
      HasDerivAt (fun t => loopBz a (rho t) (z t)) (Q * rho' - (P + loopBr a r0 z0 / r0) * z') t := by
  set K := ellipK (loopM a r0 z0) with hK
  set E := ellipE (loopM a r0 z0) with hE
  have hal : 0 < (a - r0) ^ 2 + z0 ^ 2 := lt_of_le_of_ne (by positivity) (Ne.symm hne)
  have hbe : 0 < (a + r0) ^ 2 + z0 ^ 2 := by positivity
  have hb := sqrt_pos.2 hbe
  obtain ⟨rel1, rel2⟩ := loop_relations (K := K) (E := E) (b := √((a + r0) ^ 2 + z0 ^ 2)) ha.ne' hpos.ne' hal.ne' hbe.ne' hb.ne' rfl rfl
  refine ⟨dBr a r0 z0 ((a - r0) ^ 2 + z0 ^ 2) ((a + r0) ^ 2 + z0 ^ 2) (√((a + r0) ^ 2 + z0 ^ 2)) K E 1 0,
    dBr a r0 z0 ((a - r0) ^ 2 + z0 ^ 2) ((a + r0) ^ 2 + z0 ^ 2) (√((a + r0) ^ 2 + z0 ^ 2)) K E 0 1, ?_⟩
  intro rho z rho' z' t er ez hr hz
  subst er ez
  obtain ⟨-, -, dal, dbe, kK, kE⟩ := loop_parts ha hr hz hpos hne
  have db := dbe.sqrt hbe.ne'
  have ds : HasDerivAt (fun t => a ^ 2 + rho t ^ 2 + z t ^ 2) (dS (rho t) (z t) rho' z') t := by
    refine (((hr.pow 2).const_add (a ^ 2)).add (hz.pow 2)).congr_deriv ?_
    simp [dS]
  have ds' : HasDerivAt (fun t => a ^ 2 - rho t ^ 2 - z t ^ 2) (-dS (rho t) (z t) rho' z') t := by
    refine (((hr.pow 2).const_sub (a ^ 2)).sub (hz.pow 2)).congr_deriv ?_
    simp [dS]; ring
  have hsq := sq_sqrt hbe.le
  have lin : ∀ p q, dBr a (rho t) (z t) ((a - rho t) ^ 2 + z t ^ 2) ((a + rho t) ^ 2 + z t ^ 2) (√((a + rho t) ^ 2 + z t ^ 2)) K E p q =
      dBr a (rho t) (z t) ((a - rho t) ^ 2 + z t ^ 2) ((a + rho t) ^ 2 + z t ^ 2) (√((a + rho t) ^ 2 + z t ^ 2)) K E 1 0 * p +
      dBr a (rho t) (z t) ((a - rho t) ^ 2 + z t ^ 2) ((a + rho t) ^ 2 + z t ^ 2) (√((a + rho t) ^ 2 + z t ^ 2)) K E 0 1 * q := by
    intro p q
    simp only [dBr, dK, dE, dAl, dBe, dS]
    ring
  have lin' : ∀ p q, dBz a (rho t) (z t) ((a - rho t) ^ 2 + z t ^ 2) ((a + rho t) ^ 2 + z t ^ 2) (√((a + rho t) ^ 2 + z t ^ 2)) K E p q =
      dBz a (rho t) (z t) ((a - rho t) ^ 2 + z t ^ 2) ((a + rho t) ^ 2 + z t ^ 2) (√((a + rho t) ^ 2 + z t ^ 2)) K E 1 0 * p +
      dBz a (rho t) (z t) ((a - rho t) ^ 2 + z t ^ 2) ((a + rho t) ^ 2 + z t ^ 2) (√((a + rho t) ^ 2 + z t ^ 2)) K E 0 1 * q := by
    intro p q
    simp only [dBz, dK, dE, dAl, dBe, dS]
    ring
  constructor
  · rw [← lin]
    have key := (hz.fun_div (((dal.const_mul 2).fun_mul db).fun_mul hr) (by positivity)).fun_mul ((ds.fun_mul kE).fun_sub (dal.fun_mul kK))
    refine key.congr_deriv ?_
    simp only [dBr, ← hK, ← hE]
    generalize dK a (rho t) (z t) _ _ K E rho' z' = k' at *
    generalize dE a (rho t) (z t) _ _ K E rho' z' = e' at *
    generalize dAl a (rho t) (z t) rho' z' = al' at *
    generalize dBe a (rho t) (z t) rho' z' = be' at *
    generalize dS (rho t) (z t) rho' z' = s' at *
    clear key db ds ds' kK kE dal dbe rel1 rel2 lin lin' hr hz
    generalize √((a + rho t) ^ 2 + z t ^ 2) = b at *
    rw [← hsq]
    generalize (a - rho t) ^ 2 + z t ^ 2 = al at *
    field_simp
    ring
  · have e : dBr a (rho t) (z t) ((a - rho t) ^ 2 + z t ^ 2) ((a + rho t) ^ 2 + z t ^ 2) (√((a + rho t) ^ 2 + z t ^ 2)) K E 1 0 +
        loopBr a (rho t) (z t) / rho t =
        -dBz a (rho t) (z t) ((a - rho t) ^ 2 + z t ^ 2) ((a + rho t) ^ 2 + z t ^ 2) (√((a + rho t) ^ 2 + z t ^ 2)) K E 0 1 := by
      rw [rel2, loopBr]; ring
    rw [e, rel1, neg_mul, sub_neg_eq_add, ← lin']
    have key := ((hasDerivAt_const t (1 : ℝ)).fun_div ((dal.const_mul 2).fun_mul db) (by positivity)).fun_mul ((ds'.fun_mul kE).fun_add (dal.fun_mul kK))
    refine key.congr_deriv ?_
    simp only [dBz, ← hK, ← hE]
    generalize dK a (rho t) (z t) _ _ K E rho' z' = k' at *
    generalize dE a (rho t) (z t) _ _ K E rho' z' = e' at *
    generalize dAl a (rho t) (z t) rho' z' = al' at *
    generalize dBe a (rho t) (z t) rho' z' = be' at *
    generalize dS (rho t) (z t) rho' z' = s' at *
    clear key db ds ds' kK kE dal dbe rel1 rel2 lin lin' hr hz
    generalize √((a + rho t) ^ 2 + z t ^ 2) = b at *
    rw [← hsq]
    generalize (a - rho t) ^ 2 + z t ^ 2 = al at *
    field_simp
    ring

end

namespace Static

/-- Flux density of a loop off its axis and off the wire: neither curl nor divergence. -/
theorem freeB_jac {n : V3 ℝ} (hn : n.len = 1) {a : ℝ} (ha : 0 < a) (o p : V3 ℝ) (hr : 0 < axisDist n (p - o))
    (hne : (a - axisDist n (p - o)) ^ 2 + n.dot (p - o) ^ 2 ≠ 0) :
    ∃ J, HasJac (fun q => freeB n a (q - o)) J p ∧ J.curl = 0 ∧ M3.trace J = 0 := by
  obtain ⟨P, Q, hPQ⟩ := loop_B_derivs ha hr hne
  have e1 : ∀ w v : V3 ℝ, w.app v = w.dot v := fun w v => by simp [V3.app, V3.dot]; ring
  have hsq := axisDist_sq hn (p - o)
  have hn2 : n.dot n = 1 := by rw [V3.dot_self, hn]; norm_num
  have hBr := fun v : V3 ℝ => hasDerivAt_axis hn (p - o) v hr
  have gz : HasGrad (fun q => loopBz a (axisDist n (q - o)) (n.dot (q - o)))
      ((Q / axisDist n (p - o)) • ((p - o) - n.dot (p - o) • n) -
        (P + loopBr a (axisDist n (p - o)) (n.dot (p - o)) / axisDist n (p - o)) • n) p := by
    intro v
    have e : ∀ t : ℝ, p + t • v - o = (p - o) + t • v := fun t => by abel
    simp only [e]
    have := (hPQ (t := 0) (by simp) (by simp) (hBr v).1 (hBr v).2).2
    refine this.congr_deriv ?_
    rw [e1]
    simp [V3.dot]
    ring
  have gg : HasGrad (fun q => loopBr a (axisDist n (q - o)) (n.dot (q - o)) / axisDist n (q - o))
      (((P * axisDist n (p - o) - loopBr a (axisDist n (p - o)) (n.dot (p - o))) / axisDist n (p - o) ^ 3) • ((p - o) - n.dot (p - o) • n) +
        (Q / axisDist n (p - o)) • n) p := by
    intro v
    have e : ∀ t : ℝ, p + t • v - o = (p - o) + t • v := fun t => by abel
    simp only [e]
    have := ((hPQ (t := 0) (by simp) (by simp) (hBr v).1 (hBr v).2).1).fun_div (hBr v).1 (by simpa using hr.ne')
    refine this.congr_deriv ?_
    rw [e1]
    simp only [zero_smul, add_zero]
    generalize p - o = d at *
    have e2 : ∀ (c : ℝ) (x y : V3 ℝ) (b : ℝ), (c • x + b • y).dot v = c * x.dot v + b * y.dot v := fun c x y b => by
      simp [V3.dot]; ring
    rw [e2]
    generalize (d - n.dot d • n).dot v = r'
    generalize axisDist n d = r at *
    field_simp
    ring
  have gd : HasGrad (fun q => n.dot (q - o)) n p := hasGrad_dot n o p
  have hx := (hasGrad_sub_x o p).sub (gd.mul_const n.x)
  have hy := (hasGrad_sub_y o p).sub (gd.mul_const n.y)
  have hz := (hasGrad_sub_z o p).sub (gd.mul_const n.z)
  refine ⟨⟨_, _, _⟩, ⟨(gg.mul hx).add (gz.mul_const n.x), (gg.mul hy).add (gz.mul_const n.y), (gg.mul hz).add (gz.mul_const n.z)⟩, ?_, ?_⟩
  · generalize loopBr a (axisDist n (p - o)) (n.dot (p - o)) = Br
    generalize axisDist n (p - o) = r at *
    generalize hd : p - o = d at *
    have hx0 : p.x - o.x = d.x := by rw [← hd]; rfl
    have hy0 : p.y - o.y = d.y := by rw [← hd]; rfl
    have hz0 : p.z - o.z = d.z := by rw [← hd]; rfl
    ext <;> simp [M3.curl, hx0, hy0, hz0] <;> ring
  · generalize loopBr a (axisDist n (p - o)) (n.dot (p - o)) = Br
    rw [V3.len_sq] at hsq
    generalize axisDist n (p - o) = r at *
    generalize hd : p - o = d at *
    clear gg gz hPQ hBr gd hx hy hz e1
    have hx0 : p.x - o.x = d.x := by rw [← hd]; rfl
    have hy0 : p.y - o.y = d.y := by rw [← hd]; rfl
    have hz0 : p.z - o.z = d.z := by rw [← hd]; rfl
    simp only [M3.trace, V3.add_x, V3.add_y, V3.add_z, V3.map_x, V3.map_y, V3.map_z, V3.sub_x, V3.sub_y, V3.sub_z, V3.smul_x, V3.smul_y,
      V3.smul_z, smul_eq_mul, hx0, hy0, hz0]
    simp only [V3.dot] at hsq hn2 ⊢
    have hu : r⁻¹ * r = 1 := inv_mul_cancel₀ hr.ne'
    simp only [div_eq_mul_inv, ← inv_pow]
    generalize r⁻¹ = u at *
    obtain ⟨n1, n2, n3⟩ := n
    obtain ⟨d1, d2, d3⟩ := d
    simp only at *
    set c := n1 * d1 + n2 * d2 + n3 * d3 with hc
    have k1 : (d1 - c * n1) ^ 2 + (d2 - c * n2) ^ 2 + (d3 - c * n3) ^ 2 = r ^ 2 := by grind
    have k2 : (d1 - c * n1) * n1 + (d2 - c * n2) * n2 + (d3 - c * n3) * n3 = 0 := by grind
    have k3 : u ^ 3 * r ^ 3 = 1 := by rw [← mul_pow, hu, one_pow]
    have k4 : u ^ 3 * r ^ 2 = u := by linear_combination (u ^ 2 * r + u) * hu
    linear_combination ((P * r - Br) * u ^ 3) * k1 + (2 * Q * u) * k2 + (-(P + Br * u) - Br * u) * hn2 + (P * r - Br) * k4 + P * hu

end Static

end Verif
