import Verif.Model.SpecialValues

/-!
# C108: only at the source itself are static fields not finite

Floats with special values; every theorem says where the code's result is finite, that it is then the value of the formula over the reals,
and what comes out elsewhere.
-/

namespace Verif

open PyFloat

theorem fl_map_div {v : V3 ℝ} {r : ℝ} (h : r ≠ 0) : (fl v).map (· / fin r) = fl (v.map (· / r)) := by
  simp only [fl, V3.map, fin_div_fin h]

theorem fl_self (v : V3 ℝ) : (fl v - fl v).map (· / (fl v - fl v).norm) = V3.nan := by
  rw [fl_sub, sub_self, norm_fl, V3.len_eq_zero.2 rfl]
  simp only [fl, V3.map, V3.zero_x, V3.zero_y, V3.zero_z, zero_div_zero, V3.nan]

namespace Gravity

/-- **C108.** The potential of a point mass: infinite, with the sign of the mass, exactly at the mass. -/
theorem PointMass.potential_finite (s : PointMass) (q : V3 ℝ) :
    (q ≠ s.location → s.potentialF q = fin (s.gravitationalPotential q)) ∧
    (0 < s.mass → s.potentialF s.location = .pinf) ∧ (s.mass < 0 → s.potentialF s.location = .ninf) ∧
    (s.mass = 0 → s.potentialF s.location = .nan) := by
  have hG : 0 < G := by norm_num [G]
  refine ⟨fun h => ?_, fun h => ?_, fun h => ?_, fun h => ?_⟩
  · simp only [PointMass.potentialF, fl_sub, norm_fl, fin_mul_fin, fin_div_fin (V3.len_sub_ne_zero h)]
    rfl
  all_goals simp only [PointMass.potentialF, fl_sub, norm_fl, fin_mul_fin, sub_self, V3.len_eq_zero.2]
  · exact fin_div_zero_pos (mul_pos hG h)
  · exact fin_div_zero_neg (mul_neg_of_pos_of_neg hG h)
  · rw [h, mul_zero]; exact zero_div_zero

/-- **C108.** The field of a point mass is not a number exactly at the mass. -/
theorem PointMass.field_finite (s : PointMass) (q : V3 ℝ) :
    (q ≠ s.location → s.fieldF q = fl (s.gravitationalField q)) ∧ s.fieldF s.location = V3.nan := by
  constructor
  · intro h
    have h' := V3.len_sub_ne_zero h
    simp only [PointMass.fieldF, fl_sub, norm_fl, fl_map_div h']
    simp only [fl, V3.map, neg_fin, fin_mul_fin, fin_pow, fin_div_fin (pow_ne_zero 2 h'),
      PointMass.gravitationalField]
  · simp only [PointMass.fieldF, fl_self]
    simp only [V3.nan, V3.map, mul_nan, nan_div]

/-- **C108.** The gradient tensor of a point mass is not a number exactly at the mass. -/
theorem PointMass.gradient_finite (s : PointMass) (q : V3 ℝ) :
    (q ≠ s.location → s.gradientF q = (s.gravitationalGradient q).map fl) ∧ s.gradientF s.location = ⟨V3.nan, V3.nan, V3.nan⟩ := by
  constructor
  · intro h
    have h' := V3.len_sub_ne_zero h
    simp only [PointMass.gradientF, fl_sub, norm_fl, fl_map_div h']
    simp only [fl, V3.map, neg_fin, fin_mul_fin, fin_pow, zero_def, one_def, fin_sub_fin,
      fin_div_fin (pow_ne_zero 3 h'), PointMass.gravitationalGradient]
  · simp only [PointMass.gradientF, fl_self]
    simp only [V3.nan, mul_nan, sub_nan, nan_div]

/-- **C108.** Potential and field of a ball are finite everywhere; its gradient tensor everywhere but on the surface, where it jumps. -/
theorem Sphere.finite (s : Sphere) (hr : 0 ≤ s.radius) (q : V3 ℝ) :
    s.potentialF q = fin (s.gravitationalPotential q) ∧ s.fieldF q = fl (s.gravitationalField q) ∧
    ((q - s.location).len ≠ s.radius → ∃ g, s.gravitationalGradient q = some g ∧ s.gradientF q = g.map fl) ∧
    ((q - s.location).len = s.radius → s.gradientF q = ⟨V3.nan, V3.nan, V3.nan⟩) := by
  have hq : s.radius < (q - s.location).len → q ≠ s.toPointMass.location := by
    rintro h rfl
    rw [show (s.toPointMass.location - s.location) = 0 from sub_self _, V3.len_eq_zero.2 rfl] at h
    linarith
  have h3 : (3 : ℝ) ≠ 0 := by norm_num
  refine ⟨?_, ?_, fun h => ?_, fun h => ?_⟩
  · simp only [Sphere.potentialF, Sphere.gravitationalPotential, fl_sub, norm_fl, fin_lt_fin]
    split_ifs with h
    · exact (PointMass.potential_finite _ _).1 (hq h)
    · simp only [fin_mul_fin, fin_div_fin h3, fin_pow, fin_sub_fin]
  · simp only [Sphere.fieldF, Sphere.gravitationalField, fl_sub, norm_fl, fin_lt_fin]
    split_ifs with h
    · exact (PointMass.field_finite _ _).1 (hq h)
    · simp only [fl, V3.map, neg_fin, fin_mul_fin, fin_div_fin h3]
  · simp only [Sphere.gradientF, Sphere.gravitationalGradient, fl_sub, norm_fl, fin_lt_fin, PyFloat.fin.injEq, if_neg h]
    split_ifs with h
    · exact ⟨_, rfl, (PointMass.gradient_finite _ _).1 (hq h)⟩
    · refine ⟨_, rfl, ?_⟩
      simp only [V3.map, fl, neg_fin, fin_mul_fin, fin_div_fin h3, zero_def, one_def]
  · simp only [Sphere.gradientF, fl_sub, norm_fl, PyFloat.fin.injEq, if_pos h]

end Gravity

namespace Sphere

/-- **C108.** Potential and field of a conducting sphere are finite everywhere; the charge density, too, unless the shell drawn around the
surface reaches over the centre. -/
theorem Electro.finite_partial (eps0 : ℝ) (s : Electro) (h0 : 0 < s.sigmaBackground) (h1 : 0 < s.sigmaSphere) (hr : 0 ≤ s.radius) (q : V3 ℝ) :
    s.potentialF q = fin (s.potentialTotal q) ∧ s.fieldF q = fl (s.fieldTotal q) ∧
    ∀ dr : Option ℝ, (q ≠ s.location ∨ 0.5 * dr.getD (0.05 * s.radius) ≤ s.radius → s.chargeF eps0 q dr = fin (s.chargeDensity eps0 q dr)) ∧
      (s.radius < 0.5 * dr.getD (0.05 * s.radius) → s.chargeF eps0 s.location dr = .nan) := by
  have hd : s.sigmaSphere + 2 * s.sigmaBackground ≠ 0 := by linarith
  have hp : s.radius < (q - s.location).len → (q - s.location).len ≠ 0 := fun h => by linarith
  refine ⟨?_, ?_, fun dr => ⟨fun h => ?_, fun h => ?_⟩⟩
  · simp only [Electro.potentialF, Electro.potentialTotal, fl_sub, norm_fl, fin_lt_fin]
    split_ifs with h
    · simp only [V3.dot, fl, V3.map, V3.neg_x, V3.neg_y, V3.neg_z, neg_fin, fin_mul_fin, fin_add_fin, fin_sub_fin, one_def, fin_pow, fin_div_fin hd,
        fin_div_fin (pow_ne_zero 3 (hp h))]
    · simp only [V3.dot, fl, V3.map, V3.neg_x, V3.neg_y, V3.neg_z, neg_fin, fin_mul_fin, fin_add_fin, fin_div_fin hd]
  · simp only [Electro.fieldF, Electro.fieldTotal, fl_sub, norm_fl, fin_lt_fin]
    split_ifs with h
    · simp only [V3.ext_iff, V3.dot, fl, V3.map, V3.add_x, V3.add_y, V3.add_z, fin_mul_fin, fin_add_fin, fin_sub_fin, one_def, fin_pow,
        fin_div_fin hd, fin_div_fin (pow_ne_zero 3 (hp h)), fin_div_fin (pow_ne_zero 4 (hp h)), and_self]
    · simp only [fl, V3.map, fin_mul_fin, fin_add_fin, fin_div_fin hd]
  · simp only [Electro.chargeF, Electro.chargeDensity, fl_sub, norm_fl, fin_lt_fin, fin_mul_fin, fin_add_fin, fin_sub_fin]
    split_ifs with hc
    · have hn : (q - s.location).len ≠ 0 := by
        rcases h with h | h
        · exact V3.len_sub_ne_zero h
        · linarith [hc.2]
      simp only [V3.dot, fl, V3.map, fin_mul_fin, fin_add_fin, fin_div_fin hd, fin_div_fin hn]
    · rfl
  · simp only [Electro.chargeF, fl_sub, norm_fl, fin_lt_fin, fin_mul_fin, fin_add_fin, fin_sub_fin, sub_self, V3.len_eq_zero.2]
    rw [if_pos ⟨by linarith, by linarith⟩]
    simp only [V3.dot, fl, V3.map, V3.zero_x, V3.zero_y, V3.zero_z, fin_mul_fin, fin_add_fin, fin_div_fin hd, zero_mul, add_zero, mul_zero,
      zero_div_zero]

/-- **C108.** Potential and field of a magnetic sphere are finite everywhere. -/
theorem Magneto.finite (s : Magneto) (h0 : 0 < s.muBackground) (h1 : 0 < s.muSphere) (hr : 0 ≤ s.radius) (q : V3 ℝ) :
    s.potentialF q = fin (s.potentialTotal q) ∧ s.fieldF q = fl (s.fieldTotal q) := by
  have hd : s.muSphere + 2 * s.muBackground ≠ 0 := by linarith
  have hp : s.radius < (q - s.location).len → (q - s.location).len ≠ 0 := fun h => by linarith
  refine ⟨?_, ?_⟩
  · simp only [Magneto.potentialF, Magneto.potentialTotal, fl_sub, norm_fl, fin_lt_fin]
    split_ifs with h
    · simp only [V3.dot, fl, V3.map, V3.neg_x, V3.neg_y, V3.neg_z, neg_fin, fin_mul_fin, fin_add_fin, fin_sub_fin, one_def, fin_pow, fin_div_fin hd,
        fin_div_fin (pow_ne_zero 3 (hp h))]
    · simp only [V3.dot, fl, V3.map, V3.neg_x, V3.neg_y, V3.neg_z, neg_fin, fin_mul_fin, fin_add_fin, fin_div_fin hd]
  · simp only [Magneto.fieldF, Magneto.fieldTotal, fl_sub, norm_fl, fin_lt_fin]
    split_ifs with h
    · simp only [V3.ext_iff, V3.dot, fl, V3.map, V3.add_x, V3.add_y, V3.add_z, fin_mul_fin, fin_add_fin, fin_sub_fin, one_def, fin_pow,
        fin_div_fin hd, fin_div_fin (pow_ne_zero 3 (hp h)), fin_div_fin (pow_ne_zero 4 (hp h)), and_self]
    · simp only [fl, V3.map, fin_mul_fin, fin_add_fin, fin_div_fin hd]

/-- **C108.** The witness: a unit sphere and a shell of thickness 3. At the centre the charge density is not a number; there is no charge. -/
theorem Electro.charge_not_finite : ∃ (s : Electro) (q : V3 ℝ) (dr : ℝ), 0 < s.sigmaBackground ∧ 0 < s.sigmaSphere ∧ 0 < s.radius ∧ q = s.location ∧
    s.chargeF 1 q (some dr) = .nan :=
  ⟨⟨1, 2, 1, ⟨1, 0, 0⟩, 0⟩, 0, 3, by norm_num, by norm_num, by norm_num, rfl,
    ((Electro.finite_partial 1 ⟨1, 2, 1, ⟨1, 0, 0⟩, 0⟩ (by norm_num) (by norm_num) (by norm_num) 0).2.2 (some 3)).2
      (by simp only [Option.getD_some]; norm_num)⟩

end Sphere

namespace Static

theorem four_pi_pow_ne {r : ℝ} (h : r ≠ 0) (n : ℕ) : 4 * Real.pi * r ^ n ≠ 0 := by positivity

/-- **C108.** Vector potential and flux density of a static magnetic dipole are not numbers exactly at the dipole. -/
theorem MagDipole.dipole_finite (s : MagDipole) (q : V3 ℝ) :
    (q ≠ s.location → s.vectorPotentialF q = fl (s.vectorPotential q) ∧ s.fluxF q = fl (s.magneticFluxDensity q)) ∧
    s.vectorPotentialF s.location = V3.nan ∧ s.fluxF s.location = V3.nan := by
  refine ⟨fun h => ?_, ?_, ?_⟩
  · have h' := V3.len_sub_ne_zero h
    constructor
    · simp only [MagDipole.vectorPotentialF, fl_sub, norm_fl, fl_map_div h']
      simp only [fl, V3.map, V3.cross, fin_mul_fin, fin_sub_fin, fin_pow,
        fin_div_fin (four_pi_pow_ne h' 2), MagDipole.vectorPotential]
    · simp only [MagDipole.fluxF, fl_sub, norm_fl, fl_map_div h']
      simp only [fl, V3.map, V3.dot, fin_mul_fin, fin_add_fin, fin_sub_fin, fin_pow,
        fin_div_fin (four_pi_pow_ne h' 3), MagDipole.magneticFluxDensity]
  · simp only [MagDipole.vectorPotentialF, fl_self]
    simp only [V3.nan, V3.map, V3.cross, mul_nan, sub_nan]
  · simp only [MagDipole.fluxF, fl_self]
    simp only [V3.nan, mul_nan, nan_sub]

/-- **C108.** The flux density of a magnetic pole is not a number exactly at the pole. -/
theorem MagDipole.pole_finite (s : MagDipole) (q : V3 ℝ) :
    (q ≠ s.location → s.poleF q = fl (s.poleFluxDensity q)) ∧ s.poleF s.location = V3.nan := by
  refine ⟨fun h => ?_, ?_⟩
  · have h' := V3.len_sub_ne_zero h
    simp only [MagDipole.poleF, fl_sub, norm_fl, fl_map_div h']
    simp only [fl, V3.map, fin_mul_fin, fin_pow,
        fin_div_fin (four_pi_pow_ne h' 2), MagDipole.poleFluxDensity]
  · simp only [MagDipole.poleF, fl_self]
    simp only [V3.nan, V3.map, mul_nan]

/-- `q` is an electrode of the wire: its only node, or one of two different ends. -/
def LineCurrent.Electrode (s : LineCurrent) (q : V3 ℝ) : Prop :=
  s.nodes = [q] ∨ s.nodes.head? ≠ s.nodes.getLast? ∧ (s.nodes.head? = some q ∨ s.nodes.getLast? = some q)

theorem zero_len (q : V3 ℝ) : (q - q).len = 0 := V3.len_eq_zero.2 (sub_self _)

/-- **C108.** Scalar potential and electric field of a wire are finite exactly off its electrodes, where the potential is infinite (or, without
current, not a number) and the field is not a number. -/
theorem LineCurrent.electric_finite (s : LineCurrent) (hs : 0 < s.sigma) (hn : s.nodes ≠ []) (q : V3 ℝ) :
    (¬ s.Electrode q → ∃ v e, s.scalarPotential q = .ok v ∧ s.scalarPotentialF q = .ok (fin v) ∧ s.electricField q = .ok e ∧
      s.electricFieldF q = .ok (fl e)) ∧
    (s.Electrode q → ∃ v, s.scalarPotentialF q = .ok v ∧ ¬ v.Finite ∧ s.electricFieldF q = .ok V3.nan) := by
  obtain ⟨mu, sigma, current, nodes⟩ := s
  simp only at hs hn
  have hk : 4 * Real.pi * sigma ≠ 0 := by positivity
  match nodes, hn with
  | [n0], _ =>
    constructor
    · intro h
      have h' : q ≠ n0 := fun e => h (Or.inl (by simp [e]))
      have hr := V3.len_sub_ne_zero h'
      refine ⟨_, _, rfl, ?_, rfl, ?_⟩
      · simp only [LineCurrent.scalarPotentialF, fl_sub, norm_fl, fin_mul_fin, fin_div_fin (mul_ne_zero hk hr)]
      · simp only [LineCurrent.electricFieldF, fl_sub, norm_fl]
        simp only [fl, V3.map, fin_mul_fin, fin_pow, fin_div_fin hk, fin_div_fin (pow_ne_zero 3 hr)]
    · intro h
      have e : n0 = q := by
        rcases h with h | ⟨h, _⟩
        · simpa using h
        · simp at h
      subst e
      refine ⟨_, rfl, ?_, ?_⟩
      · simp only [fl_sub, norm_fl, zero_len, fin_mul_fin, mul_zero]
        rcases lt_trichotomy current 0 with h | h | h
        · rw [fin_div_zero_neg h]; exact not_finite_ninf
        · rw [h, zero_div_zero]; exact not_finite_nan
        · rw [fin_div_zero_pos h]; exact not_finite_pinf
      · simp only [LineCurrent.electricFieldF, fl_sub, norm_fl, sub_self, V3.len_eq_zero.2]
        simp [fl, V3.map, fin_pow, zero_div_zero, mul_nan, V3.nan]
  | n0 :: n1 :: rest, _ =>
    have hl : (n1 :: rest).getLast? = some ((n1 :: rest).getLast (by simp)) := List.getLast?_eq_some_getLast (by simp)
    have hE : LineCurrent.Electrode ⟨mu, sigma, current, n0 :: n1 :: rest⟩ q ↔
        (n1 :: rest).getLast (by simp) ≠ n0 ∧ (q = n0 ∨ q = (n1 :: rest).getLast (by simp)) := by
      simp only [LineCurrent.Electrode, List.head?_cons, List.getLast?_cons_cons, hl, Option.some.injEq, ne_eq]
      constructor
      · rintro (h | ⟨h, h2⟩)
        · simp at h
        · exact ⟨fun e => h e.symm, h2.imp Eq.symm Eq.symm⟩
      · rintro ⟨h, h2⟩
        exact Or.inr ⟨fun e => h e.symm, h2.imp Eq.symm Eq.symm⟩
    rw [hE]
    simp only [LineCurrent.scalarPotentialF, LineCurrent.scalarPotential, LineCurrent.electricField, LineCurrent.electricFieldF]
    generalize (n1 :: rest).getLast (by simp) = last
    by_cases hc : last = n0
    · simp only [if_pos hc]
      refine ⟨fun _ => ⟨0, 0, rfl, rfl, rfl, rfl⟩, fun h => absurd hc h.1⟩
    · simp only [if_neg hc]
      constructor
      · intro h
        have h0 : q ≠ n0 := fun e => h ⟨hc, Or.inl e⟩
        have h1 : q ≠ last := fun e => h ⟨hc, Or.inr e⟩
        have r0 := V3.len_sub_ne_zero h0
        have r1 := V3.len_sub_ne_zero h1
        refine ⟨_, _, rfl, ?_, rfl, ?_⟩
        · simp only [fl_sub, norm_fl, one_def, fin_mul_fin, fin_sub_fin, fin_div_fin hk, fin_div_fin r0, fin_div_fin r1]
        · simp only [fl_sub, norm_fl]
          simp only [fl, V3.map, fin_mul_fin, fin_sub_fin, fin_pow, fin_div_fin hk, fin_div_fin (pow_ne_zero 3 r0), fin_div_fin (pow_ne_zero 3 r1)]
      · rintro ⟨_, rfl | rfl⟩
        · have r1 := V3.len_sub_ne_zero (Ne.symm hc)
          refine ⟨_, rfl, ?_, ?_⟩
          · simp only [fl_sub, norm_fl, zero_len, one_def, fin_mul_fin, fin_div_fin hk, fin_div_fin r1, fin_div_zero_pos one_pos]
            exact fin_mul_ninf _
          · simp only [fl_sub, norm_fl, sub_self, V3.len_eq_zero.2]
            simp [fl, V3.map, fin_pow, zero_div_zero, sub_nan, mul_nan, V3.nan]
        · have r0 := V3.len_sub_ne_zero hc
          refine ⟨_, rfl, ?_, ?_⟩
          · simp only [fl_sub, norm_fl, zero_len, one_def, fin_mul_fin, fin_div_fin hk, fin_div_fin r0, fin_div_zero_pos one_pos]
            exact fin_mul_pinf _
          · simp only [fl_sub, norm_fl, sub_self, V3.len_eq_zero.2]
            simp [fl, V3.map, fin_pow, zero_div_zero, nan_sub, mul_nan, V3.nan]

theorem not_finite_add_fin {a : PyFloat} (h : ¬ a.Finite) (x : ℝ) : ¬ (a + fin x).Finite := by
  cases a
  · exact absurd (finite_fin _) h
  · exact not_finite_pinf
  · exact not_finite_ninf
  · exact not_finite_nan

theorem not_finite_add_self {a : PyFloat} (h : ¬ a.Finite) : ¬ (a + a).Finite := by
  cases a
  · exact absurd (finite_fin _) h
  · exact not_finite_pinf
  · exact not_finite_ninf
  · exact not_finite_nan

theorem nan_add_vec (v : V3 PyFloat) : V3.nan + v = V3.nan := by
  simp only [V3.nan, V3.ext_iff, V3.add_x, V3.add_y, V3.add_z, nan_add, and_self]

theorem electrode_point {mu sigma current : ℝ} {n q : V3 ℝ} : LineCurrent.Electrode ⟨mu, sigma, current, [n]⟩ q ↔ q = n := by
  simp [LineCurrent.Electrode, eq_comm]

/-- **C108.** Below and on the surface of a half-space potential and field of an electrode are finite exactly off the electrode. -/
theorem PointHalf.electric_finite {mu0 rho current : ℝ} {location : V3 ℝ} {s : PointHalf} (h : PointHalf.new mu0 rho current location = .ok s)
    (q : V3 ℝ) (hq : q.z ≤ 0) :
    (q ≠ location → ∃ v e, s.potential q = .ok v ∧ s.potentialF q = .ok (fin v) ∧ s.electricField q = .ok e ∧ s.electricFieldF q = .ok (fl e)) ∧
    (q = location → ∃ v, s.potentialF q = .ok v ∧ ¬ v.Finite ∧ s.electricFieldF q = .ok V3.nan) := by
  unfold PointHalf.new at h
  split_ifs at h with h0 h1 h2
  have hs : (0 : ℝ) < 1 / rho := not_le.1 h1
  rw [Except.ok.injEq] at h
  subst h
  have hp := LineCurrent.electric_finite (pointCurrent mu0 rho current location) hs (by simp [pointCurrent]) q
  have hm := LineCurrent.electric_finite (pointCurrent mu0 rho current (mirror location)) hs (by simp [pointCurrent]) q
  have hp' : (pointCurrent mu0 rho current location).Electrode q ↔ q = location := electrode_point
  have hm' : (pointCurrent mu0 rho current (mirror location)).Electrode q ↔ q = mirror location := electrode_point
  rw [hp'] at hp
  rw [hm'] at hm
  have hz : q = mirror location → q = location := fun e => by
    have e3 := congrArg V3.z e
    simp only [mirror] at e3
    rw [e]
    ext <;> simp [mirror]
    linarith [not_lt.1 h2]
  have hc : ¬ q.z > 0 := not_lt.2 hq
  simp only [PointHalf.potential, PointHalf.potentialF, PointHalf.electricField, PointHalf.electricFieldF, if_neg hc, pointPotential, pointElectricField]
  constructor
  · intro hne
    obtain ⟨v, e, a1, a2, a3, a4⟩ := hp.1 hne
    obtain ⟨w, f, b1, b2, b3, b4⟩ := hm.1 fun e => hne (hz e)
    refine ⟨v + w, e + f, ?_, ?_, ?_, ?_⟩
    · rw [a1, b1]; rfl
    · rw [a2, b2]; rfl
    · rw [a3, b3]; rfl
    · rw [a4, b4]; rfl
  · intro heq
    obtain ⟨v, a1, a2, a3⟩ := hp.2 heq
    by_cases hmq : q = mirror location
    · have e : location = mirror location := heq.symm.trans hmq
      obtain ⟨w, b1, b2, b3⟩ := hm.2 hmq
      rw [← e] at b1 b3 ⊢
      rw [a1, a3]
      exact ⟨v + v, rfl, not_finite_add_self a2, by simp only [bind, Except.bind, pure, Except.pure, nan_add_vec]⟩
    · obtain ⟨w, f, b1, b2, b3, b4⟩ := hm.1 hmq
      rw [a1, a3, b2, b4]
      exact ⟨v + fin w, rfl, not_finite_add_fin a2 w, by simp only [bind, Except.bind, pure, Except.pure, nan_add_vec]⟩

/-- An electrode at a depth of one metre in a half-space of one ohm metre. -/
example : ∃ s, PointHalf.new 1 1 1 ⟨0, 0, -1⟩ = .ok s ∧ ¬ ∃ v, s.potentialF ⟨0, 0, -1⟩ = .ok (fin v) := by
  have h : PointHalf.new 1 1 1 ⟨0, 0, -1⟩ = .ok ⟨1, 1, ⟨0, 0, -1⟩, pointCurrent 1 1 1 ⟨0, 0, -1⟩, pointCurrent 1 1 1 (mirror ⟨0, 0, -1⟩)⟩ := by norm_num [PointHalf.new]
  refine ⟨_, h, fun ⟨v, hv⟩ => ?_⟩
  obtain ⟨w, e, hw, -⟩ := (PointHalf.electric_finite h ⟨0, 0, -1⟩ (by norm_num)).2 rfl
  rw [hv, Except.ok.injEq] at e
  exact hw (e ▸ finite_fin v)

end Static

end Verif
