import Verif.Props.UnitsTransient
import Verif.Model.FdemHalfspace
import Verif.Lemmas.ReflectionGrad

/-!
# C111: the results do not depend on the system of units (harmonic sources at a half-space or over layers)
-/

namespace Verif

theorem Units.conv_facts (u : Units) :
    u.frequency * u.permeability * u.conductivity * u.length ^ 2 = 1 ∧ u.permeability * u.magneticField = u.fluxDensity ∧
    u.magneticMoment = u.magneticField * u.length ^ 3 ∧ 0 < u.frequency ∧ 0 < u.permeability ∧ 0 < u.conductivity := by
  have hL := u.length_pos; have hM := u.mass_pos; have hT := u.time_pos; have hI := u.current_pos
  rw [u.frequency_eq, u.permeability_eq, u.conductivity_eq, u.magneticField_eq, u.fluxDensity_eq, u.magneticMoment_eq]
  refine ⟨?_, ?_, ?_, by positivity, by positivity, by positivity⟩ <;> field_simp

namespace RTE

/-- The column in other units. -/
noncomputable def Col.inUnits (u : Units) (c : Col) : Col :=
  ⟨u.frequency * c.omega, c.lamb / u.length, u.permeability * c.mu0, c.n, fun k => u.conductivity * c.sigma k, fun k => u.permeability * c.mu k,
    fun k => u.length * c.h k⟩

section
variable (u : Units) (c : Col)

theorem Col.units_u (k : ℕ) : (c.inUnits u).u k = ((u.length⁻¹ : ℝ) : ℂ) * c.u k := by
  obtain ⟨hp, -, -, hf, hmu, hsig⟩ := u.conv_facts
  have hL := u.length_pos
  have hp' : (u.frequency : ℂ) * u.permeability * u.conductivity * u.length ^ 2 = 1 := by exact_mod_cast hp
  have hL' := Complex.ofReal_ne_zero.2 hL.ne'
  simp only [Col.u, uOf, Col.inUnits]
  rw [← Fdem.csqrt_scale (inv_pos.2 hL)]
  refine congrArg Complex.sqrt ?_
  simp only [k2]
  push_cast
  field_simp
  linear_combination (Complex.I * c.omega * c.mu k * c.sigma k) * hp'

theorem Col.units_Y (k : ℕ) : (c.inUnits u).Y k = ((u.conductivity * u.length : ℝ) : ℂ) * c.Y k := by
  obtain ⟨hp, -, -, hf, hmu, hsig⟩ := u.conv_facts
  have hL := u.length_pos
  have hp' : (u.frequency : ℂ) * u.permeability * u.conductivity * u.length ^ 2 = 1 := by exact_mod_cast hp
  have hL' := Complex.ofReal_ne_zero.2 hL.ne'
  have hf' := Complex.ofReal_ne_zero.2 hf.ne'
  have hmu' := Complex.ofReal_ne_zero.2 hmu.ne'
  have h1 : (c.inUnits u).Y k = (c.inUnits u).u k / (Complex.I * (c.inUnits u).omega * (c.inUnits u).mu k) := rfl
  have h2 : c.Y k = c.u k / (Complex.I * c.omega * c.mu k) := rfl
  rw [h1, h2, c.units_u u k]
  simp only [Col.inUnits]
  push_cast
  rw [show Complex.I * ((u.frequency : ℂ) * c.omega) * (u.permeability * c.mu k) = (u.frequency * u.permeability) * (Complex.I * c.omega * c.mu k) by ring,
    show (u.conductivity : ℂ) = 1 / (u.frequency * u.permeability * u.length ^ 2) by
      rw [eq_div_iff (by simp [hf', hmu', hL'])]; linear_combination hp']
  generalize Complex.I * (c.omega : ℂ) * c.mu k = D
  field_simp

theorem Col.units_t (k : ℕ) : (c.inUnits u).t k = c.t k := by
  have hL' := Complex.ofReal_ne_zero.2 u.length_pos.ne'
  simp only [Col.t, tanhOf, c.units_u u k]
  refine congrArg Complex.tanh ?_
  simp only [Col.inUnits]
  push_cast
  field_simp

theorem Col.units_Y0 : (c.inUnits u).Y0 = ((u.conductivity * u.length : ℝ) : ℂ) * c.Y0 := by
  obtain ⟨hp, -, -, hf, hmu, hsig⟩ := u.conv_facts
  have hL := u.length_pos
  have hp' : (u.frequency : ℂ) * u.permeability * u.conductivity * u.length ^ 2 = 1 := by exact_mod_cast hp
  have hL' := Complex.ofReal_ne_zero.2 hL.ne'
  have hf' := Complex.ofReal_ne_zero.2 hf.ne'
  have hmu' := Complex.ofReal_ne_zero.2 hmu.ne'
  simp only [Col.Y0, Col.inUnits]
  push_cast
  rw [show Complex.I * ((u.frequency : ℂ) * c.omega) * (u.permeability * c.mu0) = (u.frequency * u.permeability) * (Complex.I * c.omega * c.mu0) by ring,
    show (u.conductivity : ℂ) = 1 / (u.frequency * u.permeability * u.length ^ 2) by
      rw [eq_div_iff (by simp [hf', hmu', hL'])]; linear_combination hp']
  generalize Complex.I * (c.omega : ℂ) * c.mu0 = D
  field_simp

theorem Units.admittance_ne : ((u.conductivity * u.length : ℝ) : ℂ) ≠ 0 :=
  Complex.ofReal_ne_zero.2 (mul_pos u.conv_facts.2.2.2.2.2 u.length_pos).ne'

theorem stepOf_scale {a : ℂ} (ha : a ≠ 0) (Y t Yh : ℂ) : stepOf (a * Y) t (a * Yh) = a * stepOf Y t Yh := by
  simp only [stepOf]
  rw [show a * Y * (a * Yh + a * Y * t) = a * (a * (Y * (Yh + Y * t))) by ring, show a * Y + a * Yh * t = a * (Y + Yh * t) by ring,
    mul_div_assoc, mul_div_mul_left _ _ ha]

theorem Col.units_yh {k : ℕ} (hk : k ≤ c.n) : (c.inUnits u).yh k = ((u.conductivity * u.length : ℝ) : ℂ) * c.yh k := by
  induction hk using Nat.decreasingInduction with
  | self =>
    have : (c.inUnits u).n = c.n := rfl
    rw [c.yh_n, ← c.units_Y u c.n, ← this, Col.yh_n]
  | of_succ k hk ih =>
    rw [c.yh_succ hk, (c.inUnits u).yh_succ hk, ih, c.units_Y, c.units_t, stepOf_scale (Units.admittance_ne u)]

/-- **C111.** The reflection coefficient is a pure number. -/
theorem forward_units : forward (c.inUnits u) = forward c := by
  rw [forward_eq, forward_eq, c.units_Y0, c.units_yh u (Nat.zero_le _), ← mul_sub, ← mul_add, mul_div_mul_left _ _ (Units.admittance_ne u)]

end

theorem st_units (u : Units) (c : Col) (junk js jh jm junk' js' jh' jm' : ℕ → ℂ) {m : ℕ} (hm : m ≤ c.n) :
    ((u.conductivity * u.length : ℝ) : ℂ) * (st (c.inUnits u) junk' js' jh' jm' m).gyh0 = (st c junk js jh jm m).gyh0 ∧
    ∀ k < m, (u.conductivity : ℂ) * (st (c.inUnits u) junk' js' jh' jm' m).dsigma k = (st c junk js jh jm m).dsigma k ∧
      (u.length : ℂ) * (st (c.inUnits u) junk' js' jh' jm' m).dh k = (st c junk js jh jm m).dh k ∧
      (u.permeability : ℂ) * (st (c.inUnits u) junk' js' jh' jm' m).dmu k = (st c junk js jh jm m).dmu k := by
  obtain ⟨hp, -, -, hf, hmu, hsig⟩ := u.conv_facts
  have hL := u.length_pos
  have hL' := Complex.ofReal_ne_zero.2 hL.ne'
  have hf' := Complex.ofReal_ne_zero.2 hf.ne'
  have hmu' := Complex.ofReal_ne_zero.2 hmu.ne'
  have hσ : (u.conductivity : ℂ) = 1 / (u.frequency * u.permeability * u.length ^ 2) := by
    have hp' : (u.frequency : ℂ) * u.permeability * u.conductivity * u.length ^ 2 = 1 := by exact_mod_cast hp
    rw [eq_div_iff (by simp [hf', hmu', hL'])]; linear_combination hp'
  have ha := Units.admittance_ne u
  have haσ : ((u.conductivity * u.length : ℝ) : ℂ) = u.conductivity * u.length := by push_cast; ring
  induction m with
  | zero =>
    refine ⟨?_, fun k hk => absurd hk (Nat.not_lt_zero _)⟩
    change ((u.conductivity * u.length : ℝ) : ℂ) * (-2 * (c.inUnits u).Y0 / (((c.inUnits u).Y0 + yhArray (c.inUnits u) junk' 0) *
      ((c.inUnits u).Y0 + yhArray (c.inUnits u) junk' 0))) = -2 * c.Y0 / ((c.Y0 + yhArray c junk 0) * (c.Y0 + yhArray c junk 0))
    rw [yhArray_eq c junk (Nat.zero_le _), yhArray_eq (c.inUnits u) junk' (Nat.zero_le _), c.units_Y0, c.units_yh u (Nat.zero_le _), ← mul_add]
    generalize ((u.conductivity * u.length : ℝ) : ℂ) = a at *
    generalize c.Y0 + c.yh 0 = D
    field_simp
  | succ m ih =>
    obtain ⟨ig, ik⟩ := ih (Nat.le_of_succ_le hm)
    rw [st_succ, st_succ]
    have e1 := yhArray_eq c junk hm
    have e2 := yhArray_eq (c.inUnits u) junk' (k := m + 1) hm
    rw [c.units_yh u hm] at e2
    have hom : (c.inUnits u).omega = u.frequency * c.omega := rfl
    have hmm : (c.inUnits u).mu m = u.permeability * c.mu m := rfl
    have hss : (c.inUnits u).sigma m = u.conductivity * c.sigma m := rfl
    have hhh : (c.inUnits u).h m = u.length * c.h m := rfl
    have key : ∀ s s' : GState, ((u.conductivity * u.length : ℝ) : ℂ) * s'.gyh0 = s.gyh0 →
        ((u.conductivity * u.length : ℝ) : ℂ) * (gradBody (c.inUnits u) (yhArray (c.inUnits u) junk') m s').gyh0 =
            (gradBody c (yhArray c junk) m s).gyh0 ∧
        (u.conductivity : ℂ) * (gradBody (c.inUnits u) (yhArray (c.inUnits u) junk') m s').dsigma m = (gradBody c (yhArray c junk) m s).dsigma m ∧
        (u.length : ℂ) * (gradBody (c.inUnits u) (yhArray (c.inUnits u) junk') m s').dh m = (gradBody c (yhArray c junk) m s).dh m ∧
        (u.permeability : ℂ) * (gradBody (c.inUnits u) (yhArray (c.inUnits u) junk') m s').dmu m = (gradBody c (yhArray c junk) m s).dmu m := by
      intro s s' hg
      simp only [gradBody, e1, e2, c.units_Y, c.units_t, c.units_u, hom, hmm, hss, hhh, Function.update_self, ← hg]
      have hbot : ((u.conductivity * u.length : ℝ) : ℂ) * c.Y m + ((u.conductivity * u.length : ℝ) : ℂ) * c.yh (m + 1) * c.t m =
          ((u.conductivity * u.length : ℝ) : ℂ) * (c.Y m + c.yh (m + 1) * c.t m) := by ring
      rw [hbot]
      generalize c.Y m + c.yh (m + 1) * c.t m = D
      generalize c.Y m = Y
      generalize c.yh (m + 1) = Z
      generalize c.t m = t
      generalize c.u m = w
      generalize c.mu m = mu
      generalize c.sigma m = sg
      generalize c.h m = h
      generalize s'.gyh0 = g
      generalize c.omega = om
      rw [haσ, hσ]
      push_cast
      generalize (u.frequency : ℂ) = f at *
      generalize (u.permeability : ℂ) = p at *
      generalize (u.length : ℂ) = L at *
      refine ⟨?_, ?_, ?_, ?_⟩
      · field_simp
      · field_simp
      · field_simp
      · field_simp
    obtain ⟨k1, k2', k3, k4⟩ := key _ _ ig
    refine ⟨k1, fun k hk => ?_⟩
    rcases Nat.lt_succ_iff_lt_or_eq.1 hk with hk | rfl
    · obtain ⟨i1, i2, i3⟩ := ik k hk
      refine ⟨?_, ?_, ?_⟩ <;> simp only [gradBody, Function.update_of_ne hk.ne] <;> assumption
    · exact ⟨k2', k3, k4⟩

/-- **C111.** The derivatives of the reflection coefficient, whatever was in the arrays before. -/
theorem gradient_units (u : Units) (c : Col) (junk js jh jm junk' js' jh' jm' : ℕ → ℂ) (k : ℕ) (hk : k ≤ c.n) :
    (u.conductivity : ℂ) * (gradient (c.inUnits u) junk' js' jh' jm').dsigma k = (gradient c junk js jh jm).dsigma k ∧
    (k < c.n → (u.length : ℂ) * (gradient (c.inUnits u) junk' js' jh' jm').dh k = (gradient c junk js jh jm).dh k) ∧
    (u.permeability : ℂ) * (gradient (c.inUnits u) junk' js' jh' jm').dmu k = (gradient c junk js jh jm).dmu k := by
  rcases hk.lt_or_eq with hk | rfl
  · obtain ⟨a1, a2, a3⟩ := gradient_lt c junk js jh jm hk
    obtain ⟨b1, b2, b3⟩ := gradient_lt (c.inUnits u) junk' js' jh' jm' (k := k) hk
    obtain ⟨-, h⟩ := st_units u c junk js jh jm junk' js' jh' jm' (m := k + 1) hk
    obtain ⟨h1, h2, h3⟩ := h k (Nat.lt_succ_self k)
    exact ⟨by rw [a1, b1, h1], fun _ => by rw [a2, b2, h2], by rw [a3, b3, h3]⟩
  · obtain ⟨hp, -, -, hf, hmu, hsig⟩ := u.conv_facts
    have hL := u.length_pos
    have hL' := Complex.ofReal_ne_zero.2 hL.ne'
    have hf' := Complex.ofReal_ne_zero.2 hf.ne'
    have hmu' := Complex.ofReal_ne_zero.2 hmu.ne'
    have hσ : (u.conductivity : ℂ) = 1 / (u.frequency * u.permeability * u.length ^ 2) := by
      have hp' : (u.frequency : ℂ) * u.permeability * u.conductivity * u.length ^ 2 = 1 := by exact_mod_cast hp
      rw [eq_div_iff (by simp [hf', hmu', hL'])]; linear_combination hp'
    have haσ : ((u.conductivity * u.length : ℝ) : ℂ) = u.conductivity * u.length := by push_cast; ring
    obtain ⟨hg, -⟩ := st_units u c junk js jh jm junk' js' jh' jm' (m := c.n) le_rfl
    have hn : (c.inUnits u).n = c.n := rfl
    have e1 := yhArray_eq c junk (le_refl c.n)
    have e2 := yhArray_eq (c.inUnits u) junk' (le_refl c.n)
    rw [c.units_yh u le_rfl] at e2
    have hom : (c.inUnits u).omega = u.frequency * c.omega := rfl
    have hmm : (c.inUnits u).mu c.n = u.permeability * c.mu c.n := rfl
    have hss : (c.inUnits u).sigma c.n = u.conductivity * c.sigma c.n := rfl
    have g1 : upLoop c.n (gradBody c (yhArray c junk)) ⟨-2 * c.Y0 / ((c.Y0 + yhArray c junk 0) * (c.Y0 + yhArray c junk 0)), js, jh, jm⟩ =
      st c junk js jh jm c.n := rfl
    have g2 : upLoop c.n (gradBody (c.inUnits u) (yhArray (c.inUnits u) junk')) ⟨-2 * (c.inUnits u).Y0 /
      (((c.inUnits u).Y0 + yhArray (c.inUnits u) junk' 0) * ((c.inUnits u).Y0 + yhArray (c.inUnits u) junk' 0)), js', jh', jm'⟩ =
      st (c.inUnits u) junk' js' jh' jm' c.n := rfl
    simp only [gradient, hn, g1, g2, Function.update_self, e1, e2, hom, hmm, hss, c.units_u, ← hg, lt_irrefl, false_implies, true_and]
    generalize (st (c.inUnits u) junk' js' jh' jm' c.n).gyh0 = g
    generalize c.yh c.n = Z
    generalize c.u c.n = w
    generalize c.mu c.n = mu
    generalize c.sigma c.n = sg
    generalize c.omega = om
    rw [haσ, hσ]
    push_cast
    generalize (u.frequency : ℂ) = f at *
    generalize (u.permeability : ℂ) = p at *
    generalize (u.length : ℂ) = L at *
    refine ⟨?_, ?_⟩
    · field_simp
    · field_simp

end RTE

namespace Fdem

/-- **C111.** Horizontal loop at the surface of the half-space. -/
theorem loop_units (u : Units) (frequency : ℝ) (sigma mu : ℂ) (radius current turns : ℝ) (secondary : Bool) :
    loopField (u.frequency * frequency) (u.conductivity * sigma) (u.permeability * mu) (u.length * radius) (u.current * current) turns secondary =
      u.magneticField * loopField frequency sigma mu radius current turns secondary ∧
    loopFlux (u.frequency * frequency) (u.conductivity * sigma) (u.permeability * mu) (u.length * radius) (u.current * current) turns secondary =
      u.fluxDensity * loopFlux frequency sigma mu radius current turns secondary := by
  obtain ⟨hp, hB, -, hf, hmu, hsig⟩ := u.conv_facts
  have hL := u.length_pos; have hI := u.current_pos
  have hL' := Complex.ofReal_ne_zero.2 hL.ne'; have hI' := Complex.ofReal_ne_zero.2 hI.ne'
  have hp' : (u.frequency : ℂ) * u.permeability * u.conductivity * u.length ^ 2 = 1 := by exact_mod_cast hp
  have hk : Complex.sqrt (-Complex.I * ((2 * Real.pi * (u.frequency * frequency) : ℝ) : ℂ) * (u.permeability * mu) * (u.conductivity * sigma)) =
      ((u.length⁻¹ : ℝ) : ℂ) * Complex.sqrt (-Complex.I * ((2 * Real.pi * frequency : ℝ) : ℂ) * mu * sigma) := by
    rw [← csqrt_scale (inv_pos.2 hL)]
    refine congrArg Complex.sqrt ?_
    push_cast
    field_simp
    linear_combination (-(frequency * mu * sigma)) * hp'
  have h1 : loopField (u.frequency * frequency) (u.conductivity * sigma) (u.permeability * mu) (u.length * radius) (u.current * current) turns secondary =
      u.magneticField * loopField frequency sigma mu radius current turns secondary := by
    simp only [loopField, hk]
    generalize Complex.sqrt (-Complex.I * ((2 * Real.pi * frequency : ℝ) : ℂ) * mu * sigma) = k
    have hka : ((u.length⁻¹ : ℝ) : ℂ) * k * ((u.length * radius : ℝ) : ℂ) = k * radius := by push_cast; field_simp
    have e1 : -Complex.I * (((u.length⁻¹ : ℝ) : ℂ) * k) * ((u.length * radius : ℝ) : ℂ) = -Complex.I * k * radius := by
      linear_combination -Complex.I * hka
    have e2 : 3 * Complex.I * (((u.length⁻¹ : ℝ) : ℂ) * k) * ((u.length * radius : ℝ) : ℂ) = 3 * Complex.I * k * radius := by
      linear_combination 3 * Complex.I * hka
    have e3 : (((u.length⁻¹ : ℝ) : ℂ) * k) ^ 2 * ((u.length * radius : ℝ) : ℂ) ^ 2 = k ^ 2 * radius ^ 2 := by
      rw [← mul_pow, hka, mul_pow]
    rw [e1, e2, e3, u.magneticField_eq]
    generalize 3 - (3 + 3 * Complex.I * k * radius - k ^ 2 * radius ^ 2) * Complex.exp (-Complex.I * k * radius) = w
    cases secondary <;> simp only [if_true, if_false, Bool.false_eq_true] <;> push_cast <;> field_simp
  refine ⟨h1, ?_⟩
  simp only [loopFlux, h1, ← hB]
  push_cast
  ring

/-- The dipole on the half-space in other units. -/
noncomputable def HalfDipole.inUnits (u : Units) (s : HalfDipole) : HalfDipole :=
  ⟨u.frequency * s.frequency, u.conductivity * s.sigmaHat, u.length • s.location, s.orientation, u.magneticMoment * s.moment⟩

set_option maxHeartbeats 2000000 in
theorem halfEm_scale (iv kv : ℕ → ℂ → ℂ) {a : ℝ} (ha : 0 < a) (k : ℂ) (src : V3 ℝ) (x y : ℝ) (field : String) :
    halfEm iv kv (((a⁻¹ : ℝ) : ℂ) * k) src (a * x) (a * y) field = ((a ^ 3)⁻¹ : ℝ) • halfEm iv kv k src x y field := by
  have hr : √((a * x) ^ 2 + (a * y) ^ 2) = a * √(x ^ 2 + y ^ 2) := by
    rw [← sqrt_scale ha]
    refine congrArg Real.sqrt ?_
    ring
  have ha' := Complex.ofReal_ne_zero.2 ha.ne'
  simp only [halfEm, hr, Tdem.arctan2_scale ha]
  generalize √(x ^ 2 + y ^ 2) = r
  have e : ((a⁻¹ : ℝ) : ℂ) * k * ((a * r : ℝ) : ℂ) = k * r := by push_cast; field_simp
  have e1 (c : ℂ) : c * (((a⁻¹ : ℝ) : ℂ) * k) * ((a * r : ℝ) : ℂ) = c * k * r := by linear_combination c * e
  have e2 : (((a⁻¹ : ℝ) : ℂ) * k) ^ 2 * ((a * r : ℝ) : ℂ) ^ 2 = k ^ 2 * r ^ 2 := by rw [← mul_pow, e, mul_pow]
  have e2' (c : ℂ) : c * (((a⁻¹ : ℝ) : ℂ) * k) ^ 2 * ((a * r : ℝ) : ℂ) ^ 2 = c * k ^ 2 * r ^ 2 := by rw [mul_assoc, e2, mul_assoc]
  have e3' (c : ℂ) : c * (((a⁻¹ : ℝ) : ℂ) * k) ^ 3 * ((a * r : ℝ) : ℂ) ^ 3 = c * k ^ 3 * r ^ 3 := by
    rw [mul_assoc, ← mul_pow, e, mul_pow, mul_assoc]
  simp only [e1, e2, e2', e3']
  generalize iv 1 (Complex.I * k * r / 2) * kv 1 (Complex.I * k * r / 2) - iv 2 (Complex.I * k * r / 2) * kv 2 (Complex.I * k * r / 2) = J
  generalize 3 + k ^ 2 * r ^ 2 - (3 + 3 * Complex.I * k * r - k ^ 2 * r ^ 2) * Complex.exp (-Complex.I * k * r) = P
  generalize -2 * k ^ 2 * (r : ℂ) ^ 2 - 12 + (-Complex.I * k ^ 3 * r ^ 3 - 5 * k ^ 2 * r ^ 2 + 12 * Complex.I * k * r + 12) *
    Complex.exp (-Complex.I * k * r) = Q
  generalize 9 - (9 + 9 * Complex.I * k * r - 4 * k ^ 2 * r ^ 2 - Complex.I * k ^ 3 * r ^ 3) * Complex.exp (-Complex.I * k * r) = S
  generalize Real.cos (Spatial.arctan2 y x) = co
  generalize Real.sin (Spatial.arctan2 y x) = si
  by_cases hz : src.z = 0 <;> by_cases hx : src.x = 0 <;> by_cases hy : src.y = 0 <;> by_cases hs : field = "secondary" <;>
    simp only [hz, hx, hy, hs, ne_eq, not_true_eq_false, not_false_eq_true, or_true, true_or, or_self, if_true, if_false] <;>
    ext <;> simp only [V3.smul_x, V3.smul_y, V3.smul_z, V3.add_x, V3.add_y, V3.add_z, V3.sub_x, V3.sub_y, V3.sub_z, V3.zero_x, V3.zero_y, V3.zero_z,
      Complex.real_smul] <;> push_cast <;> field_simp <;> ring

/-- **C111.** Magnetic dipole on a half-space, whatever the two Bessel functions are. -/
theorem HalfDipole.units (iv kv : ℕ → ℂ → ℂ) (mu0 : ℝ) (u : Units) (s : HalfDipole) (q : V3 ℝ) (field : String) :
    (s.inUnits u).magneticField iv kv (u.permeability * mu0) (u.length • q) field = u.magneticField • s.magneticField iv kv mu0 q field := by
  obtain ⟨hp, -, hm, hf, hmu, hsig⟩ := u.conv_facts
  have hL := u.length_pos
  have hL' := Complex.ofReal_ne_zero.2 hL.ne'
  have hp' : (u.frequency : ℂ) * u.permeability * u.conductivity * u.length ^ 2 = 1 := by exact_mod_cast hp
  have hk : (s.inUnits u).k (u.permeability * mu0) = ((u.length⁻¹ : ℝ) : ℂ) * s.k mu0 := by
    simp only [HalfDipole.k, HalfDipole.inUnits]
    rw [← csqrt_scale (inv_pos.2 hL)]
    refine congrArg Complex.sqrt ?_
    push_cast
    field_simp
    linear_combination (-(s.frequency * mu0 * s.sigmaHat)) * hp'
  have d : ∀ s t : ℝ, u.length * s - u.length * t = u.length * (s - t) := fun s t => by ring
  simp only [HalfDipole.magneticField, hk]
  simp only [HalfDipole.inUnits, V3.smul_x, V3.smul_y, smul_eq_mul, d, halfEm_scale iv kv hL, hm]
  generalize halfEm _ _ _ _ _ _ _ = v
  ext <;> simp only [V3.smul_x, V3.smul_y, V3.smul_z, Complex.real_smul, smul_eq_mul] <;> push_cast <;> field_simp

/-- The dipole over layers in other units. -/
noncomputable def LayeredDipole.inUnits (u : Units) (s : LayeredDipole) : LayeredDipole :=
  ⟨u.frequency * s.frequency, s.nThick, fun k => u.length * s.thickness k, fun k => u.conductivity * s.sigmaHat k, fun k => u.permeability * s.mu k,
    u.length • s.location, s.orientation, u.magneticMoment * s.moment⟩

theorem LayeredDipole.rTE_units (u : Units) (mu0 : ℝ) (s : LayeredDipole) (lambd : ℝ) :
    (s.inUnits u).rTE (u.permeability * mu0) (lambd / u.length) = s.rTE mu0 lambd := by
  simp only [LayeredDipole.rTE]
  refine Eq.trans (congrArg RTE.forward ?_) (RTE.forward_units u _)
  simp only [RTE.Col.inUnits, LayeredDipole.inUnits, RTE.omegaOf, RTE.Col.mk.injEq, and_true]
  ring

set_option maxHeartbeats 1000000 in
theorem coefficients_scale {a : ℝ} (ha : 0 < a) (src : V3 ℝ) (x y offset lambd : ℝ) :
    coefficients src (a * x) (a * y) (a * offset) (lambd / a) =
      ((a ^ 2)⁻¹ • (coefficients src x y offset lambd).1, (a ^ 2)⁻¹ • (coefficients src x y offset lambd).2) := by
  simp only [coefficients]
  by_cases hz : src.z = 0 <;> by_cases hx : src.x = 0 <;> by_cases hy : src.y = 0 <;>
    simp only [hz, hx, hy, ne_eq, not_true_eq_false, not_false_eq_true, if_true, if_false] <;>
    refine Prod.ext ?_ ?_ <;> ext <;>
    simp only [V3.smul_x, V3.smul_y, V3.smul_z, V3.add_x, V3.add_y, V3.add_z, V3.zero_x, V3.zero_y, V3.zero_z, smul_eq_mul] <;> field_simp <;> ring

/-- **C111.** Magnetic dipole over layers, whatever the digital filter. -/
theorem LayeredDipole.units_at (filter : List Tap) (mu0 : ℝ) (u : Units) (s : LayeredDipole) (q : V3 ℝ) (field : String) :
    (s.inUnits u).fieldAt filter (u.permeability * mu0) (u.length • q) field = u.magneticField • s.fieldAt filter mu0 q field := by
  obtain ⟨-, -, hm, -, -, -⟩ := u.conv_facts
  have hL := u.length_pos
  have hL' := Complex.ofReal_ne_zero.2 hL.ne'
  have hloc : (s.inUnits u).location = u.length • s.location := rfl
  have hor : (s.inUnits u).orientation = s.orientation := rfl
  have hmo : (s.inUnits u).moment = u.magneticMoment * s.moment := rfl
  have hd : (u.length • q - u.length • s.location) = u.length • (q - s.location) := (smul_sub _ _ _).symm
  have hl : (u.length • (q - s.location)).len = u.length * (q - s.location).len := by rw [V3.len_smul, abs_of_pos hL]
  have hr (v : V3 ℝ) : √((u.length * v.x) ^ 2 + (u.length * v.y) ^ 2) = u.length * √(v.x ^ 2 + v.y ^ 2) := by
    rw [← sqrt_scale hL]
    refine congrArg Real.sqrt ?_
    ring
  have hbase (t : Tap) (r : ℝ) : t.base / (u.length * r) = t.base / r / u.length := by rw [mul_comm, div_div]
  have hexp (l : ℝ) : Real.exp (-(l / u.length) * (u.length * q.z + u.length * s.location.z)) = Real.exp (-l * (q.z + s.location.z)) := by
    refine congrArg Real.exp ?_
    field_simp
  simp only [LayeredDipole.fieldAt, hloc, hor, hmo, hd, hl]
  simp only [V3.smul_x, V3.smul_y, V3.smul_z, smul_eq_mul, hr, hbase, coefficients_scale hL, LayeredDipole.rTE_units, hexp, hm]
  have ht (f : Tap → ℝ) (g : Tap → ℂ) : transform filter (fun t => (((u.length ^ 2)⁻¹ * f t : ℝ) : ℂ) * g t) =
      (((u.length ^ 2)⁻¹ : ℝ) : ℂ) * transform filter (fun t => (f t : ℂ) * g t) := by
    simp only [transform]
    rw [← List.sum_map_mul_left]
    refine congrArg List.sum (List.map_congr_left fun t _ => ?_)
    push_cast
    ring
  have hA (f : Tap → ℝ) (g h : Tap → ℂ) : transform filter (fun t => (((u.length ^ 2)⁻¹ * f t : ℝ) : ℂ) * g t * h t) =
      (((u.length ^ 2)⁻¹ : ℝ) : ℂ) * transform filter (fun t => (f t : ℂ) * g t * h t) := by
    simp only [mul_assoc, ht]
  simp only [hA]
  by_cases hf : field = "total"
  · simp only [hf, if_true]
    ext <;> simp only [V3.map, V3.smul_x, V3.smul_y, V3.smul_z, V3.add_x, V3.add_y, V3.add_z, Complex.real_smul, smul_eq_mul]
    all_goals
      generalize transform _ _ = A
      generalize transform _ _ = B
      push_cast
      field_simp
  · simp only [hf, if_false]
    ext <;> simp only [V3.smul_x, V3.smul_y, V3.smul_z, Complex.real_smul, smul_eq_mul]
    all_goals
      generalize transform _ _ = A
      generalize transform _ _ = B
      push_cast
      field_simp

/-- **C111.** The array of fields over layers, with the same points rejected. -/
theorem LayeredDipole.units (filter : List Tap) (mu0 : ℝ) (u : Units) (s : LayeredDipole) (qs : List (V3 ℝ)) (field : String) :
    (s.inUnits u).magneticField filter (u.permeability * mu0) (qs.map (u.length • ·)) field =
      (s.magneticField filter mu0 qs field).map (List.map (u.magneticField • ·)) := by
  have hL := u.length_pos
  have hi : (∃ p ∈ qs.map (u.length • ·), p.z < 0) ↔ ∃ p ∈ qs, p.z < 0 := by
    have hn : ∀ z : ℝ, u.length * z < 0 ↔ z < 0 := fun z => ⟨fun h => by by_contra h'; nlinarith [not_lt.1 h'], fun h => mul_neg_of_pos_of_neg hL h⟩
    simp only [List.mem_map, exists_exists_and_eq_and, V3.smul_z, smul_eq_mul, hn]
  by_cases h : ∃ p ∈ qs, p.z < 0
  · rw [LayeredDipole.magneticField, LayeredDipole.magneticField, if_pos h, if_pos (hi.2 h)]
    rfl
  · rw [LayeredDipole.magneticField, LayeredDipole.magneticField, if_neg h, if_neg (fun e => h (hi.1 e))]
    simp only [Except.map, List.map_map]
    refine congrArg Except.ok (List.map_congr_left fun p _ => ?_)
    exact LayeredDipole.units_at filter mu0 u s p field

end Fdem

end Verif
