import Verif.Lemmas.FdemHalfspace
import Verif.Props.Wavenumber
import Mathlib.MeasureTheory.Integral.IntervalIntegral.FundThmCalculus

/-! # Magnetic dipole on a homogeneous halfspace (C53, C75, C77) -/

namespace Verif.Fdem

open Complex (I)
open Spatial Filter
open scoped Topology

variable (iv kv : ℕ → ℂ → ℂ)

/-- The point of the earth's surface below or above `p`. -/
def surface (p : V3 ℝ) : V3 ℝ := ⟨p.x, p.y, 0⟩

/-- Turn a vector about the vertical. -/
noncomputable def turn (a : ℝ) (v : V3 ℝ) : V3 ℝ :=
  ⟨Real.cos a * v.x - Real.sin a * v.y, Real.sin a * v.x + Real.cos a * v.y, v.z⟩

/-- Turn a complex vector about the vertical. -/
noncomputable def turnC (a : ℝ) (v : V3 ℂ) : V3 ℂ :=
  ⟨Real.cos a * v.x - Real.sin a * v.y, Real.sin a * v.x + Real.cos a * v.y, v.z⟩

/-- The complex vector with the given real components. -/
def ofReal (v : V3 ℝ) : V3 ℂ := v.map (fun c : ℝ => (c : ℂ))

/-- **C53.** The total field is the secondary field plus the static field which the same dipole has in free space. -/
theorem half_total_secondary (mu0 : ℝ) (s : HalfDipole) (p : V3 ℝ) (mu : ℝ) (hmu : mu ≠ 0)
    (hr : p.x ≠ s.location.x ∨ p.y ≠ s.location.y) :
    s.magneticField iv kv mu0 p "total" = s.magneticField iv kv mu0 p "secondary" +
      ofReal ((⟨mu, s.moment, surface s.location, s.orientation⟩ : Static.MagDipole).magneticField (surface p)) := by
  have hne : p.x - s.location.x ≠ 0 ∨ p.y - s.location.y ≠ 0 := by simpa [sub_ne_zero] using hr
  have hlen : (surface p - surface s.location).len = Real.sqrt ((p.x - s.location.x) ^ 2 + (p.y - s.location.y) ^ 2) := by
    simp [V3.len, surface]
  have hrp : 0 < Real.sqrt ((p.x - s.location.x) ^ 2 + (p.y - s.location.y) ^ 2) :=
    Real.sqrt_pos.2 (by rcases hne with h | h <;> positivity)
  simp only [HalfDipole.magneticField, halfEm_secondary]
  generalize halfEm iv kv (s.k mu0) s.orientation (p.x - s.location.x) (p.y - s.location.y) "total" = e
  have key : ofReal ((⟨mu, s.moment, surface s.location, s.orientation⟩ : Static.MagDipole).magneticField (surface p)) =
      ((s.moment / (4 * Real.pi) : ℝ) : ℂ) •
      (let x := p.x - s.location.x
       let y := p.y - s.location.y
       let r : ℂ := (Real.sqrt (x ^ 2 + y ^ 2) : ℝ)
       (⟨3 * x * (s.orientation.x * x + s.orientation.y * y) / r ^ 5 - s.orientation.x / r ^ 3,
         3 * y * (s.orientation.x * x + s.orientation.y * y) / r ^ 5 - s.orientation.y / r ^ 3, -s.orientation.z / r ^ 3⟩ : V3 ℂ)) := by
    simp only [Static.MagDipole.magneticField, Static.MagDipole.magneticFluxDensity, hlen, ofReal]
    generalize Real.sqrt ((p.x - s.location.x) ^ 2 + (p.y - s.location.y) ^ 2) = r at *
    have hr0 : (r : ℂ) ≠ 0 := by exact_mod_cast hrp.ne'
    have hm0 : (mu : ℂ) ≠ 0 := by exact_mod_cast hmu
    have hpi : (Real.pi : ℂ) ≠ 0 := by exact_mod_cast Real.pi_ne_zero
    ext <;> simp [surface, V3.dot, V3.map] <;> field_simp
  rw [key, smul_sub, sub_add_cancel]

/-- **C53.** Any word other than `"secondary"` gives the total field. -/
theorem half_other_word (mu0 : ℝ) (s : HalfDipole) (p : V3 ℝ) {field : String} (hf : field ≠ "secondary") :
    s.magneticField iv kv mu0 p field = s.magneticField iv kv mu0 p "total" := by
  simp only [HalfDipole.magneticField, halfEm, if_neg hf, if_neg (show ¬ ("total" = "secondary") by decide)]

/-- **C53.** The field is linear in moment and orientation. -/
theorem half_linear (mu0 : ℝ) (s : HalfDipole) (p : V3 ℝ) (hr : p.x ≠ s.location.x ∨ p.y ≠ s.location.y)
    (m1 m2 : ℝ) (o1 o2 : V3 ℝ) (field : String) :
    ({ s with moment := 1, orientation := m1 • o1 + m2 • o2 } : HalfDipole).magneticField iv kv mu0 p field =
      ({ s with moment := m1, orientation := o1 } : HalfDipole).magneticField iv kv mu0 p field +
      ({ s with moment := m2, orientation := o2 } : HalfDipole).magneticField iv kv mu0 p field := by
  obtain ⟨A, B, C, D, h⟩ := halfEm_form iv kv (s.k mu0) _ (offset_pos hr) field
  simp only [HalfDipole.k] at h
  simp only [HalfDipole.magneticField, HalfDipole.k, h _ _ _ rfl]
  ext <;> simp <;> ring

/-- **C53.** Turning the source, its orientation and the point about the vertical axis turns the field. -/
theorem half_turns (mu0 : ℝ) (s : HalfDipole) (p : V3 ℝ) (hr : p.x ≠ s.location.x ∨ p.y ≠ s.location.y) (a : ℝ) (field : String) :
    ({ s with location := turn a s.location, orientation := turn a s.orientation } : HalfDipole).magneticField iv kv mu0 (turn a p) field =
      turnC a (s.magneticField iv kv mu0 p field) := by
  obtain ⟨A, B, C, D, h⟩ := halfEm_form iv kv (s.k mu0) _ (offset_pos hr) field
  have h1 := h s.orientation _ _ rfl
  have h2 := h (turn a s.orientation) (Real.cos a * (p.x - s.location.x) - Real.sin a * (p.y - s.location.y))
    (Real.sin a * (p.x - s.location.x) + Real.cos a * (p.y - s.location.y)) (sqrt_turn a _ _)
  simp only [HalfDipole.k] at h1 h2
  simp only [HalfDipole.magneticField, HalfDipole.k]
  rw [h1, show (turn a p).x - (turn a s.location).x = Real.cos a * (p.x - s.location.x) - Real.sin a * (p.y - s.location.y) by
      simp only [turn]; ring,
    show (turn a p).y - (turn a s.location).y = Real.sin a * (p.x - s.location.x) + Real.cos a * (p.y - s.location.y) by
      simp only [turn]; ring, h2]
  have hcs : (Real.cos a : ℂ) ^ 2 + (Real.sin a : ℂ) ^ 2 = 1 := by exact_mod_cast Real.cos_sq_add_sin_sq a
  have hdot : ((turn a s.orientation).x : ℂ) * ((Real.cos a * (p.x - s.location.x) - Real.sin a * (p.y - s.location.y) : ℝ) : ℂ) +
      ((turn a s.orientation).y : ℂ) * ((Real.sin a * (p.x - s.location.x) + Real.cos a * (p.y - s.location.y) : ℝ) : ℂ) =
      s.orientation.x * ((p.x - s.location.x : ℝ) : ℂ) + s.orientation.y * ((p.y - s.location.y : ℝ) : ℂ) := by
    simp only [turn]
    push_cast
    push_cast at hcs
    linear_combination (s.orientation.x * (p.x - s.location.x : ℂ) + s.orientation.y * (p.y - s.location.y)) * hcs
  rw [hdot]
  ext <;> simp only [turn, turnC, V3.smul_x, V3.smul_y, V3.smul_z, smul_eq_mul] <;> push_cast <;> ring

/-- **C53.** Moving source and point together horizontally, or either of them vertically, does not change the field. -/
theorem half_moves (mu0 : ℝ) (s : HalfDipole) (p : V3 ℝ) (d : V3 ℝ) (h : ℝ) (field : String) :
    ({ s with location := s.location + d } : HalfDipole).magneticField iv kv mu0 (p + ⟨d.x, d.y, h⟩) field =
      s.magneticField iv kv mu0 p field := by
  simp only [HalfDipole.magneticField, HalfDipole.k, V3.add_x, V3.add_y, add_sub_add_right_eq_sub]

/-- **C53.** Reciprocity: component `b` of the field of a source along `a` is component `a` of the field of a source along `b` with
source and receiver exchanged. -/
theorem half_reciprocal (mu0 : ℝ) (s : HalfDipole) (p : V3 ℝ) (hr : p.x ≠ s.location.x ∨ p.y ≠ s.location.y) (a b : V3 ℝ)
    (field : String) :
    (ofReal b).dot (({ s with orientation := a } : HalfDipole).magneticField iv kv mu0 p field) =
      (ofReal a).dot (({ s with orientation := b, location := p } : HalfDipole).magneticField iv kv mu0 s.location field) := by
  obtain ⟨A, B, C, D, h⟩ := halfEm_form iv kv (s.k mu0) _ (offset_pos hr) field
  have h1 := h a _ _ rfl
  have h2 := h b (s.location.x - p.x) (s.location.y - p.y) (by congr 1; ring)
  simp only [HalfDipole.k] at h1 h2
  simp only [HalfDipole.magneticField, HalfDipole.k, h1, h2, V3.dot, ofReal, V3.map_x, V3.map_y, V3.map_z, V3.smul_x, V3.smul_y,
    V3.smul_z, smul_eq_mul]
  push_cast
  ring

/-- **C75.** Growing the loop adds a ring of vertical dipoles: the derivative of the field at the centre of the loop with respect to
the radius is the circumference times the vertical field which a unit vertical dipole on the ring has at the centre, times the current
and turns; for the total and for the secondary field. -/
theorem loop_is_dipoles {f : ℝ} {sigma : ℂ} {mu0 radius : ℝ} (hk : f ≠ 0 ∧ mu0 ≠ 0 ∧ sigma ≠ 0) (ha : 0 < radius)
    (current turns : ℝ) (s : HalfDipole) (hf : s.frequency = f) (hs : s.sigmaHat = sigma) (hm : s.moment = 1)
    (ho : s.orientation = ⟨0, 0, 1⟩) (centre : V3 ℝ)
    (hd : (centre.x - s.location.x) ^ 2 + (centre.y - s.location.y) ^ 2 = radius ^ 2) :
    HasDerivAt (fun a : ℝ => loopField f sigma mu0 a current turns false)
      (2 * Real.pi * radius * (turns * current) * (s.magneticField iv kv mu0 centre "total").z) radius ∧
    HasDerivAt (fun a : ℝ => loopField f sigma mu0 a current turns true)
      (2 * Real.pi * radius * (turns * current) * (s.magneticField iv kv mu0 centre "secondary").z) radius := by
  have hr0 : (radius : ℂ) ≠ 0 := by exact_mod_cast ha.ne'
  have hpi : (Real.pi : ℂ) ≠ 0 := by exact_mod_cast Real.pi_ne_zero
  have hsq : Real.sqrt ((centre.x - s.location.x) ^ 2 + (centre.y - s.location.y) ^ 2) = radius := by rw [hd, Real.sqrt_sq ha.le]
  have hne : centre.x - s.location.x ≠ 0 ∨ centre.y - s.location.y ≠ 0 := by
    by_contra hc
    push Not at hc
    rw [hc.1, hc.2] at hd
    have : 0 < radius ^ 2 := by positivity
    linarith
  set k : ℂ := Complex.sqrt (-I * ((2 * Real.pi * f : ℝ) : ℂ) * mu0 * sigma) with hkdef
  have hksq : k ^ 2 = -I * ((2 * Real.pi * f : ℝ) : ℂ) * mu0 * sigma := csqrt_sq _
  have hk0 : k ≠ 0 := by
    intro h0
    rw [h0] at hksq
    have : -I * ((2 * Real.pi * f : ℝ) : ℂ) * mu0 * sigma ≠ 0 := by
      refine mul_ne_zero (mul_ne_zero (mul_ne_zero (neg_ne_zero.2 Complex.I_ne_zero) ?_) (by exact_mod_cast hk.2.1)) hk.2.2
      exact_mod_cast mul_ne_zero (mul_ne_zero two_ne_zero Real.pi_ne_zero) hk.1
    simp at hksq this
    tauto
  have hsk : s.k mu0 = k := by rw [HalfDipole.k, hf, hs]
  have ztot : (s.magneticField iv kv mu0 centre "total").z = 1 / (4 * Real.pi) * halfZZ k radius := by
    simp only [HalfDipole.magneticField, hsk, halfEm_total iv kv _ _ _ _ hne (show "total" ≠ "secondary" by decide), hm, ho, hsq]
    simp
  have zsec : (s.magneticField iv kv mu0 centre "secondary").z = 1 / (4 * Real.pi) * (halfZZ k radius + 1 / radius ^ 3) := by
    simp only [HalfDipole.magneticField, halfEm_secondary] at ztot ⊢
    simp only [V3.smul_z, V3.sub_z, smul_eq_mul, mul_sub] at ztot ⊢
    rw [ztot, ho, hm, hsq]
    push_cast
    ring
  have tot : HasDerivAt (fun a : ℝ => loopField f sigma mu0 a current turns false)
      (2 * Real.pi * radius * (turns * current) * (s.magneticField iv kv mu0 centre "total").z) radius := by
    have h1 := hasDerivAt_rpow 1 radius
    have h2 := hasDerivAt_rpow 2 radius
    have h3 := hasDerivAt_rpow 3 radius
    simp only [pow_one] at h1
    have hff := (hasDerivAt_const radius (-(current : ℂ))).fun_div (h3.const_mul (k ^ 2)) (by positivity)
    have hp := ((h1.const_mul (3 * I * k)).const_add 3).fun_sub (h2.const_mul (k ^ 2))
    have hq := (hp.fun_mul (hasDerivAt_expk k radius)).const_sub 3
    refine ((hff.fun_mul hq).const_mul (turns : ℂ)).congr_deriv ?_
    rw [ztot, halfZZ]
    generalize Complex.exp (-I * k * radius) = E
    norm_num
    field_simp
    have hI : I ^ 2 = -1 := Complex.I_sq
    ring_nf
    simp only [hI]
    ring
  refine ⟨tot, ?_⟩
  have h1 := hasDerivAt_rpow 1 radius
  simp only [pow_one] at h1
  have hpr := ((hasDerivAt_const radius ((current : ℂ) / 2)).fun_div h1 hr0).const_mul (turns : ℂ)
  have hfin := tot.fun_sub hpr
  refine (hfin.congr_deriv ?_).congr_of_eventuallyEq (Eventually.of_forall fun a => ?_)
  · rw [ztot, zsec]
    norm_num
    field_simp
    ring
  · simp only [loopField, if_true, Bool.false_eq_true, if_false]
    ring

/-- **C77.** No current crosses the surface: the horizontal part of the field there has a potential.  Of the products of Bessel
functions only continuity along rays into the right half plane is used. -/
theorem half_conservative {mu0 : ℝ} (hmu : 0 < mu0) (s : HalfDipole) (hf : 0 < s.frequency) (hs : 0 < s.sigmaHat.re)
    (hc : ∀ c : ℂ, 0 < c.re → ∀ n, (n = 1 ∨ n = 2) → ContinuousOn (fun r : ℝ => iv n (c * r) * kv n (c * r)) (Set.Ioi 0)) :
    ∃ U : V3 ℝ → ℂ, ∀ p : V3 ℝ, (p.x ≠ s.location.x ∨ p.y ≠ s.location.y) → ∀ v : V3 ℝ, v.z = 0 →
      HasDerivAt (fun t : ℝ => U (p + t • v)) (-(ofReal v).dot (s.magneticField iv kv mu0 p "total")) 0 := by
  obtain ⟨kap, hkap, hray⟩ := half_k_ray hmu s hs
  have hk : s.k mu0 = (Real.sqrt s.frequency : ℂ) * kap := hray s.frequency hf
  have hkim : (s.k mu0).im < 0 := by
    rw [hk, Complex.im_ofReal_mul]
    have := Real.sqrt_pos.2 hf
    nlinarith
  have hk0 : s.k mu0 ≠ 0 := fun h => by rw [h] at hkim; simp at hkim
  generalize hkk : s.k mu0 = k at *
  have hcre : 0 < (I * k / 2).re := by
    simp
    linarith
  obtain ⟨F, hF⟩ : ∃ F : ℝ → ℂ, ∀ r : ℝ, 0 < r → HasDerivAt F (k ^ 2 / r * halfIK iv kv k r) r := by
    have hcont : ContinuousOn (fun r : ℝ => k ^ 2 / (r : ℂ) * halfIK iv kv k r) (Set.Ioi 0) := by
      have h1 := hc _ hcre 1 (.inl rfl)
      have h2 := hc _ hcre 2 (.inr rfl)
      refine ContinuousOn.mul (ContinuousOn.div continuousOn_const Complex.continuous_ofReal.continuousOn fun r hr => ?_) ?_
      · exact_mod_cast (ne_of_gt hr : (r : ℝ) ≠ 0)
      · refine (h1.sub h2).congr fun r _ => ?_
        simp only [halfIK, show I * k * (r : ℂ) / 2 = I * k / 2 * r by ring, Pi.sub_apply]
    refine ⟨fun r => ∫ x in (1 : ℝ)..r, k ^ 2 / (x : ℂ) * halfIK iv kv k x, fun r hr => ?_⟩
    refine intervalIntegral.integral_hasDerivAt_right (ContinuousOn.intervalIntegrable (hcont.mono fun x hx => ?_))
      (hcont.stronglyMeasurableAtFilter isOpen_Ioi r hr) (hcont.continuousAt (Ioi_mem_nhds hr))
    exact lt_of_lt_of_le (lt_min one_pos hr) hx.1
  refine ⟨fun q =>
    let x := q.x - s.location.x
    let y := q.y - s.location.y
    ((s.moment / (4 * Real.pi) : ℝ) : ℂ) * (((s.orientation.x * x + s.orientation.y * y : ℝ) : ℂ) *
      halfPhi k (Real.sqrt (x ^ 2 + y ^ 2) : ℝ) / (Real.sqrt (x ^ 2 + y ^ 2) : ℝ) -
      s.orientation.z * F (Real.sqrt (x ^ 2 + y ^ 2))), fun p hp v hv => ?_⟩
  have hne : p.x - s.location.x ≠ 0 ∨ p.y - s.location.y ≠ 0 := by simpa [sub_ne_zero] using hp
  have hrp := offset_pos hp
  have hpot := half_horizontal_potential iv kv hk0 ⟨s.orientation.x, s.orientation.y, 0⟩ rfl (p.x - s.location.x) (p.y - s.location.y)
    v.x v.y hne
  simp only at hpot
  have hrr := hasDerivAt_offset (p.x - s.location.x) (p.y - s.location.y) v.x v.y hne
  have hFd := (hF _ hrp).scomp_of_eq (0 : ℝ) hrr (by simp)
  have hfin := ((hpot.fun_neg.fun_sub (hFd.const_mul (s.orientation.z : ℂ))).const_mul ((s.moment / (4 * Real.pi) : ℝ) : ℂ))
  refine (hfin.congr_deriv ?_).congr_of_eventuallyEq (Eventually.of_forall fun t => ?_)
  · have hr0 : ((Real.sqrt ((p.x - s.location.x) ^ 2 + (p.y - s.location.y) ^ 2) : ℝ) : ℂ) ≠ 0 := by exact_mod_cast hrp.ne'
    simp only [HalfDipole.magneticField, hkk, halfEm_total iv kv k _ _ _ hne (show "total" ≠ "secondary" by decide), V3.dot, ofReal,
      V3.map_x, V3.map_y, V3.map_z, V3.smul_x, V3.smul_y, V3.smul_z, smul_eq_mul, hv, Complex.real_smul]
    push_cast
    ring
  · simp only [V3.add_x, V3.add_y, V3.smul_x, V3.smul_y, smul_eq_mul, Function.comp,
      show p.x + t * v.x - s.location.x = p.x - s.location.x + t * v.x by ring,
      show p.y + t * v.y - s.location.y = p.y - s.location.y + t * v.y by ring]
    ring

/-- **C77.** As the frequency tends to zero (with the conductivity fixed) the secondary field vanishes, so the total field tends to
the free-space static field.  Of the products of Bessel functions only boundedness near the origin is used. -/
theorem half_static_limit {mu0 : ℝ} (hmu : 0 < mu0) (s : HalfDipole) (hs : 0 < s.sigmaHat.re) (p : V3 ℝ)
    (hr : p.x ≠ s.location.x ∨ p.y ≠ s.location.y)
    (hb : ∀ n, (n = 1 ∨ n = 2) → ∃ b, ∀ᶠ z in 𝓝[{z : ℂ | 0 < z.re}] 0, ‖iv n z * kv n z‖ ≤ b) :
    let H := fun f : ℝ => ({ s with frequency := f } : HalfDipole).magneticField iv kv mu0 p "secondary"
    Tendsto (fun f => (H f).x) (𝓝[>] 0) (𝓝 0) ∧ Tendsto (fun f => (H f).y) (𝓝[>] 0) (𝓝 0) ∧
      Tendsto (fun f => (H f).z) (𝓝[>] 0) (𝓝 0) := by
  intro H
  obtain ⟨kap, hkap, hray⟩ := half_k_ray hmu s hs
  have hne : p.x - s.location.x ≠ 0 ∨ p.y - s.location.y ≠ 0 := by simpa [sub_ne_zero] using hr
  have hrp := offset_pos hr
  have hkap0 : kap ≠ 0 := fun h => by rw [h] at hkap; simp at hkap
  set x := p.x - s.location.x with hx
  set y := p.y - s.location.y with hy
  set r := Real.sqrt (x ^ 2 + y ^ 2) with hrdef
  have hr0 : (r : ℂ) ≠ 0 := by exact_mod_cast hrp.ne'
  have hsq : (x : ℂ) ^ 2 + (y : ℂ) ^ 2 = (r : ℂ) ^ 2 := by
    rw [hrdef]; norm_cast; rw [Real.sq_sqrt (by positivity)]
  -- the wavenumber
  have hsf : Tendsto (fun f : ℝ => Real.sqrt f) (𝓝[>] 0) (𝓝[>] 0) := by
    refine tendsto_nhdsWithin_iff.2 ⟨?_, ?_⟩
    · have := Real.continuous_sqrt.tendsto 0
      rw [Real.sqrt_zero] at this
      exact this.mono_left nhdsWithin_le_nhds
    · filter_upwards [self_mem_nhdsWithin] with f hf
      exact Real.sqrt_pos.2 hf
  have hk : Tendsto (fun f : ℝ => (Real.sqrt f : ℂ) * kap) (𝓝[>] 0) (𝓝[≠] 0) := by
    refine tendsto_nhdsWithin_iff.2 ⟨?_, ?_⟩
    · have := (Complex.continuous_ofReal.tendsto 0).comp (tendsto_nhdsWithin_iff.1 hsf).1
      simpa using this.mul_const kap
    · filter_upwards [self_mem_nhdsWithin] with f hf
      refine mul_ne_zero ?_ hkap0
      exact_mod_cast (Real.sqrt_pos.2 hf).ne'
  have hk2 := ((tendsto_nhdsWithin_iff.1 hk).1).pow 2
  -- the Bessel part
  have hIK : Tendsto (fun f : ℝ => ((Real.sqrt f : ℂ) * kap) ^ 2 * halfIK iv kv ((Real.sqrt f : ℂ) * kap) r) (𝓝[>] 0) (𝓝 0) := by
    obtain ⟨b1, h1⟩ := hb 1 (.inl rfl)
    obtain ⟨b2, h2⟩ := hb 2 (.inr rfl)
    have harg : Tendsto (fun f : ℝ => I * ((Real.sqrt f : ℂ) * kap) * r / 2) (𝓝[>] 0) (𝓝[{z : ℂ | 0 < z.re}] 0) := by
      refine tendsto_nhdsWithin_iff.2 ⟨?_, ?_⟩
      · have := (((tendsto_nhdsWithin_iff.1 hk).1.const_mul I).mul_const (r : ℂ)).div_const 2
        simpa using this
      · filter_upwards [self_mem_nhdsWithin] with f hf
        have := Real.sqrt_pos.2 hf
        simp only [show I * ((Real.sqrt f : ℂ) * kap) * r / 2 = ((Real.sqrt f * r / 2 : ℝ) : ℂ) * (I * kap) by
          push_cast; ring, Complex.re_ofReal_mul, Complex.I_mul_re]
        exact mul_pos (by positivity) (by linarith)
    have e1 := harg.eventually h1
    have e2 := harg.eventually h2
    rw [tendsto_zero_iff_norm_tendsto_zero]
    have hz : Tendsto (fun f : ℝ => ‖((Real.sqrt f : ℂ) * kap) ^ 2‖ * (b1 + b2)) (𝓝[>] 0) (𝓝 0) := by
      have := hk2.norm.mul_const (b1 + b2)
      simpa using this
    refine squeeze_zero' (Eventually.of_forall fun f => norm_nonneg _) ?_ hz
    filter_upwards [e1, e2] with f g1 g2
    rw [norm_mul, halfIK]
    gcongr
    exact (norm_sub_le _ _).trans (add_le_add g1 g2)
  have hlim := tendsto_halfEm iv kv s.orientation x y hne hrdef.symm ((tendsto_halfPhi_zero hr0).comp hk)
    ((tendsto_halfDphi_zero hr0).comp hk) ((tendsto_halfZZ_zero hr0).comp hk) hIK
  have hfe : ∀ᶠ f : ℝ in 𝓝[>] 0, ((s.moment / (4 * Real.pi) : ℝ) : ℂ) •
      halfEm iv kv ((Real.sqrt f : ℂ) * kap) s.orientation x y "secondary" = H f := by
    filter_upwards [self_mem_nhdsWithin] with f hf
    simp only [H, HalfDipole.magneticField, hray f hf, x, y]
  simp only [halfEm_secondary, ← hrdef] at hfe
  refine ⟨?_, ?_, ?_⟩
  · have h := (hlim.1.sub_const (3 * x * (s.orientation.x * x + s.orientation.y * y) / (r : ℂ) ^ 5 - s.orientation.x / (r : ℂ) ^ 3)).const_mul
      ((s.moment / (4 * Real.pi) : ℝ) : ℂ)
    refine (h.congr' (by filter_upwards [hfe] with f hf; rw [← hf]; rfl)).trans_eq ?_
    congr 1
    field_simp
    linear_combination (-((s.moment / (4 * Real.pi) : ℝ) : ℂ) * (s.orientation.x : ℂ)) * hsq
  · have h := (hlim.2.1.sub_const (3 * y * (s.orientation.x * x + s.orientation.y * y) / (r : ℂ) ^ 5 - s.orientation.y / (r : ℂ) ^ 3)).const_mul
      ((s.moment / (4 * Real.pi) : ℝ) : ℂ)
    refine (h.congr' (by filter_upwards [hfe] with f hf; rw [← hf]; rfl)).trans_eq ?_
    congr 1
    field_simp
    linear_combination (-((s.moment / (4 * Real.pi) : ℝ) : ℂ) * (s.orientation.y : ℂ)) * hsq
  · have h := (hlim.2.2.sub_const (-s.orientation.z / (r : ℂ) ^ 3)).const_mul ((s.moment / (4 * Real.pi) : ℝ) : ℂ)
    refine (h.congr' (by filter_upwards [hfe] with f hf; rw [← hf]; rfl)).trans_eq ?_
    congr 1
    ring

/-- **C77.** As the frequency tends to infinity the earth becomes a perfect mirror: the total field tends to twice the horizontal part
of the free-space static field, and its vertical component vanishes.  Of the products of Bessel functions only
`z² (I₁K₁ - I₂K₂) → 0` along rays into the right half plane is used. -/
theorem half_mirror_limit {mu0 : ℝ} (hmu : 0 < mu0) (s : HalfDipole) (hs : 0 < s.sigmaHat.re) (p : V3 ℝ)
    (hr : p.x ≠ s.location.x ∨ p.y ≠ s.location.y) (mu : ℝ) (hmu' : mu ≠ 0)
    (hb : ∀ c : ℂ, 0 < c.re → Tendsto (fun t : ℝ => (t * c) ^ 2 * (iv 1 (t * c) * kv 1 (t * c) - iv 2 (t * c) * kv 2 (t * c)))
      atTop (𝓝 0)) :
    let H := fun f : ℝ => ({ s with frequency := f } : HalfDipole).magneticField iv kv mu0 p "total"
    let S := ofReal ((⟨mu, s.moment, surface s.location, s.orientation⟩ : Static.MagDipole).magneticField (surface p))
    Tendsto (fun f => (H f).x) atTop (𝓝 (2 * S.x)) ∧ Tendsto (fun f => (H f).y) atTop (𝓝 (2 * S.y)) ∧
      Tendsto (fun f => (H f).z) atTop (𝓝 0) := by
  intro H S
  obtain ⟨kap, hkap, hray⟩ := half_k_ray hmu s hs
  have hne : p.x - s.location.x ≠ 0 ∨ p.y - s.location.y ≠ 0 := by simpa [sub_ne_zero] using hr
  have hrp := offset_pos hr
  have hst := static_surface mu hmu' s.moment s.orientation s.location p hr
  simp only at hst
  have hS : S = ofReal ((s.moment / (4 * Real.pi)) • _) := congrArg ofReal hst
  set x := p.x - s.location.x with hx
  set y := p.y - s.location.y with hy
  set r := Real.sqrt (x ^ 2 + y ^ 2) with hrdef
  have hr0 : (r : ℂ) ≠ 0 := by exact_mod_cast hrp.ne'
  have hsq : (x : ℂ) ^ 2 + (y : ℂ) ^ 2 = (r : ℂ) ^ 2 := by
    rw [hrdef]; norm_cast; rw [Real.sq_sqrt (by positivity)]
  have hc : 0 < (I * kap * r).re := by
    rw [mul_comm, Complex.re_ofReal_mul, Complex.I_mul_re]
    exact mul_pos hrp (by linarith)
  have hsf : Tendsto (fun f : ℝ => Real.sqrt f) atTop atTop := Real.tendsto_sqrt_atTop
  have hIK : Tendsto (fun f : ℝ => ((Real.sqrt f : ℂ) * kap) ^ 2 * halfIK iv kv ((Real.sqrt f : ℂ) * kap) r) atTop (𝓝 0) := by
    have h := ((hb (I * kap * r / 2) (by simpa using hc)).comp hsf).const_mul (-4 / (r : ℂ) ^ 2)
    rw [mul_zero] at h
    refine h.congr fun f => ?_
    simp only [Function.comp, halfIK, show (Real.sqrt f : ℂ) * (I * kap * r / 2) = I * ((Real.sqrt f : ℂ) * kap) * r / 2 by ring]
    rw [div_pow, s_sq]
    field_simp
    ring
  have hlim := tendsto_halfEm iv kv s.orientation x y hne hrdef.symm ((tendsto_halfPhi_top hc).comp hsf)
    ((tendsto_halfDphi_top hc).comp hsf) ((tendsto_halfZZ_top hc).comp hsf) hIK
  have hfe : ∀ᶠ f : ℝ in atTop, ((s.moment / (4 * Real.pi) : ℝ) : ℂ) •
      halfEm iv kv ((Real.sqrt f : ℂ) * kap) s.orientation x y "total" = H f := by
    filter_upwards [eventually_gt_atTop 0] with f hf
    simp only [H, HalfDipole.magneticField, hray f hf, x, y]
  rw [hS]
  refine ⟨?_, ?_, ?_⟩
  · refine ((hlim.1.const_mul ((s.moment / (4 * Real.pi) : ℝ) : ℂ)).congr' (by filter_upwards [hfe] with f hf; rw [← hf]; rfl)).trans_eq ?_
    congr 1
    simp only [ofReal, V3.map_x, V3.smul_x, smul_eq_mul]
    push_cast
    field_simp
    linear_combination (-2 * (s.moment : ℂ) * (s.orientation.x : ℂ)) * hsq
  · refine ((hlim.2.1.const_mul ((s.moment / (4 * Real.pi) : ℝ) : ℂ)).congr' (by filter_upwards [hfe] with f hf; rw [← hf]; rfl)).trans_eq ?_
    congr 1
    simp only [ofReal, V3.map_y, V3.smul_y, smul_eq_mul]
    push_cast
    field_simp
    linear_combination (-2 * (s.moment : ℂ) * (s.orientation.y : ℂ)) * hsq
  · refine ((hlim.2.2.const_mul ((s.moment / (4 * Real.pi) : ℝ) : ℂ)).congr' (by filter_upwards [hfe] with f hf; rw [← hf]; rfl)).trans_eq ?_
    congr 1
    ring

/-! ## The loop -/

/-- **C77.** The loop's field is linear in current and turns, the flux is `mu` times the field, and the secondary field is the total
field minus the static field at the centre of the loop. -/
theorem loop_linear (f : ℝ) (sigma mu : ℂ) (a current turns : ℝ) (secondary : Bool) :
    loopField f sigma mu a current turns secondary = turns * current * loopField f sigma mu a 1 1 secondary ∧
    loopFlux f sigma mu a current turns secondary = mu * loopField f sigma mu a current turns secondary ∧
    loopField f sigma mu a current turns false =
      loopField f sigma mu a current turns true + ((turns * current / (2 * a) : ℝ) : ℂ) := by
  refine ⟨?_, rfl, ?_⟩
  · cases secondary <;> simp only [loopField, if_true, Bool.false_eq_true, if_false] <;> push_cast <;> ring
  · simp only [loopField, if_true, Bool.false_eq_true, if_false]
    push_cast
    ring

theorem loopField_eq {f : ℝ} {sigma mu : ℂ} {a : ℝ} (ha : 0 < a) (current turns : ℝ) {k : ℂ} (hk0 : k ≠ 0)
    (hk : Complex.sqrt (-I * ((2 * Real.pi * f : ℝ) : ℂ) * mu * sigma) = k) :
    let s := I * k * a
    loopField f sigma mu a current turns false =
      turns * current / a * ((3 + 0 * s ^ 2 + (-3 + -3 * s + -1 * s ^ 2) * Complex.exp (-s)) / s ^ 2) := by
  have ha0 : (a : ℂ) ≠ 0 := by exact_mod_cast ha.ne'
  simp only [loopField, hk, s_sq, Bool.false_eq_true, if_false]
  simp only [neg_mul]
  field_simp
  ring

/-- **C77.** At low frequency the secondary field of the loop vanishes; at high frequency the total field vanishes. -/
theorem loop_limits {mu a : ℝ} {sigma : ℂ} (hmu : 0 < mu) (hs : 0 < sigma.re) (ha : 0 < a) (current turns : ℝ) :
    Tendsto (fun f => loopField f sigma mu a current turns true) (𝓝[>] 0) (𝓝 0) ∧
    Tendsto (fun f => loopField f sigma mu a current turns false) atTop (𝓝 0) := by
  have ha0 : (a : ℂ) ≠ 0 := by exact_mod_cast ha.ne'
  obtain ⟨kap, hkap, hray⟩ := half_k_ray hmu (⟨0, sigma, 0, 0, 0⟩ : HalfDipole) hs
  simp only [HalfDipole.k] at hray
  have hkap0 : kap ≠ 0 := fun h => by rw [h] at hkap; simp at hkap
  have hkne : ∀ f : ℝ, 0 < f → (Real.sqrt f : ℂ) * kap ≠ 0 := fun f hf =>
    mul_ne_zero (by exact_mod_cast (Real.sqrt_pos.2 hf).ne') hkap0
  constructor
  · have hsv : Tendsto (fun f : ℝ => I * ((Real.sqrt f : ℂ) * kap) * a) (𝓝[>] 0) (𝓝[≠] 0) := by
      refine tendsto_nhdsWithin_iff.2 ⟨?_, ?_⟩
      · have hc : Continuous fun f : ℝ => I * ((Real.sqrt f : ℂ) * kap) * a := by fun_prop
        have := hc.tendsto 0
        simp only [Real.sqrt_zero, Complex.ofReal_zero, zero_mul, mul_zero] at this
        exact this.mono_left nhdsWithin_le_nhds
      · filter_upwards [self_mem_nhdsWithin] with f hf
        exact mul_ne_zero (mul_ne_zero Complex.I_ne_zero (hkne f hf)) ha0
    have h := ((tendsto_small 3 (-3) (-3) (-1) 0 (by norm_num) rfl rfl).comp hsv).const_mul ((turns * current / a : ℂ))
    have h2 := h.sub_const ((turns * current / (2 * a) : ℝ) : ℂ)
    rw [show (turns * current / a : ℂ) * (0 + (-1 - -3 + -3 / 2)) - ((turns * current / (2 * a) : ℝ) : ℂ) = 0 by
      push_cast; field_simp; ring] at h2
    refine h2.congr' ?_
    filter_upwards [self_mem_nhdsWithin] with f hf
    have e := (loop_linear f sigma mu a current turns true).2.2
    rw [loopField_eq ha current turns (hkne f hf) (hray f hf)] at e
    simp only [Function.comp]
    rw [e, add_sub_cancel_right]
  · have hc : 0 < (I * kap * a).re := by
      rw [mul_comm, Complex.re_ofReal_mul, Complex.I_mul_re]
      exact mul_pos ha (by linarith)
    have h := ((tendsto_ray_quadratic hc 3 (-3) (-3) 0 (-1)).comp Real.tendsto_sqrt_atTop).const_mul ((turns * current / a : ℂ))
    rw [mul_zero] at h
    refine h.congr' ?_
    filter_upwards [eventually_gt_atTop 0] with f hf
    rw [loopField_eq ha current turns (hkne f hf) (hray f hf)]
    simp only [Function.comp, show I * ((Real.sqrt f : ℂ) * kap) * a = Real.sqrt f * (I * kap * a) by ring]

/-! ## The permeability of the medium -/

/-- **C78.** The wavenumber in the field is the object's own `wavenumber` when the medium has the permeability of free space ... -/
theorem half_k_partial (m : Medium) (location orientation : V3 ℝ) (moment : ℝ) :
    (⟨m.frequency, m.sigmaHat, location, orientation, moment⟩ : HalfDipole).k m.mu = m.wavenumber := by
  rw [HalfDipole.k, Medium.wavenumber, Medium.sigmaHat, wavenumber, sigmaHat, omega]
  by_cases h : m.quasistatic.isTrue
  · simp only [h, if_true]
  · simp only [h, if_false, Bool.false_eq_true]
    congr 1
    linear_combination (-((2 * Real.pi * m.frequency : ℝ) : ℂ) ^ 2 * m.mu * m.epsilon) * Complex.I_sq

/-- **C78.** ... and never otherwise: `mu` is stored and validated, but the field is the one for `mu_0`. -/
theorem half_k_ignores_mu (mu0 : ℝ) (m : Medium) (hf : 0 < m.frequency) (hs : 0 < m.sigma) (hmu : m.mu ≠ mu0)
    (location orientation : V3 ℝ) (moment : ℝ) :
    (⟨m.frequency, m.sigmaHat, location, orientation, moment⟩ : HalfDipole).k mu0 ≠ m.wavenumber := by
  intro h
  have h1 : (⟨m.frequency, m.sigmaHat, location, orientation, moment⟩ : HalfDipole).k mu0 ^ 2 =
      -I * ((2 * Real.pi * m.frequency : ℝ) : ℂ) * mu0 * m.sigmaHat := csqrt_sq _
  have h2 := wavenumber_sq_sigmaHat m.frequency m.sigma m.mu m.epsilon m.quasistatic
  rw [h] at h1
  rw [Medium.wavenumber] at h1
  rw [h1] at h2
  have hsig : m.sigmaHat ≠ 0 := fun h0 => by
    have : m.sigmaHat.re = m.sigma := by
      rw [Medium.sigmaHat, sigmaHat]
      split <;> simp
    rw [h0, Complex.zero_re] at this
    exact hs.ne this
  have hw : ((2 * Real.pi * m.frequency : ℝ) : ℂ) ≠ 0 := by
    exact_mod_cast (by have := Real.pi_pos; positivity : (2 * Real.pi * m.frequency : ℝ) ≠ 0)
  have e : -I * ((2 * Real.pi * m.frequency : ℝ) : ℂ) * m.sigmaHat * mu0 = -I * ((2 * Real.pi * m.frequency : ℝ) : ℂ) * m.sigmaHat * m.mu := by
    change _ = -I * ((2 * Real.pi * m.frequency : ℝ) : ℂ) * m.mu * m.sigmaHat at h2
    linear_combination h2
  have := mul_left_cancel₀ (mul_ne_zero (mul_ne_zero (neg_ne_zero.2 Complex.I_ne_zero) hw) hsig) e
  exact hmu (by exact_mod_cast this.symm)

end Verif.Fdem
