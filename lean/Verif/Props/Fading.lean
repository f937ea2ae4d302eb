import Verif.Lemmas.Fading
import Verif.Lemmas.Rotation
import Verif.Props.Wavenumber

/-!
# Harmonic fields become weaker with distance, frequency and conductivity

`Energy.sqLen` is the squared size of a complex vector: the square of the largest value of the field vector's components in root-sum-square over a period.
-/

namespace Verif.Fdem

open Complex (I normSq)
open Energy Fading

/-- The direction of a point on a ray. -/
theorem ray_direction (location d : V3 ℝ) (hd : d ≠ 0) {t : ℝ} (ht : 0 < t) :
    (location + t • d - location).len = t * d.len ∧
    (location + t • d - location).map (· / (t * d.len)) = d.map (· / d.len) := by
  have hl := V3.len_pos hd
  have e : location + t • d - location = t • d := by ext <;> simp
  rw [e, V3.len_smul, abs_of_pos ht]
  refine ⟨rfl, ?_⟩
  ext <;> simp <;> field_simp

theorem unit_of (d : V3 ℝ) (hd : d ≠ 0) : (d.map (· / d.len)).x ^ 2 + (d.map (· / d.len)).y ^ 2 + (d.map (· / d.len)).z ^ 2 = 1 := by
  have hl := (V3.len_pos hd).ne'
  have := V3.len_sq d
  simp only [V3.map_x, V3.map_y, V3.map_z]
  field_simp
  exact this.symm

/-- The size of the electric field of an electric dipole. -/
theorem ElectricDipole.sqLen_electricField (s : ElectricDipole) {xyz : V3 ℝ} (h : xyz ≠ s.location) :
    let r := (xyz - s.location).len
    let n := (xyz - s.location).map (· / r)
    sqLen (s.electricField xyz) = (s.current * s.length / (4 * Real.pi * s.sigma)) ^ 2 *
      (4 * n.dot s.orientation ^ 2 * axial s.wavenumber r + (n.cross s.orientation).dot (n.cross s.orientation) * broad s.wavenumber r) := by
  intro r n
  have hr : 0 < r := V3.len_sub_pos h
  have hd : xyz - s.location ≠ 0 := fun e => hr.ne' (by rw [show r = (xyz - s.location).len from rfl, e, V3.len_eq_zero])
  have hn : n.x ^ 2 + n.y ^ 2 + n.z ^ 2 = 1 := unit_of _ hd
  simp only [ElectricDipole.electricField]
  rw [sqLen_dipole _ _ _ n s.orientation hn]
  have e1 : -(s.wavenumber * r) ^ 2 + 3 * (I * (s.wavenumber * r)) + 3 + ((s.wavenumber * r) ^ 2 - I * (s.wavenumber * r) - 1) =
      ((2 : ℝ) : ℂ) * (I * (s.wavenumber * r) + 1) := by push_cast; ring
  have e2 : (s.current * s.length / (4 * Real.pi * s.sigma * (r : ℂ) ^ 3) * Complex.exp (-(I * (s.wavenumber * r))) : ℂ) =
      ((s.current * s.length / (4 * Real.pi * s.sigma * r ^ 3) : ℝ) : ℂ) * Complex.exp (-(I * (s.wavenumber * r))) := by push_cast; ring
  change normSq (s.current * s.length / (4 * Real.pi * s.sigma * (r : ℂ) ^ 3) * Complex.exp (-(I * (s.wavenumber * r)))) * _ = _
  rw [e1, e2, Complex.normSq_mul, Complex.normSq_mul, Complex.normSq_ofReal, Complex.normSq_ofReal, normSq_exp, axial, broad]
  rw [show (xyz - s.location).len = r from rfl, show (2 : ℝ) * 2 = 4 by norm_num]
  field_simp

/-- The size of the magnetic field of an electric dipole. -/
theorem ElectricDipole.sqLen_magneticField (s : ElectricDipole) {xyz : V3 ℝ} (h : xyz ≠ s.location) :
    let r := (xyz - s.location).len
    let n := (xyz - s.location).map (· / r)
    sqLen (s.magneticField xyz) = (s.current * s.length / (4 * Real.pi)) ^ 2 *
      ((s.orientation.cross n).dot (s.orientation.cross n) * swirl s.wavenumber r) := by
  intro r n
  have hr : 0 < r := V3.len_sub_pos h
  simp only [ElectricDipole.magneticField]
  rw [sqLen_real]
  have e2 : (s.current * s.length / (4 * Real.pi * (r : ℂ) ^ 2) * (I * (s.wavenumber * r) + 1) * Complex.exp (-(I * (s.wavenumber * r))) : ℂ) =
      ((s.current * s.length / (4 * Real.pi * r ^ 2) : ℝ) : ℂ) * (I * (s.wavenumber * r) + 1) * Complex.exp (-(I * (s.wavenumber * r))) := by push_cast; ring
  change normSq (s.current * s.length / (4 * Real.pi * (r : ℂ) ^ 2) * (I * (s.wavenumber * r) + 1) * Complex.exp (-(I * (s.wavenumber * r)))) * _ = _
  rw [e2, Complex.normSq_mul, Complex.normSq_mul, Complex.normSq_ofReal, normSq_exp, swirl]
  field_simp
  rfl

/-- The size of the magnetic field of a magnetic dipole. -/
theorem MagneticDipole.sqLen_magneticField (s : MagneticDipole) {xyz : V3 ℝ} (h : xyz ≠ s.location) :
    let r := (xyz - s.location).len
    let n := (xyz - s.location).map (· / r)
    sqLen (s.magneticField xyz) = (s.moment / (4 * Real.pi)) ^ 2 *
      (4 * n.dot s.orientation ^ 2 * axial s.wavenumber r + (n.cross s.orientation).dot (n.cross s.orientation) * broad s.wavenumber r) := by
  intro r n
  have hr : 0 < r := V3.len_sub_pos h
  have hd : xyz - s.location ≠ 0 := fun e => hr.ne' (by rw [show r = (xyz - s.location).len from rfl, e, V3.len_eq_zero])
  have hn : n.x ^ 2 + n.y ^ 2 + n.z ^ 2 = 1 := unit_of _ hd
  simp only [MagneticDipole.magneticField]
  rw [sqLen_dipole _ _ _ n s.orientation hn]
  have e1 : -(s.wavenumber * r) ^ 2 + 3 * (I * (s.wavenumber * r)) + 3 + ((s.wavenumber * r) ^ 2 - I * (s.wavenumber * r) - 1) =
      ((2 : ℝ) : ℂ) * (I * (s.wavenumber * r) + 1) := by push_cast; ring
  have e2 : (s.moment / (4 * Real.pi * (r : ℂ) ^ 3) * Complex.exp (-(I * (s.wavenumber * r))) : ℂ) =
      ((s.moment / (4 * Real.pi * r ^ 3) : ℝ) : ℂ) * Complex.exp (-(I * (s.wavenumber * r))) := by push_cast; ring
  change normSq (s.moment / (4 * Real.pi * (r : ℂ) ^ 3) * Complex.exp (-(I * (s.wavenumber * r)))) * _ = _
  rw [e1, e2, Complex.normSq_mul, Complex.normSq_mul, Complex.normSq_ofReal, Complex.normSq_ofReal, normSq_exp, axial, broad]
  rw [show (xyz - s.location).len = r from rfl, show (2 : ℝ) * 2 = 4 by norm_num]
  field_simp

/-- The size of the electric field of a magnetic dipole. -/
theorem MagneticDipole.sqLen_electricField (s : MagneticDipole) {xyz : V3 ℝ} (h : xyz ≠ s.location) :
    let r := (xyz - s.location).len
    let n := (xyz - s.location).map (· / r)
    sqLen (s.electricField xyz) = (s.omega * s.mu * s.moment / (4 * Real.pi)) ^ 2 *
      ((n.cross s.orientation).dot (n.cross s.orientation) * swirl s.wavenumber r) := by
  intro r n
  have hr : 0 < r := V3.len_sub_pos h
  simp only [MagneticDipole.electricField]
  rw [sqLen_real]
  have e2 : (I * s.omega * s.mu * s.moment / (4 * Real.pi * (r : ℂ) ^ 2) * (I * (s.wavenumber * r) + 1) * Complex.exp (-(I * (s.wavenumber * r))) : ℂ) =
      I * ((s.omega * s.mu * s.moment / (4 * Real.pi * r ^ 2) : ℝ) : ℂ) * (I * (s.wavenumber * r) + 1) * Complex.exp (-(I * (s.wavenumber * r))) := by
    push_cast; ring
  change normSq (I * s.omega * s.mu * s.moment / (4 * Real.pi * (r : ℂ) ^ 2) * (I * (s.wavenumber * r) + 1) * Complex.exp (-(I * (s.wavenumber * r)))) * _ = _
  rw [e2, Complex.normSq_mul, Complex.normSq_mul, Complex.normSq_mul, Complex.normSq_I, Complex.normSq_ofReal, normSq_exp, swirl]
  field_simp
  rfl

/-! ## Distance -/

theorem dot_self_nonneg (v : V3 ℝ) : 0 ≤ v.dot v := by simp only [V3.dot]; nlinarith [mul_self_nonneg v.x, mul_self_nonneg v.y, mul_self_nonneg v.z]

theorem dot_self_pos {v : V3 ℝ} (h : v ≠ 0) : 0 < v.dot v := by
  rw [V3.dot_self]
  exact pow_pos (V3.len_pos h) 2

/-- A nonzero orientation has a part along or a part across every direction. -/
theorem parts_pos {n o : V3 ℝ} (hn : n.x ^ 2 + n.y ^ 2 + n.z ^ 2 = 1) (ho : o ≠ 0) : 0 < n.dot o ^ 2 + (n.cross o).dot (n.cross o) := by
  have h := dot_self_pos ho
  have : n.dot o ^ 2 + (n.cross o).dot (n.cross o) = (n.x ^ 2 + n.y ^ 2 + n.z ^ 2) * o.dot o := by
    simp only [V3.dot, V3.cross_x, V3.cross_y, V3.cross_z]; ring
  rw [this, hn, one_mul]
  exact h

theorem dipole_mix {c q a a' b b' : ℝ} (hq : 0 ≤ q) (h : 0 < c ^ 2 + q) (ha : a' < a) (hb : b' < b) :
    4 * c ^ 2 * a' + q * b' < 4 * c ^ 2 * a + q * b := by
  rcases hq.eq_or_lt with e | e
  · have : 0 < c ^ 2 := by linarith
    nlinarith
  · nlinarith [mul_nonneg (sq_nonneg c) (sub_nonneg.2 ha.le)]

variable {location d : V3 ℝ} {t t' : ℝ}

theorem on_ray_ne (hd : d ≠ 0) (ht : 0 < t) : location + t • d ≠ location := fun e => by
  have h := (ray_direction location d hd ht).1
  have h0 := V3.len_pos hd
  rw [e, sub_self, V3.len_eq_zero.2 rfl] at h
  exact (mul_pos ht h0).ne h

/-- **The electric field of a harmonic electric dipole becomes weaker along every ray from the dipole.** -/
theorem ElectricDipole.electricField_fades (s : ElectricDipole) (hf : 0 < s.frequency) (hs : 0 < s.sigma) (hm : 0 < s.mu)
    (ho : s.orientation ≠ 0) (hc : s.current * s.length ≠ 0) {d : V3 ℝ} (hd : d ≠ 0) {t t' : ℝ} (ht : 0 < t) (h : t < t') :
    sqLen (s.electricField (s.location + t' • d)) < sqLen (s.electricField (s.location + t • d)) := by
  have hk : s.wavenumber.im ≤ 0 := (wavenumber_quadrant hf hs hm _).2.le
  have hl := V3.len_pos hd
  obtain ⟨e1, e2⟩ := ray_direction s.location d hd ht
  obtain ⟨e1', e2'⟩ := ray_direction s.location d hd (ht.trans h)
  rw [s.sqLen_electricField (on_ray_ne hd ht), s.sqLen_electricField (on_ray_ne hd (ht.trans h)), e1, e1', e2, e2']
  have hlt : t * d.len < t' * d.len := mul_lt_mul_of_pos_right h hl
  refine mul_lt_mul_of_pos_left (dipole_mix (dot_self_nonneg _) (parts_pos (unit_of d hd) ho) (axial_lt hk (by positivity) hlt)
    (broad_lt hk (by positivity) hlt)) (by positivity)

/-- **The magnetic field of a harmonic electric dipole becomes weaker along every ray** that is not along the dipole. -/
theorem ElectricDipole.magneticField_fades (s : ElectricDipole) (hf : 0 < s.frequency) (hs : 0 < s.sigma) (hm : 0 < s.mu)
    (hc : s.current * s.length ≠ 0) {d : V3 ℝ} (hd : s.orientation.cross d ≠ 0) {t t' : ℝ} (ht : 0 < t) (h : t < t') :
    sqLen (s.magneticField (s.location + t' • d)) < sqLen (s.magneticField (s.location + t • d)) := by
  have hk : s.wavenumber.im ≤ 0 := (wavenumber_quadrant hf hs hm _).2.le
  have hd0 : d ≠ 0 := fun e => hd (by rw [e]; ext <;> simp)
  have hl := V3.len_pos hd0
  obtain ⟨e1, e2⟩ := ray_direction s.location d hd0 ht
  obtain ⟨e1', e2'⟩ := ray_direction s.location d hd0 (ht.trans h)
  rw [s.sqLen_magneticField (on_ray_ne hd0 ht), s.sqLen_magneticField (on_ray_ne hd0 (ht.trans h)), e1, e1', e2, e2']
  have hlt : t * d.len < t' * d.len := mul_lt_mul_of_pos_right h hl
  have hp : s.orientation.cross (d.map (· / d.len)) = (1 / d.len) • s.orientation.cross d := by
    ext <;> simp <;> ring
  have hq : 0 < (s.orientation.cross (d.map (· / d.len))).dot (s.orientation.cross (d.map (· / d.len))) := by
    refine dot_self_pos fun e => hd ?_
    rw [hp] at e
    have : d.len • ((1 / d.len) • s.orientation.cross d) = s.orientation.cross d := by
      ext <;> simp <;> field_simp
    rw [← this, e]
    ext <;> simp
  exact mul_lt_mul_of_pos_left (mul_lt_mul_of_pos_left (swirl_lt hk (by positivity) hlt) hq) (by positivity)

/-- **The magnetic field of a harmonic magnetic dipole becomes weaker along every ray from the dipole.** -/
theorem MagneticDipole.magneticField_fades (s : MagneticDipole) (hf : 0 < s.frequency) (hs : 0 < s.sigma) (hm : 0 < s.mu)
    (ho : s.orientation ≠ 0) (hc : s.moment ≠ 0) {d : V3 ℝ} (hd : d ≠ 0) {t t' : ℝ} (ht : 0 < t) (h : t < t') :
    sqLen (s.magneticField (s.location + t' • d)) < sqLen (s.magneticField (s.location + t • d)) := by
  have hk : s.wavenumber.im ≤ 0 := (wavenumber_quadrant hf hs hm _).2.le
  have hl := V3.len_pos hd
  obtain ⟨e1, e2⟩ := ray_direction s.location d hd ht
  obtain ⟨e1', e2'⟩ := ray_direction s.location d hd (ht.trans h)
  rw [s.sqLen_magneticField (on_ray_ne hd ht), s.sqLen_magneticField (on_ray_ne hd (ht.trans h)), e1, e1', e2, e2']
  have hlt : t * d.len < t' * d.len := mul_lt_mul_of_pos_right h hl
  refine mul_lt_mul_of_pos_left (dipole_mix (dot_self_nonneg _) (parts_pos (unit_of d hd) ho) (axial_lt hk (by positivity) hlt)
    (broad_lt hk (by positivity) hlt)) (by positivity)

/-- **The electric field of a harmonic magnetic dipole becomes weaker along every ray** that is not along the dipole. -/
theorem MagneticDipole.electricField_fades (s : MagneticDipole) (hf : 0 < s.frequency) (hs : 0 < s.sigma) (hm : 0 < s.mu)
    (hc : s.moment ≠ 0) {d : V3 ℝ} (hd : d.cross s.orientation ≠ 0) {t t' : ℝ} (ht : 0 < t) (h : t < t') :
    sqLen (s.electricField (s.location + t' • d)) < sqLen (s.electricField (s.location + t • d)) := by
  have hk : s.wavenumber.im ≤ 0 := (wavenumber_quadrant hf hs hm _).2.le
  have hd0 : d ≠ 0 := fun e => hd (by rw [e]; ext <;> simp)
  have hl := V3.len_pos hd0
  obtain ⟨e1, e2⟩ := ray_direction s.location d hd0 ht
  obtain ⟨e1', e2'⟩ := ray_direction s.location d hd0 (ht.trans h)
  rw [s.sqLen_electricField (on_ray_ne hd0 ht), s.sqLen_electricField (on_ray_ne hd0 (ht.trans h)), e1, e1', e2, e2']
  have hlt : t * d.len < t' * d.len := mul_lt_mul_of_pos_right h hl
  have hp : (d.map (· / d.len)).cross s.orientation = (1 / d.len) • d.cross s.orientation := by
    ext <;> simp <;> ring
  have hq : 0 < ((d.map (· / d.len)).cross s.orientation).dot ((d.map (· / d.len)).cross s.orientation) := by
    refine dot_self_pos fun e => hd ?_
    rw [hp] at e
    have : d.len • ((1 / d.len) • d.cross s.orientation) = d.cross s.orientation := by
      ext <;> simp <;> field_simp
    rw [← this, e]
    ext <;> simp
  have hw : 0 < s.omega := by simp only [Medium.omega, omega]; positivity
  exact mul_lt_mul_of_pos_left (mul_lt_mul_of_pos_left (swirl_lt hk (by positivity) hlt) hq) (by positivity)

/-! ## Frequency, conductivity and permeability, in the quasistatic setting -/

/-- One over the skin depth of a medium. -/
noncomputable def Medium.rate (m : Medium) : ℝ := √(m.omega * m.mu * m.sigma / 2)

/-- All attributes that matter to the waves are positive and displacement currents are left out. -/
structure Medium.Diffusive (m : Medium) : Prop where
  frequency : 0 < m.frequency
  sigma : 0 < m.sigma
  mu : 0 < m.mu
  quasistatic : m.quasistatic = .bool true

theorem Medium.Diffusive.wavenumber {m : Medium} (h : m.Diffusive) : m.wavenumber.re = m.rate ∧ m.wavenumber.im = -m.rate := by
  have e : m.wavenumber = Fdem.wavenumber m.frequency m.sigma m.mu m.epsilon (.bool true) := by rw [Medium.wavenumber, h.quasistatic]
  have him : m.wavenumber.im = -m.rate := by rw [e, wavenumber_im_quasistatic h.frequency h.sigma h.mu]; rfl
  have hq := (wavenumber_quadrant (epsilon := m.epsilon) h.frequency h.sigma h.mu (.bool true)).1
  have h2 := congrArg Complex.re (wavenumber_sq_quasistatic m.frequency m.sigma m.mu m.epsilon)
  rw [← e] at hq h2
  have h3 : m.wavenumber.re ^ 2 = m.rate ^ 2 := by
    have : (m.wavenumber ^ 2).re = m.wavenumber.re ^ 2 - m.wavenumber.im ^ 2 := by rw [pow_two, Complex.mul_re]; ring
    rw [this, him] at h2
    simp at h2
    linarith
  exact ⟨by rwa [sq_eq_sq₀ hq.le (show 0 ≤ m.rate from Real.sqrt_nonneg _)] at h3, him⟩

theorem Medium.Diffusive.rate_lt {m m' : Medium} (h : m.Diffusive) (hlt : m.frequency * m.mu * m.sigma < m'.frequency * m'.mu * m'.sigma) :
    0 < m.rate ∧ m.rate < m'.rate := by
  have := h.frequency
  have := h.sigma
  have := h.mu
  have e : ∀ m : Medium, m.omega * m.mu * m.sigma / 2 = Real.pi * (m.frequency * m.mu * m.sigma) := fun m => by simp only [Medium.omega, Fdem.omega]; ring
  rw [Medium.rate, Medium.rate, e, e]
  have hp := Real.pi_pos
  exact ⟨Real.sqrt_pos.2 (by positivity), Real.sqrt_lt_sqrt (by positivity) (mul_lt_mul_of_pos_left hlt hp)⟩

/-- The skin depth of the code is the one of these theorems. -/
theorem Medium.Diffusive.skinDepth_eq {m : Medium} (h : m.Diffusive) : m.skinDepth = 1 / m.rate := by
  have := h.frequency
  have := h.sigma
  have := h.mu
  have hw : 0 < m.omega := by simp only [Medium.omega, Fdem.omega]; positivity
  simp only [Medium.skinDepth, Fdem.skinDepth, h.quasistatic, Flag.truthy, if_true, Medium.rate]
  rw [one_div, ← Real.sqrt_inv]
  congr 1
  change 2 / (m.omega * m.sigma * m.mu) = _
  field_simp

/-- **In a better conductor, a more permeable one, or at a higher frequency the magnetic field of an electric dipole is weaker**, at every point off its axis. -/
theorem ElectricDipole.magneticField_damped (s : ElectricDipole) (hs : s.Diffusive) {m' : Medium} (hm : m'.Diffusive)
    (hlt : s.frequency * s.mu * s.sigma < m'.frequency * m'.mu * m'.sigma) (hc : s.current * s.length ≠ 0) {xyz : V3 ℝ}
    (hd : s.orientation.cross (xyz - s.location) ≠ 0) :
    sqLen (({ s with toMedium := m' } : ElectricDipole).magneticField xyz) < sqLen (s.magneticField xyz) := by
  have hne : xyz ≠ s.location := fun e => hd (by rw [e, sub_self]; ext <;> simp)
  have hr := V3.len_sub_pos hne
  rw [s.sqLen_magneticField hne, ElectricDipole.sqLen_magneticField { s with toMedium := m' } hne]
  obtain ⟨h0, h1⟩ := hs.rate_lt hlt
  change _ * (_ * swirl m'.wavenumber _) < _ * (_ * swirl s.toMedium.wavenumber _)
  rw [swirl_eq hm.wavenumber.1 hm.wavenumber.2, swirl_eq hs.wavenumber.1 hs.wavenumber.2]
  have hq : 0 < (s.orientation.cross ((xyz - s.location).map (· / (xyz - s.location).len))).dot
      (s.orientation.cross ((xyz - s.location).map (· / (xyz - s.location).len))) := by
    refine dot_self_pos fun e => hd ?_
    have e2 : (xyz - s.location).len • s.orientation.cross ((xyz - s.location).map (· / (xyz - s.location).len)) =
        s.orientation.cross (xyz - s.location) := by
      ext <;> simp <;> field_simp
    rw [← e2, e]
    ext <;> simp
  refine mul_lt_mul_of_pos_left (mul_lt_mul_of_pos_left (div_lt_div_of_pos_right ?_ (by positivity)) hq) (by positivity)
  exact inductive_lt (by positivity) (mul_lt_mul_of_pos_right h1 hr)

theorem on_axis {n o : V3 ℝ} (hn : n ≠ 0) (ho : o ≠ 0) (h : n.cross o = 0) : 0 < n.dot o ^ 2 := by
  have h1 := dot_self_pos hn
  have h2 := dot_self_pos ho
  have : n.dot o ^ 2 = n.dot n * o.dot o - (n.cross o).dot (n.cross o) := by simp only [V3.dot, V3.cross_x, V3.cross_y, V3.cross_z]; ring
  rw [this, h]
  have : (0 : V3 ℝ).dot 0 = 0 := by simp [V3.dot]
  rw [this]
  nlinarith

/-- **On the axis of a magnetic dipole** the magnetic field is weaker in a better conductor, a more permeable one, or at a higher frequency. -/
theorem MagneticDipole.magneticField_damped_axis (s : MagneticDipole) (hs : s.Diffusive) {m' : Medium} (hm : m'.Diffusive)
    (hlt : s.frequency * s.mu * s.sigma < m'.frequency * m'.mu * m'.sigma) (hc : s.moment ≠ 0) (ho : s.orientation ≠ 0) {xyz : V3 ℝ}
    (hne : xyz ≠ s.location) (hax : (xyz - s.location).cross s.orientation = 0) :
    sqLen (({ s with toMedium := m' } : MagneticDipole).magneticField xyz) < sqLen (s.magneticField xyz) := by
  have hr := V3.len_sub_pos hne
  have hd : xyz - s.location ≠ 0 := fun e => hr.ne' (by rw [e, V3.len_eq_zero])
  rw [s.sqLen_magneticField hne, MagneticDipole.sqLen_magneticField { s with toMedium := m' } hne]
  obtain ⟨h0, h1⟩ := hs.rate_lt hlt
  have e1 : ((xyz - s.location).map (· / (xyz - s.location).len)).cross s.orientation = 0 := by
    have : ((xyz - s.location).map (· / (xyz - s.location).len)).cross s.orientation = (1 / (xyz - s.location).len) • (xyz - s.location).cross s.orientation := by
      ext <;> simp <;> ring
    rw [this, hax]; ext <;> simp
  have hn0 : (xyz - s.location).map (· / (xyz - s.location).len) ≠ 0 := fun e => by
    have := unit_of _ hd
    rw [e] at this
    simp at this
  have hq := on_axis hn0 ho e1
  have z : (0 : V3 ℝ).dot 0 = 0 := by simp [V3.dot]
  simp only [e1, z, zero_mul, add_zero]
  change _ * (_ * axial m'.wavenumber _) < _ * (_ * axial s.toMedium.wavenumber _)
  rw [axial_eq hm.wavenumber.1 hm.wavenumber.2, axial_eq hs.wavenumber.1 hs.wavenumber.2]
  refine mul_lt_mul_of_pos_left (mul_lt_mul_of_pos_left (div_lt_div_of_pos_right ?_ (by positivity)) (by positivity)) (by positivity)
  exact inductive_lt (by positivity) (mul_lt_mul_of_pos_right h1 hr)

/-- **In the plane across a magnetic dipole** the induced currents first strengthen the magnetic field: it grows with frequency, conductivity and permeability up to
the golden ratio of skin depths, and becomes weaker beyond. -/
theorem MagneticDipole.magneticField_across (s : MagneticDipole) (hs : s.Diffusive) {m' : Medium} (hm : m'.Diffusive)
    (hlt : s.frequency * s.mu * s.sigma < m'.frequency * m'.mu * m'.sigma) (hc : s.moment ≠ 0) (ho : s.orientation ≠ 0) {xyz : V3 ℝ}
    (hne : xyz ≠ s.location) (hax : (xyz - s.location).dot s.orientation = 0) :
    ((xyz - s.location).len ≤ (1 + √5) / 2 * m'.skinDepth →
      sqLen (s.magneticField xyz) < sqLen (({ s with toMedium := m' } : MagneticDipole).magneticField xyz)) ∧
    ((1 + √5) / 2 * s.skinDepth ≤ (xyz - s.location).len →
      sqLen (({ s with toMedium := m' } : MagneticDipole).magneticField xyz) < sqLen (s.magneticField xyz)) := by
  have hr := V3.len_sub_pos hne
  have hd : xyz - s.location ≠ 0 := fun e => hr.ne' (by rw [e, V3.len_eq_zero])
  rw [s.sqLen_magneticField hne, MagneticDipole.sqLen_magneticField { s with toMedium := m' } hne]
  obtain ⟨h0, h1⟩ := hs.rate_lt hlt
  have h2 := h0.trans h1
  have e1 : ((xyz - s.location).map (· / (xyz - s.location).len)).dot s.orientation = 0 := by
    have : ((xyz - s.location).map (· / (xyz - s.location).len)).dot s.orientation = (1 / (xyz - s.location).len) * (xyz - s.location).dot s.orientation := by
      simp only [V3.dot, V3.map_x, V3.map_y, V3.map_z]; ring
    rw [this, hax, mul_zero]
  have hq := parts_pos (unit_of _ hd) ho
  rw [e1] at hq
  simp only [e1]
  norm_num only [zero_add, zero_mul] at hq ⊢
  change (_ → _ * (_ * broad s.toMedium.wavenumber _) < _ * (_ * broad m'.wavenumber _)) ∧ (_ → _ * (_ * broad m'.wavenumber _) < _ * (_ * broad s.toMedium.wavenumber _))
  rw [broad_eq hm.wavenumber.1 hm.wavenumber.2, broad_eq hs.wavenumber.1 hs.wavenumber.2, hm.skinDepth_eq, hs.skinDepth_eq]
  refine ⟨fun h => mul_lt_mul_of_pos_left (mul_lt_mul_of_pos_left (div_lt_div_of_pos_right ?_ (by positivity)) hq) (by positivity),
    fun h => mul_lt_mul_of_pos_left (mul_lt_mul_of_pos_left (div_lt_div_of_pos_right ?_ (by positivity)) hq) (by positivity)⟩
  · refine across_lt (by positivity) (mul_lt_mul_of_pos_right h1 hr) ?_
    rw [← mul_div_assoc, mul_one, le_div_iff₀ h2] at h
    linarith
  · refine across_gt ?_ (mul_lt_mul_of_pos_right h1 hr)
    rw [← mul_div_assoc, mul_one, div_le_iff₀ h0] at h
    linarith

/-- The hypotheses can be met: a vertical magnetic dipole in ground of 1 S/m, at 1 and 2 Hz, one metre to the side. -/
example : let s : MagneticDipole := { frequency := 1, sigma := 1, mu := 1, epsilon := 1, quasistatic := .bool true, location := 0, orientation := ⟨0, 0, 1⟩, moment := 1 }
    s.Diffusive ∧ ({ s.toMedium with frequency := 2 } : Medium).Diffusive ∧ s.frequency * s.mu * s.sigma < 2 * s.mu * s.sigma ∧
    s.orientation ≠ 0 ∧ ((⟨1, 0, 0⟩ : V3 ℝ) - s.location).dot s.orientation = 0 ∧ ((⟨0, 0, 1⟩ : V3 ℝ) - s.location).cross s.orientation = 0 := by
  refine ⟨⟨?_, ?_, ?_, rfl⟩, ⟨?_, ?_, ?_, rfl⟩, ?_, ?_, ?_, ?_⟩ <;> norm_num [V3.dot, V3.ext_iff]

end Verif.Fdem
