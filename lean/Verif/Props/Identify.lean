import Verif.Lemmas.Identify
import Verif.Model.Gravity
import Verif.Model.StaticWholeSpace
import Verif.Model.StaticSphere
import Verif.Props.StaticHalfspace

/-!
# C147: what a survey on a plane can tell

A survey measures one quantity at all points of a plane above (or, for electrodes, at) the sources.  The data determine a point
mass, a magnetic pole, a magnetic dipole and a current electrode, except that only the product of strength and material constant
is seen; spheres are seen only through their mass or through one combination of radius and contrast.
-/

namespace Verif.Identify

open Verif.V3 Verif.Gravity Verif.Static

/-- The squared distance from a station. -/
theorem station_len_sq (x y h : ℝ) (p : V3 ℝ) :
    ((⟨x, y, h⟩ : V3 ℝ) - p).len ^ 2 = (x - p.x) ^ 2 + (y - p.y) ^ 2 + (h - p.z) ^ 2 := by
  rw [len_sq]; rfl

theorem station_len_pos {x y h : ℝ} {p : V3 ℝ} (hp : p.z < h) : 0 < ((⟨x, y, h⟩ : V3 ℝ) - p).len :=
  len_sub_pos fun e => by rw [← e] at hp; exact lt_irrefl _ hp

/-- Potentials of two poles that agree in a part of a plane. -/
theorem poles_agree {k l M h : ℝ} {p q : V3 ℝ} (hk : k ≠ 0) (hp : p.z ≤ h) (hq : q.z ≤ h)
    (hpos : ∀ x y, M < x → (⟨x, y, h⟩ : V3 ℝ) ≠ p ∧ (⟨x, y, h⟩ : V3 ℝ) ≠ q)
    (heq : ∀ x y, M < x → k / ((⟨x, y, h⟩ : V3 ℝ) - p).len = l / ((⟨x, y, h⟩ : V3 ℝ) - q).len) : k = l ∧ p = q := by
  have key : ∀ x y, M < x → (l / k) ^ 2 * ((x - p.x) ^ 2 + (y - p.y) ^ 2 + (h - p.z) ^ 2) =
      (x - q.x) ^ 2 + (y - q.y) ^ 2 + (h - q.z) ^ 2 := by
    intro x y hx
    have h1 := len_sub_pos (hpos x y hx).1
    have h2 := len_sub_pos (hpos x y hx).2
    have e := heq x y hx
    rw [div_eq_div_iff h1.ne' h2.ne'] at e
    rw [← station_len_sq, ← station_len_sq]
    field_simp
    linear_combination -(k * ((⟨x, y, h⟩ : V3 ℝ) - q).len + l * ((⟨x, y, h⟩ : V3 ℝ) - p).len) * e
  obtain ⟨-, ea, eb, ee⟩ := distances_proportional key
  have hz : p.z = q.z := by
    have := (sq_eq_sq₀ (by linarith : (0 : ℝ) ≤ h - p.z) (by linarith : (0 : ℝ) ≤ h - q.z)).mp ee
    linarith
  have hpq : p = q := by ext <;> assumption
  subst hpq
  refine ⟨?_, rfl⟩
  have h1 := len_sub_pos (hpos (M + 1) 0 (by linarith)).1
  have e := heq (M + 1) 0 (by linarith)
  rwa [div_left_inj' h1.ne'] at e

/-- Vertical fields of two poles that agree on a plane. -/
theorem pole_fields_agree {k l h : ℝ} {p q : V3 ℝ} (hk : k ≠ 0) (hp : p.z < h) (hq : q.z < h)
    (heq : ∀ x y, k * (h - p.z) / ((⟨x, y, h⟩ : V3 ℝ) - p).len ^ 3 = l * (h - q.z) / ((⟨x, y, h⟩ : V3 ℝ) - q).len ^ 3) :
    k = l ∧ p = q := by
  have hd : k * (h - p.z) ≠ 0 := mul_ne_zero hk (by linarith)
  have cube : ∀ x y, (((⟨x, y, h⟩ : V3 ℝ) - q).len ^ 2 / ((⟨x, y, h⟩ : V3 ℝ) - p).len ^ 2) ^ 3 =
      (l * (h - q.z) / (k * (h - p.z))) ^ 2 := by
    intro x y
    have h1 := station_len_pos (x := x) (y := y) hp
    have h2 := station_len_pos (x := x) (y := y) hq
    have e := heq x y
    rw [div_eq_div_iff (by positivity) (by positivity)] at e
    generalize ((⟨x, y, h⟩ : V3 ℝ) - p).len = r at *
    generalize ((⟨x, y, h⟩ : V3 ℝ) - q).len = s at *
    generalize k * (h - p.z) = a at *
    generalize l * (h - q.z) = b at *
    field_simp
    linear_combination (a * s ^ 3 + b * r ^ 3) * e
  have const : ∀ x y, ((⟨x, y, h⟩ : V3 ℝ) - q).len ^ 2 / ((⟨x, y, h⟩ : V3 ℝ) - p).len ^ 2 =
      ((⟨0, 0, h⟩ : V3 ℝ) - q).len ^ 2 / ((⟨0, 0, h⟩ : V3 ℝ) - p).len ^ 2 := fun x y =>
    (pow_left_inj₀ (by positivity) (by positivity) three_ne_zero).mp ((cube x y).trans (cube 0 0).symm)
  obtain ⟨-, ea, eb, ee⟩ := distances_proportional (M := 0)
    (c := ((⟨0, 0, h⟩ : V3 ℝ) - q).len ^ 2 / ((⟨0, 0, h⟩ : V3 ℝ) - p).len ^ 2) (a₁ := p.x) (b₁ := p.y) (e₁ := (h - p.z) ^ 2)
    (a₂ := q.x) (b₂ := q.y) (e₂ := (h - q.z) ^ 2) fun x y _ => by
      rw [← station_len_sq, ← station_len_sq, ← const x y]
      have h1 := station_len_pos (x := x) (y := y) hp
      field_simp
  have hz : p.z = q.z := by
    have := (sq_eq_sq₀ (by linarith : (0 : ℝ) ≤ h - p.z) (by linarith : (0 : ℝ) ≤ h - q.z)).mp ee
    linarith
  have hpq : p = q := by ext <;> assumption
  subst hpq
  refine ⟨?_, rfl⟩
  have h1 := station_len_pos (x := 0) (y := 0) hp
  have e := heq 0 0
  rw [div_left_inj' (by positivity)] at e
  exact mul_right_cancel₀ (by linarith : h - p.z ≠ 0) e

/-! ## Masses -/

theorem G_ne_zero : G ≠ 0 := by unfold G; norm_num

/-- **The potential on a plane above determines a point mass**: its mass, its position and its depth. -/
theorem PointMass.potential_identifies (s t : PointMass) (h : ℝ) (hs : s.location.z < h) (ht : t.location.z < h)
    (hm : s.mass ≠ 0) (heq : ∀ x y, s.gravitationalPotential ⟨x, y, h⟩ = t.gravitationalPotential ⟨x, y, h⟩) : s = t := by
  obtain ⟨e1, e2⟩ := poles_agree (M := 0) (mul_ne_zero G_ne_zero hm) hs.le ht.le
    (fun x y _ => ⟨fun e => by rw [← e] at hs; exact lt_irrefl _ hs, fun e => by rw [← e] at ht; exact lt_irrefl _ ht⟩)
    (fun x y _ => heq x y)
  cases s; cases t
  simp only [PointMass.mk.injEq]
  exact ⟨mul_left_cancel₀ G_ne_zero e1, e2⟩

theorem field_z (s : PointMass) (x y h : ℝ) (hs : s.location.z < h) : (s.gravitationalField ⟨x, y, h⟩).z =
    -G * s.mass * (h - s.location.z) / ((⟨x, y, h⟩ : V3 ℝ) - s.location).len ^ 3 := by
  have h1 := station_len_pos (x := x) (y := y) hs
  simp only [PointMass.gravitationalField, map_z, sub_z]
  field_simp

/-- **The vertical gravity on a plane above determines a point mass.** -/
theorem PointMass.gravity_identifies (s t : PointMass) (h : ℝ) (hs : s.location.z < h) (ht : t.location.z < h)
    (hm : s.mass ≠ 0) (heq : ∀ x y, (s.gravitationalField ⟨x, y, h⟩).z = (t.gravitationalField ⟨x, y, h⟩).z) : s = t := by
  obtain ⟨e1, e2⟩ := pole_fields_agree (mul_ne_zero (neg_ne_zero.mpr G_ne_zero) hm) hs ht (fun x y => by
    rw [← field_z s x y h hs, ← field_z t x y h ht]; exact heq x y)
  cases s; cases t
  simp only [PointMass.mk.injEq]
  exact ⟨mul_left_cancel₀ (neg_ne_zero.mpr G_ne_zero) e1, e2⟩

/-- **Spheres with the same centre and mass cannot be told apart from outside**, whatever their radii and densities. -/
theorem Sphere.indistinguishable (s t : Gravity.Sphere) (hl : s.location = t.location) (hm : s.radius ^ 3 * s.rho = t.radius ^ 3 * t.rho)
    (p : V3 ℝ) (hs : s.radius < (p - s.location).len) (ht : t.radius < (p - t.location).len) :
    s.gravitationalPotential p = t.gravitationalPotential p ∧ s.gravitationalField p = t.gravitationalField p ∧
      s.gravitationalGradient p = t.gravitationalGradient p := by
  have e : s.toPointMass = t.toPointMass := by
    simp only [Sphere.toPointMass, Sphere.mass, PointMass.mk.injEq]
    exact ⟨by linear_combination 4 / 3 * Real.pi * hm, hl⟩
  simp only [Sphere.gravitationalPotential, Sphere.gravitationalField, Sphere.gravitationalGradient, gt_iff_lt, hs, ht,
    hs.ne', ht.ne', if_true, if_false, e, and_self]

/-- **The vertical gravity on a plane above determines the centre and the mass of a sphere**, and by
`Sphere.indistinguishable` nothing else. -/
theorem Sphere.gravity_identifies (s t : Gravity.Sphere) (h : ℝ) (hs : s.location.z + s.radius < h) (ht : t.location.z + t.radius < h)
    (rs : 0 < s.radius) (rt : 0 < t.radius) (hm : s.rho ≠ 0)
    (heq : ∀ x y, (s.gravitationalField ⟨x, y, h⟩).z = (t.gravitationalField ⟨x, y, h⟩).z) :
    s.location = t.location ∧ s.mass = t.mass := by
  have out : ∀ (u : Gravity.Sphere), u.location.z + u.radius < h → 0 < u.radius → ∀ x y,
      u.radius < ((⟨x, y, h⟩ : V3 ℝ) - u.location).len := by
    intro u hu ru x y
    refine lt_of_pow_lt_pow_left₀ 2 (len_nonneg _) ?_
    rw [station_len_sq]
    nlinarith [sq_nonneg (x - u.location.x), sq_nonneg (y - u.location.y)]
  have := PointMass.gravity_identifies s.toPointMass t.toPointMass h (by simp only [Sphere.toPointMass]; linarith)
    (by simp only [Sphere.toPointMass]; linarith) (by
      simp only [Sphere.toPointMass, Sphere.mass]
      have := Real.pi_pos
      positivity) (fun x y => by
      have e := heq x y
      simpa only [Sphere.gravitationalField, gt_iff_lt, out s hs rs x y, out t ht rt x y, if_true] using e)
  simp only [Sphere.toPointMass, PointMass.mk.injEq] at this
  exact ⟨this.2, this.1⟩

/-! ## Magnetic sources -/

/-- **The vertical field on a plane above determines a magnetic pole**, except that permeability and strength are seen only through
their product. -/
theorem MagDipole.pole_identified (s t : MagDipole) (h : ℝ) (hs : s.location.z < h) (ht : t.location.z < h)
    (hm : s.moment * s.mu ≠ 0) (heq : ∀ x y, (s.poleFluxDensity ⟨x, y, h⟩).z = (t.poleFluxDensity ⟨x, y, h⟩).z) :
    s.moment * s.mu = t.moment * t.mu ∧ s.location = t.location := by
  have form : ∀ (u : MagDipole), u.location.z < h → ∀ x y, (u.poleFluxDensity ⟨x, y, h⟩).z =
      u.moment * u.mu / (4 * Real.pi) * (h - u.location.z) / ((⟨x, y, h⟩ : V3 ℝ) - u.location).len ^ 3 := by
    intro u hu x y
    have h1 := station_len_pos (x := x) (y := y) hu
    have := Real.pi_pos
    simp only [MagDipole.poleFluxDensity, map_z, sub_z]
    field_simp
  have hpi : (4 * Real.pi) ≠ 0 := by have := Real.pi_pos; positivity
  obtain ⟨e1, e2⟩ := pole_fields_agree (k := s.moment * s.mu / (4 * Real.pi)) (l := t.moment * t.mu / (4 * Real.pi))
    (div_ne_zero hm hpi) hs ht (fun x y => by rw [← form s hs, ← form t ht]; exact heq x y)
  exact ⟨(div_left_inj' hpi).mp e1, e2⟩

/-- The vertical field of a dipole. -/
theorem dipole_field_z (s : MagDipole) (x y h : ℝ) (hs : s.location.z < h) : (s.magneticFluxDensity ⟨x, y, h⟩).z =
    s.moment * s.mu / (4 * Real.pi) * (3 * (s.orientation.x * (x - s.location.x) +
      (s.orientation.y * (y - s.location.y) + s.orientation.z * (h - s.location.z))) * (h - s.location.z) -
      s.orientation.z * ((x - s.location.x) ^ 2 + ((y - s.location.y) ^ 2 + (h - s.location.z) ^ 2))) /
      ((⟨x, y, h⟩ : V3 ℝ) - s.location).len ^ 5 := by
  have h1 := station_len_pos (x := x) (y := y) hs
  have h2 := station_len_sq x y h s.location
  have := Real.pi_pos
  simp only [MagDipole.magneticFluxDensity, map_x, map_y, map_z, sub_x, sub_y, sub_z, dot]
  generalize ((⟨x, y, h⟩ : V3 ℝ) - s.location).len = r at *
  rw [show (x - s.location.x) ^ 2 + ((y - s.location.y) ^ 2 + (h - s.location.z) ^ 2) = r ^ 2 by rw [h2]; ring]
  field_simp
  ring

theorem dipole_vanishes (s t : MagDipole) (h : ℝ) (hs : s.location.z < h) (ht : t.location.z < h)
    (heq : ∀ x y, (s.magneticFluxDensity ⟨x, y, h⟩).z = (t.magneticFluxDensity ⟨x, y, h⟩).z)
    (hne : s.location ≠ t.location) : (s.moment * s.mu) • s.orientation = 0 := by
  obtain ⟨y, hy, hyne⟩ : ∃ y, y ≠ s.location.y ∧ ¬ (s.location.x = t.location.x ∧
      (y - s.location.y) ^ 2 + (h - s.location.z) ^ 2 = (y - t.location.y) ^ 2 + (h - t.location.z) ^ 2) := by
    by_contra hcon
    push Not at hcon
    obtain ⟨ha, h1⟩ := hcon (s.location.y + 1) (by simp)
    obtain ⟨-, h2⟩ := hcon (s.location.y - 1) (by simp)
    have hb : s.location.y = t.location.y := by linear_combination (h2 - h1) / 4
    rw [hb] at h1
    have hz := (sq_eq_sq₀ (by linarith : (0 : ℝ) ≤ h - s.location.z) (by linarith : (0 : ℝ) ≤ h - t.location.z)).mp
      (by linear_combination h1)
    exact hne (by ext <;> linarith)
  have hpi : (4 * Real.pi) ≠ 0 := by have := Real.pi_pos; positivity
  have hz := line_agrees (m := s.moment * s.mu / (4 * Real.pi) * s.orientation.x)
    (c := s.moment * s.mu / (4 * Real.pi) * (s.orientation.y * (y - s.location.y) + s.orientation.z * (h - s.location.z)))
    (n := s.moment * s.mu / (4 * Real.pi) * s.orientation.z) (D := h - s.location.z) (a := s.location.x)
    (e := (y - s.location.y) ^ 2 + (h - s.location.z) ^ 2)
    (m' := t.moment * t.mu / (4 * Real.pi) * t.orientation.x)
    (c' := t.moment * t.mu / (4 * Real.pi) * (t.orientation.y * (y - t.location.y) + t.orientation.z * (h - t.location.z)))
    (n' := t.moment * t.mu / (4 * Real.pi) * t.orientation.z) (D' := h - t.location.z) (a' := t.location.x)
    (e' := (y - t.location.y) ^ 2 + (h - t.location.z) ^ 2)
    (by have : 0 < h - s.location.z := by linarith
        positivity) hyne (fun x => by
      have e := heq x y
      rw [dipole_field_z s x y h hs, dipole_field_z t x y h ht] at e
      have h1 := station_len_pos (x := x) (y := y) hs
      have h2 := station_len_pos (x := x) (y := y) ht
      have q1 := station_len_sq x y h s.location
      have q2 := station_len_sq x y h t.location
      rw [div_eq_div_iff (by positivity) (by positivity)] at e
      rw [show (x - t.location.x) ^ 2 + ((y - t.location.y) ^ 2 + (h - t.location.z) ^ 2) =
        ((⟨x, y, h⟩ : V3 ℝ) - t.location).len ^ 2 by rw [q2]; ring,
        show (x - s.location.x) ^ 2 + ((y - s.location.y) ^ 2 + (h - s.location.z) ^ 2) =
        ((⟨x, y, h⟩ : V3 ℝ) - s.location).len ^ 2 by rw [q1]; ring] at e ⊢
      generalize ((⟨x, y, h⟩ : V3 ℝ) - s.location).len = r at *
      generalize ((⟨x, y, h⟩ : V3 ℝ) - t.location).len = r' at *
      have e2 := congrArg (· ^ 2) e
      simp only [mul_pow] at e2
      linear_combination e2)
  obtain ⟨e1, e2, e3⟩ := numerator_eq_zero (by linarith : h - s.location.z ≠ 0) hz
  have ex : s.moment * s.mu * s.orientation.x = 0 := by
    have := congrArg (· * (4 * Real.pi)) e1
    field_simp at this
    linear_combination this
  have ez : s.moment * s.mu * s.orientation.z = 0 := by
    have := congrArg (· * (4 * Real.pi)) e3
    field_simp at this
    linear_combination this
  have ey : s.moment * s.mu * s.orientation.y = 0 := by
    have h1 : s.moment * s.mu * s.orientation.y * (y - s.location.y) = 0 := by
      have := congrArg (· * (4 * Real.pi)) e2
      field_simp at this
      linear_combination this - (h - s.location.z) * ez
    exact (mul_eq_zero.mp h1).resolve_right (sub_ne_zero.mpr hy)
  ext <;> assumption

/-- **The vertical field on a plane above determines a magnetic dipole**: its moment vector (times the permeability), and, if that is
not zero, its position and depth. -/
theorem MagDipole.dipole_identified (s t : MagDipole) (h : ℝ) (hs : s.location.z < h) (ht : t.location.z < h)
    (heq : ∀ x y, (s.magneticFluxDensity ⟨x, y, h⟩).z = (t.magneticFluxDensity ⟨x, y, h⟩).z) :
    (s.moment * s.mu) • s.orientation = (t.moment * t.mu) • t.orientation ∧
      ((s.moment * s.mu) • s.orientation ≠ 0 → s.location = t.location) := by
  by_cases hl : s.location = t.location
  · refine ⟨?_, fun _ => hl⟩
    have form : ∀ x y, s.moment * s.mu * (3 * (s.orientation.x * (x - s.location.x) +
      (s.orientation.y * (y - s.location.y) + s.orientation.z * (h - s.location.z))) * (h - s.location.z) -
      s.orientation.z * ((x - s.location.x) ^ 2 + ((y - s.location.y) ^ 2 + (h - s.location.z) ^ 2))) =
      t.moment * t.mu * (3 * (t.orientation.x * (x - s.location.x) +
      (t.orientation.y * (y - s.location.y) + t.orientation.z * (h - s.location.z))) * (h - s.location.z) -
      t.orientation.z * ((x - s.location.x) ^ 2 + ((y - s.location.y) ^ 2 + (h - s.location.z) ^ 2))) := by
      intro x y
      have e := heq x y
      have h1 := station_len_pos (x := x) (y := y) hs
      have := Real.pi_pos
      rw [dipole_field_z s x y h hs, dipole_field_z t x y h ht, ← hl, div_left_inj' (by positivity)] at e
      have := congrArg (· * (4 * Real.pi)) e
      field_simp at this
      linear_combination this
    have hD : h - s.location.z ≠ 0 := by linarith
    have h0 := form s.location.x s.location.y
    have h1 := form (s.location.x + 1) s.location.y
    have h2 := form s.location.x (s.location.y + 1)
    have ez : s.moment * s.mu * s.orientation.z = t.moment * t.mu * t.orientation.z := by
      have : (h - s.location.z) ^ 2 * (s.moment * s.mu * s.orientation.z) =
          (h - s.location.z) ^ 2 * (t.moment * t.mu * t.orientation.z) := by linear_combination h0 / 2
      exact mul_left_cancel₀ (pow_ne_zero 2 hD) this
    have ex : s.moment * s.mu * s.orientation.x = t.moment * t.mu * t.orientation.x := by
      have : (h - s.location.z) * (s.moment * s.mu * s.orientation.x) =
          (h - s.location.z) * (t.moment * t.mu * t.orientation.x) := by linear_combination (h1 - h0 + ez) / 3
      exact mul_left_cancel₀ hD this
    have ey : s.moment * s.mu * s.orientation.y = t.moment * t.mu * t.orientation.y := by
      have : (h - s.location.z) * (s.moment * s.mu * s.orientation.y) =
          (h - s.location.z) * (t.moment * t.mu * t.orientation.y) := by linear_combination (h2 - h0 + ez) / 3
      exact mul_left_cancel₀ hD this
    ext <;> assumption
  · have e1 := dipole_vanishes s t h hs ht heq hl
    have e2 := dipole_vanishes t s h ht hs (fun x y => (heq x y).symm) (Ne.symm hl)
    exact ⟨e1.trans e2.symm, fun hc => absurd e1 hc⟩

/-! ## Electrodes -/

/-- **The potential on the surface determines a current electrode**, on the surface or buried: its position, its depth, and the product
of current and resistivity. -/
theorem PointHalf.surface_identifies {mu0 rho I mu0' rho' I' : ℝ} {l l' : V3 ℝ} {s t : PointHalf}
    (hs : PointHalf.new mu0 rho I l = .ok s) (ht : PointHalf.new mu0' rho' I' l' = .ok t) (hI : I ≠ 0)
    (heq : ∀ x y, (⟨x, y, 0⟩ : V3 ℝ) ≠ l → (⟨x, y, 0⟩ : V3 ℝ) ≠ l' → s.potential ⟨x, y, 0⟩ = t.potential ⟨x, y, 0⟩) :
    rho * I = rho' * I' ∧ l = l' := by
  obtain ⟨hr, hl, -⟩ := pointHalf_new_eq hs
  obtain ⟨hr', hl', -⟩ := pointHalf_new_eq ht
  have hpi := Real.pi_pos
  have off : ∀ x y, max l.x l'.x < x → (⟨x, y, 0⟩ : V3 ℝ) ≠ l ∧ (⟨x, y, 0⟩ : V3 ℝ) ≠ l' := by
    intro x y hx
    obtain ⟨h1, h2⟩ := max_lt_iff.mp hx
    exact ⟨fun e => by rw [← e] at h1; exact lt_irrefl _ h1, fun e => by rw [← e] at h2; exact lt_irrefl _ h2⟩
  have form : ∀ (r J x y : ℝ) (p : V3 ℝ), imagePotential r J p ⟨x, y, 0⟩ =
      r * J / (2 * Real.pi) / ((⟨x, y, 0⟩ : V3 ℝ) - p).len := by
    intro r J x y p
    have e : ((⟨x, y, 0⟩ : V3 ℝ) - ⟨p.x, p.y, -p.z⟩).len = ((⟨x, y, 0⟩ : V3 ℝ) - p).len := by
      simp only [V3.len, sub_x, sub_y, sub_z]
      congr 1; ring
    rw [imagePotential, e]
    ring
  obtain ⟨e1, e2⟩ := poles_agree (k := rho * I / (2 * Real.pi)) (l := rho' * I' / (2 * Real.pi)) (by positivity) hl hl' off
    (fun x y hx => by
      have e := heq x y (off x y hx).1 (off x y hx).2
      rw [pointHalf_potential _ _ _ _ _ hs, pointHalf_potential _ _ _ _ _ ht, if_pos le_rfl, if_pos le_rfl] at e
      rw [← form, ← form]
      exact Except.ok.inj e)
  exact ⟨(div_left_inj' (by positivity)).mp e1, e2⟩

/-- **Only the product of current and resistivity is seen by the potential and the electric field**, and the current density does not
depend on the resistivity. -/
theorem PointHalf.indistinguishable {mu0 rho I mu0' rho' I' : ℝ} {l : V3 ℝ} {s t : PointHalf}
    (hs : PointHalf.new mu0 rho I l = .ok s) (ht : PointHalf.new mu0' rho' I' l = .ok t) :
    (rho * I = rho' * I' → s.potential = t.potential ∧ s.electricField = t.electricField) ∧
      (I = I' → s.currentDensity = t.currentDensity) := by
  obtain ⟨hr, -, e1⟩ := pointHalf_new_eq hs
  obtain ⟨hr', -, e2⟩ := pointHalf_new_eq ht
  refine ⟨fun h => ⟨?_, ?_⟩, ?_⟩
  · funext p
    rw [pointHalf_potential _ _ _ _ _ hs, pointHalf_potential _ _ _ _ _ ht, imagePotential, imagePotential, h]
  · funext p
    rw [pointHalf_electricField _ _ _ _ _ hs, pointHalf_electricField _ _ _ _ _ ht, imageField, imageField, h]
  · rintro rfl
    funext p
    have h1 : s.rho = rho := by rw [e1]
    have h2 : t.rho = rho' := by rw [e2]
    simp only [PointHalf.currentDensity, pointHalf_electricField _ _ _ _ _ hs, pointHalf_electricField _ _ _ _ _ ht]
    split
    · simp only [bind, Except.bind, pure, Except.pure, h1, h2, imageField, poleField]
      congr 1
      ext <;> simp only [add_x, add_y, add_z, map_x, map_y, map_z] <;> field_simp
    · rfl

/-! ## Spheres in a uniform field -/

/-- **Conducting spheres with the same product of contrast factor and cubed radius have the same potential outside.** -/
theorem Electro.indistinguishable (s t : Sphere.Electro) (hl : s.location = t.location) (he : s.primaryField = t.primaryField)
    (hk : (s.sigmaSphere - s.sigmaBackground) / (s.sigmaSphere + 2 * s.sigmaBackground) * s.radius ^ 3 =
      (t.sigmaSphere - t.sigmaBackground) / (t.sigmaSphere + 2 * t.sigmaBackground) * t.radius ^ 3)
    (field : String) (p : V3 ℝ) (hs : s.radius < (p - s.location).len) (ht : t.radius < (p - t.location).len) :
    s.potential p field = t.potential p field := by
  rw [hl] at hs
  simp only [Sphere.Electro.potential, Sphere.Electro.potentialTotal, Sphere.Electro.potentialPrimary, gt_iff_lt, hl, hs, ht, if_true, he, hk]

/-- **Permeable spheres with the same product of contrast factor and cubed radius have the same potential outside.** -/
theorem Magneto.indistinguishable (s t : Sphere.Magneto) (hl : s.location = t.location) (he : s.primaryField = t.primaryField)
    (hk : (s.muSphere - s.muBackground) / (s.muSphere + 2 * s.muBackground) * s.radius ^ 3 =
      (t.muSphere - t.muBackground) / (t.muSphere + 2 * t.muBackground) * t.radius ^ 3)
    (field : String) (p : V3 ℝ) (hs : s.radius < (p - s.location).len) (ht : t.radius < (p - t.location).len) :
    s.potential p field = t.potential p field := by
  rw [hl] at hs
  simp only [Sphere.Magneto.potential, Sphere.Magneto.potentialTotal, Sphere.Magneto.potentialPrimary, gt_iff_lt, hl, hs, ht, if_true, he, hk]

/-- The electric fields of two such spheres, as computed, differ outside both: the exact fields agree, because the potentials do. This is
a consequence of the wrong powers of radius and distance in `electric_field` (C35). -/
theorem Electro.fields_differ :
    let s : Sphere.Electro := ⟨1, 4, 1, ⟨1, 0, 0⟩, ⟨0, 0, 0⟩⟩
    let t : Sphere.Electro := ⟨2, 6 / 5, 1, ⟨1, 0, 0⟩, ⟨0, 0, 0⟩⟩
    (∀ p : V3 ℝ, 2 < p.len → s.potentialTotal p = t.potentialTotal p) ∧ (s.fieldTotal ⟨3, 0, 0⟩).x ≠ (t.fieldTotal ⟨3, 0, 0⟩).x := by
  have h0 : ∀ p : V3 ℝ, p - ⟨0, 0, 0⟩ = p := fun p => by ext <;> simp
  have h3 : (⟨3, 0, 0⟩ : V3 ℝ).len = 3 := by
    rw [V3.len, show ((3 : ℝ) ^ 2 + 0 ^ 2 + 0 ^ 2) = 3 ^ 2 by norm_num]
    exact Real.sqrt_sq (by norm_num)
  refine ⟨fun p hp => ?_, ?_⟩
  · have h1 : 1 < p.len := by linarith
    simp only [Sphere.Electro.potentialTotal, h0, gt_iff_lt, hp, h1, if_true]
    norm_num
  · simp only [Sphere.Electro.fieldTotal, h0, h3, gt_iff_lt, dot]
    norm_num

/-- The hypotheses are met: two different spheres with the same mass, and an electrode that can be built. -/
example : (0 : ℝ) + 1 < 5 ∧ (0 : ℝ) + 2 < 5 ∧ (1 : ℝ) ^ 3 * 8 = 2 ^ 3 * 1 ∧
    ∃ s, PointHalf.new 1 100 2 ⟨0, 0, -3⟩ = .ok s := by
  refine ⟨by norm_num, by norm_num, by norm_num, ?_⟩
  exact (pointHalf_new_iff _ _ _ _).2 ⟨by norm_num, by norm_num⟩

end Verif.Identify
