import Verif.Lemmas.Sensitivity
import Verif.Props.Work
import Verif.Props.FarField

/-!
# C149: what errors in the positions do

Only the difference of the positions of station and source enters the results, so a shift of the station stands for a shift of either.
-/

namespace Verif

open Real V3

namespace Gravity

/-- **C149.** A station that is shifted, or a point mass that is: potential and attraction change at most by these amounts. -/
theorem PointMass.sensitivity (m : PointMass) {p q : V3 ℝ} (hp : p ≠ m.location) (hq : q ≠ m.location) :
    |m.gravitationalPotential q - m.gravitationalPotential p| ≤
      G * |m.mass| * ((q - p).len / ((q - m.location).len * (p - m.location).len)) ∧
    (m.gravitationalField q - m.gravitationalField p).len ≤ G * |m.mass| * ((q - p).len *
      (1 / ((q - m.location).len ^ 2 * (p - m.location).len) + 1 / ((q - m.location).len * (p - m.location).len ^ 2))) := by
  have hg : 0 < G := by norm_num [G]
  have a0 : q - m.location ≠ 0 := sub_ne_zero.2 hq
  have b0 : p - m.location ≠ 0 := sub_ne_zero.2 hp
  have e0 : (q - m.location) - (p - m.location) = q - p := by abel
  have h1 := inv_diff a0 b0
  have h2 := newton_diff a0 b0
  rw [e0] at h1 h2
  constructor
  · have e : m.gravitationalPotential q - m.gravitationalPotential p = G * m.mass * (1 / (q - m.location).len - 1 / (p - m.location).len) := by
      simp only [PointMass.gravitationalPotential]; ring
    rw [e, abs_mul, abs_mul, abs_of_pos hg]
    gcongr
  · have e : m.gravitationalField q - m.gravitationalField p =
        (-(G * m.mass)) • ((1 / (q - m.location).len ^ 3) • (q - m.location) - (1 / (p - m.location).len ^ 3) • (p - m.location)) := by
      have := (len_pos a0).ne'
      have := (len_pos b0).ne'
      simp only [PointMass.gravitationalField]
      ext <;> simp only [sub_x, sub_y, sub_z, smul_x, smul_y, smul_z, smul_eq_mul, map_x, map_y, map_z] <;> field_simp <;> ring
    rw [e, len_smul, abs_neg, abs_mul, abs_of_pos hg]
    gcongr

/-- **C149.** A station anywhere outside, on or inside a sphere: the potential changes at most by the attraction at the surface times the shift,
the attraction by twice its mean gradient times the shift. -/
theorem Sphere.sensitivity (s : Sphere) (hR : 0 < s.radius) (p q : V3 ℝ) :
    |s.gravitationalPotential q - s.gravitationalPotential p| ≤ G * |s.mass| / s.radius ^ 2 * (q - p).len ∧
    (s.gravitationalField q - s.gravitationalField p).len ≤ 2 * (G * |s.mass| / s.radius ^ 3) * (q - p).len := by
  have hg : 0 < G := by norm_num [G]
  constructor
  · have hw := s.work_done hR [p, q] (by simp)
    simp only [work, List.getLast_cons_cons, List.getLast_singleton, List.head_cons, add_zero] at hw
    rw [← hw, along, ← norm_eq_abs]
    refine (intervalIntegral.norm_integral_le_of_norm_le_const (C := G * |s.mass| / s.radius ^ 2 * (q - p).len) fun t _ => ?_).trans (by simp)
    rw [s.field_max hR]
    generalize p + t • (q - p) - s.location = d
    have e : V3.app ((-G * (4 / 3 * π * s.radius ^ 3 * s.rho) / max d.len s.radius ^ 3) • d) (q - p) =
        -(G * s.mass) * (1 / max d.len s.radius ^ 3) * d.dot (q - p) := by
      simp only [V3.app, smul_x, smul_y, smul_z, smul_eq_mul, dot, Sphere.mass]; ring
    have hm : 0 < max d.len s.radius := lt_max_of_lt_right hR
    have hd : |d.dot (q - p)| ≤ d.len * (q - p).len := abs_le.2 ⟨by
      have := dot_le_len (-d) (q - p)
      rw [len_neg] at this
      have e2 : (-d).dot (q - p) = -d.dot (q - p) := by simp only [dot, neg_x, neg_y, neg_z]; ring
      linarith, dot_le_len _ _⟩
    rw [e, norm_eq_abs, abs_mul, abs_mul, abs_neg, abs_mul, abs_of_pos hg, abs_of_pos (by positivity : 0 < 1 / max d.len s.radius ^ 3)]
    have k : 1 / max d.len s.radius ^ 3 * d.len ≤ 1 / s.radius ^ 2 := by
      rw [div_mul_eq_mul_div, one_mul, div_le_div_iff₀ (by positivity) (by positivity), one_mul]
      calc d.len * s.radius ^ 2 ≤ max d.len s.radius * max d.len s.radius ^ 2 :=
            mul_le_mul (le_max_left _ _) (pow_le_pow_left₀ hR.le (le_max_right _ _) 2) (by positivity) hm.le
        _ = _ := by ring
    calc G * |s.mass| * (1 / max d.len s.radius ^ 3) * |d.dot (q - p)| ≤
          G * |s.mass| * (1 / max d.len s.radius ^ 3) * (d.len * (q - p).len) := by gcongr
      _ = G * |s.mass| * (1 / max d.len s.radius ^ 3 * d.len) * (q - p).len := by ring
      _ ≤ G * |s.mass| * (1 / s.radius ^ 2) * (q - p).len :=
          mul_le_mul_of_nonneg_right (mul_le_mul_of_nonneg_left k (by positivity)) (len_nonneg _)
      _ = _ := by ring
  · have h := ball_diff hR (q - s.location) (p - s.location)
    rw [show (q - s.location) - (p - s.location) = q - p by abel] at h
    have e : s.gravitationalField q - s.gravitationalField p = (-(G * s.mass)) • ((1 / max (q - s.location).len s.radius ^ 3) • (q - s.location) -
        (1 / max (p - s.location).len s.radius ^ 3) • (p - s.location)) := by
      rw [s.field_max hR, s.field_max hR]
      ext <;> simp only [sub_x, sub_y, sub_z, smul_x, smul_y, smul_z, smul_eq_mul, Sphere.mass] <;> ring
    rw [e, len_smul, abs_neg, abs_mul, abs_of_pos hg]
    calc G * |s.mass| * _ ≤ G * |s.mass| * (2 / s.radius ^ 3 * (q - p).len) := by gcongr
      _ = _ := by ring

/-- The factor two is needed: just outside the sphere along the radius. -/
theorem Sphere.sensitivity_sharp (s : Sphere) (hR : 0 < s.radius) (hm : s.mass ≠ 0) {k : ℝ}
    (hk : ∀ p q, (s.gravitationalField q - s.gravitationalField p).len ≤ k * (G * |s.mass| / s.radius ^ 3) * (q - p).len) : 2 ≤ k := by
  have hg : 0 < G := by norm_num [G]
  have hmp := abs_pos.2 hm
  by_contra hlt
  rw [not_le] at hlt
  -- from the surface out to `(1 + t) R`
  have step : ∀ t : ℝ, 0 < t → (2 + t) / (1 + t) ^ 2 ≤ k := by
    intro t ht
    have h := hk (s.location + s.radius • (⟨1, 0, 0⟩ : V3 ℝ)) (s.location + ((1 + t) * s.radius) • (⟨1, 0, 0⟩ : V3 ℝ))
    have ex : ∀ c : ℝ, 0 < c → ((s.location + c • (⟨1, 0, 0⟩ : V3 ℝ)) - s.location).len = c := fun c hc => by
      have : (s.location + c • (⟨1, 0, 0⟩ : V3 ℝ)) - s.location = c • (⟨1, 0, 0⟩ : V3 ℝ) := by abel
      rw [this, len_smul, abs_of_pos hc]
      simp [len]
    rw [s.field_max hR, s.field_max hR, ex _ hR, ex _ (by positivity), max_self, max_eq_left (by nlinarith)] at h
    have e1 : (-G * (4 / 3 * π * s.radius ^ 3 * s.rho) / ((1 + t) * s.radius) ^ 3) • ((s.location + ((1 + t) * s.radius) • (⟨1, 0, 0⟩ : V3 ℝ)) - s.location) -
        (-G * (4 / 3 * π * s.radius ^ 3 * s.rho) / s.radius ^ 3) • ((s.location + s.radius • (⟨1, 0, 0⟩ : V3 ℝ)) - s.location) =
        (G * s.mass / s.radius ^ 2 * (1 - 1 / (1 + t) ^ 2)) • (⟨1, 0, 0⟩ : V3 ℝ) := by
      have := hR.ne'
      have : 1 + t ≠ 0 := by positivity
      ext <;> simp only [sub_x, sub_y, sub_z, add_x, add_y, add_z, smul_x, smul_y, smul_z, smul_eq_mul, Sphere.mass] <;> field_simp <;> ring
    have e2 : (s.location + ((1 + t) * s.radius) • (⟨1, 0, 0⟩ : V3 ℝ)) - (s.location + s.radius • (⟨1, 0, 0⟩ : V3 ℝ)) = (t * s.radius) • (⟨1, 0, 0⟩ : V3 ℝ) := by
      ext <;> simp <;> ring
    have l1 : (⟨1, 0, 0⟩ : V3 ℝ).len = 1 := by simp [len]
    have t1 : 0 ≤ 1 - 1 / (1 + t) ^ 2 := by
      have : 1 / (1 + t) ^ 2 ≤ 1 := by rw [div_le_one (by positivity)]; nlinarith
      linarith
    rw [e1, e2, len_smul, len_smul, l1, mul_one, mul_one, abs_mul, abs_of_nonneg t1, abs_div, abs_mul, abs_of_pos hg, abs_of_pos (by positivity : 0 < s.radius ^ 2),
      abs_of_pos (by positivity : 0 < t * s.radius)] at h
    have e3 : G * |s.mass| / s.radius ^ 2 * (1 - 1 / (1 + t) ^ 2) = (G * |s.mass| / s.radius ^ 2 * t) * ((2 + t) / (1 + t) ^ 2) := by field_simp; ring
    have e4 : k * (G * |s.mass| / s.radius ^ 3) * (t * s.radius) = (G * |s.mass| / s.radius ^ 2 * t) * k := by field_simp
    rw [e3, e4] at h
    exact le_of_mul_le_mul_left h (by positivity)
  -- too small a factor fails at some small `t`
  have hlim : Filter.Tendsto (fun t : ℝ => (2 + t) / (1 + t) ^ 2) (nhdsWithin 0 (Set.Ioi 0)) (nhds 2) := by
    have : ContinuousAt (fun t : ℝ => (2 + t) / (1 + t) ^ 2) 0 := by
      refine ContinuousAt.div (by fun_prop) (by fun_prop) (by norm_num)
    have h2 := this.tendsto
    norm_num at h2
    exact h2.mono_left nhdsWithin_le_nhds
  have := le_of_tendsto hlim (Filter.eventually_of_mem self_mem_nhdsWithin fun t ht => step t ht)
  linarith

end Gravity

namespace Static

theorem mirror_far {l p : V3 ℝ} (hl : l.z ≤ 0) (hp : p.z ≤ 0) : (p - l).len ≤ (p - mirror l).len := by
  simp only [len, mirror, sub_x, sub_y, sub_z]
  apply sqrt_le_sqrt
  nlinarith [mul_nonneg_of_nonpos_of_nonpos hl hp]

/-- **C149.** An electrode in a halfspace: potential and electric field between two stations in the ground. -/
theorem PointHalf.sensitivity {mu0 rho current : ℝ} {location : V3 ℝ} {s : PointHalf} (hs : PointHalf.new mu0 rho current location = .ok s)
    {p q : V3 ℝ} (zp : p.z ≤ 0) (zq : q.z ≤ 0) (hp : p ≠ location) (hq : q ≠ location) :
    ∃ (v w : ℝ) (e f : V3 ℝ), s.potential p = .ok v ∧ s.potential q = .ok w ∧ s.electricField p = .ok e ∧ s.electricField q = .ok f ∧
      |w - v| ≤ rho * |current| / (2 * π) * ((q - p).len / ((q - location).len * (p - location).len)) ∧
      (f - e).len ≤ rho * |current| / (2 * π) * ((q - p).len *
        (1 / ((q - location).len ^ 2 * (p - location).len) + 1 / ((q - location).len * (p - location).len ^ 2))) := by
  obtain ⟨hrho, hz, -⟩ := pointHalf_new_eq hs
  have hV := pointHalf_potential mu0 rho current location s hs
  have hE := pointHalf_electricField mu0 rho current location s hs
  refine ⟨_, _, _, _, (hV p).trans (if_pos zp), (hV q).trans (if_pos zq), (hE p).trans (if_pos zp), (hE q).trans (if_pos zq), ?_, ?_⟩
  all_goals
    have a0 : q - location ≠ 0 := sub_ne_zero.2 hq
    have b0 : p - location ≠ 0 := sub_ne_zero.2 hp
    have c0 : q - mirror location ≠ 0 := sub_ne_zero.2 (ne_mirror hz zq hq)
    have d0 : p - mirror location ≠ 0 := sub_ne_zero.2 (ne_mirror hz zp hp)
    have pa := len_pos a0
    have pb := len_pos b0
    have ac := mirror_far hz zq
    have bd := mirror_far hz zp
    have ea : (q - location) - (p - location) = q - p := by abel
    have ec : (q - mirror location) - (p - mirror location) = q - p := by abel
    have hk : 0 < rho / (4 * π) := by positivity
  · have h1 := inv_diff a0 b0
    have h2 := inv_diff c0 d0
    rw [ea] at h1
    rw [ec] at h2
    have h3 : (q - p).len / ((q - mirror location).len * (p - mirror location).len) ≤ (q - p).len / ((q - location).len * (p - location).len) := by
      have := len_nonneg (q - p)
      have := len_nonneg (q - mirror location)
      gcongr
    have e : imagePotential rho current location q - imagePotential rho current location p = rho / (4 * π) * current *
        ((1 / (q - location).len - 1 / (p - location).len) + (1 / (q - mirror location).len - 1 / (p - mirror location).len)) := by
      simp only [imagePotential, mirror]; ring
    rw [e, abs_mul, abs_mul, abs_of_pos hk]
    have h4 := (abs_add_le (1 / (q - location).len - 1 / (p - location).len) (1 / (q - mirror location).len - 1 / (p - mirror location).len)).trans
      (add_le_add h1 (h2.trans h3))
    calc rho / (4 * π) * |current| * _ ≤ rho / (4 * π) * |current| * ((q - p).len / ((q - location).len * (p - location).len) +
          (q - p).len / ((q - location).len * (p - location).len)) := by gcongr
      _ = _ := by ring
  · have h1 := newton_diff a0 b0
    have h2 := newton_diff c0 d0
    rw [ea] at h1
    rw [ec] at h2
    have h3 : (q - p).len * (1 / ((q - mirror location).len ^ 2 * (p - mirror location).len) + 1 / ((q - mirror location).len * (p - mirror location).len ^ 2)) ≤
        (q - p).len * (1 / ((q - location).len ^ 2 * (p - location).len) + 1 / ((q - location).len * (p - location).len ^ 2)) := by
      have := len_nonneg (q - p)
      have := len_nonneg (q - mirror location)
      gcongr
    have e : imageField rho current location q - imageField rho current location p = (rho / (4 * π) * current) •
        (((1 / (q - location).len ^ 3) • (q - location) - (1 / (p - location).len ^ 3) • (p - location)) +
         ((1 / (q - mirror location).len ^ 3) • (q - mirror location) - (1 / (p - mirror location).len ^ 3) • (p - mirror location))) := by
      simp only [imageField, poleField]
      ext <;> simp <;> ring
    rw [e, len_smul, abs_mul, abs_of_pos hk]
    have h4 := (len_add_le ((1 / (q - location).len ^ 3) • (q - location) - (1 / (p - location).len ^ 3) • (p - location))
      ((1 / (q - mirror location).len ^ 3) • (q - mirror location) - (1 / (p - mirror location).len ^ 3) • (p - mirror location))).trans
      (add_le_add h1 (h2.trans h3))
    calc rho / (4 * π) * |current| * _ ≤ rho / (4 * π) * |current| * (_ + _) := by gcongr
      _ = _ := by ring

/-- **C149.** A magnetic pole. -/
theorem MagDipole.pole_sensitivity (s : MagDipole) {p q : V3 ℝ} (hp : p ≠ s.location) (hq : q ≠ s.location) :
    (s.poleFluxDensity q - s.poleFluxDensity p).len ≤ |s.moment * s.mu| / (4 * π) * ((q - p).len *
      (1 / ((q - s.location).len ^ 2 * (p - s.location).len) + 1 / ((q - s.location).len * (p - s.location).len ^ 2))) := by
  have a0 : q - s.location ≠ 0 := sub_ne_zero.2 hq
  have b0 : p - s.location ≠ 0 := sub_ne_zero.2 hp
  have h2 := newton_diff a0 b0
  rw [show (q - s.location) - (p - s.location) = q - p by abel] at h2
  have e : s.poleFluxDensity q - s.poleFluxDensity p = (s.moment * s.mu / (4 * π)) •
      ((1 / (q - s.location).len ^ 3) • (q - s.location) - (1 / (p - s.location).len ^ 3) • (p - s.location)) := by
    have := (len_pos a0).ne'
    have := (len_pos b0).ne'
    have := pi_pos.ne'
    simp only [MagDipole.poleFluxDensity]
    ext <;> simp only [sub_x, sub_y, sub_z, smul_x, smul_y, smul_z, smul_eq_mul, map_x, map_y, map_z] <;> field_simp
  rw [e, len_smul, abs_div, abs_of_pos (by positivity : 0 < 4 * π)]
  gcongr

/-- **C149.** A magnetic dipole: each component between two places at least `r` away from it. -/
theorem MagDipole.sensitivity (s : MagDipole) {p q : V3 ℝ} {r : ℝ} (hr : 0 < r) (hp : r ≤ (p - s.location).len) (hq : r ≤ (q - s.location).len) :
    let k := |s.moment * s.mu| / (4 * π) * (|s.orientation.x| + |s.orientation.y| + |s.orientation.z|)
    |(s.magneticFluxDensity q).x - (s.magneticFluxDensity p).x| ≤ k * (24 * (q - p).len / r ^ 4) ∧
    |(s.magneticFluxDensity q).y - (s.magneticFluxDensity p).y| ≤ k * (24 * (q - p).len / r ^ 4) ∧
    |(s.magneticFluxDensity q).z - (s.magneticFluxDensity p).z| ≤ k * (24 * (q - p).len / r ^ 4) := by
  intro k
  have n : FarField.Near (q - s.location) (p - s.location) r (q - p).len :=
    ⟨hr, hq, hp, by rw [show (q - s.location) - (p - s.location) = q - p by abel]⟩
  have key : ∀ {u : V3 ℝ}, r ≤ (u - s.location).len → s.magneticFluxDensity u =
      (s.moment * s.mu / (4 * π)) • (Prism.tidal (u - s.location)).mulVec s.orientation := by
    intro u hu
    have h0 := (hr.trans_le hu).ne'
    have hpi := pi_pos.ne'
    simp only [MagDipole.magneticFluxDensity, Prism.tidal, M3.mulVec]
    generalize (u - s.location).len = l at *
    ext <;> simp only [smul_x, smul_y, smul_z, smul_eq_mul, dot, map_x, map_y, map_z] <;> field_simp <;> ring
  obtain ⟨⟨xx, xy, xz⟩, ⟨yx, yy, yz⟩, zx, zy, zz⟩ := Prism.tidal_near n
  rw [key hq, key hp]
  have row : ∀ {a b c a' b' c' e : ℝ}, |a - a'| ≤ e → |b - b'| ≤ e → |c - c'| ≤ e →
      |s.moment * s.mu / (4 * π) * (a * s.orientation.x + b * s.orientation.y + c * s.orientation.z) -
        s.moment * s.mu / (4 * π) * (a' * s.orientation.x + b' * s.orientation.y + c' * s.orientation.z)| ≤ k * e := by
    intro a b c a' b' c' e h1 h2 h3
    have e1 : s.moment * s.mu / (4 * π) * (a * s.orientation.x + b * s.orientation.y + c * s.orientation.z) -
        s.moment * s.mu / (4 * π) * (a' * s.orientation.x + b' * s.orientation.y + c' * s.orientation.z) =
        s.moment * s.mu / (4 * π) * ((a - a') * s.orientation.x + (b - b') * s.orientation.y + (c - c') * s.orientation.z) := by ring
    have t := abs_add_three ((a - a') * s.orientation.x) ((b - b') * s.orientation.y) ((c - c') * s.orientation.z)
    simp only [abs_mul (_ - _)] at t
    have k1 := mul_le_mul_of_nonneg_right h1 (abs_nonneg s.orientation.x)
    have k2 := mul_le_mul_of_nonneg_right h2 (abs_nonneg s.orientation.y)
    have k3 := mul_le_mul_of_nonneg_right h3 (abs_nonneg s.orientation.z)
    rw [e1, abs_mul, abs_div, abs_of_pos (by positivity : 0 < 4 * π)]
    have hk : 0 ≤ |s.moment * s.mu| / (4 * π) := by positivity
    calc |s.moment * s.mu| / (4 * π) * _ ≤ |s.moment * s.mu| / (4 * π) * (e * |s.orientation.x| + e * |s.orientation.y| + e * |s.orientation.z|) :=
          mul_le_mul_of_nonneg_left (by linarith) hk
      _ = _ := by simp only [k]; ring
  simp only [smul_x, smul_y, smul_z, smul_eq_mul, M3.mulVec, dot]
  exact ⟨row xx xy xz, row yx yy yz, row zx zy zz⟩

end Static

/-! ### Non-vacuity -/

/-- A ball of radius 2: stations inside and outside. -/
example : |(⟨2, 1, 0⟩ : Gravity.Sphere).gravitationalPotential ⟨3, 0, 0⟩ - (⟨2, 1, 0⟩ : Gravity.Sphere).gravitationalPotential ⟨1, 0, 0⟩| ≤
    Gravity.G * |(⟨2, 1, 0⟩ : Gravity.Sphere).mass| / 2 ^ 2 * ((⟨3, 0, 0⟩ : V3 ℝ) - ⟨1, 0, 0⟩).len :=
  (Gravity.Sphere.sensitivity ⟨2, 1, 0⟩ (by norm_num) ⟨1, 0, 0⟩ ⟨3, 0, 0⟩).1

/-- An electrode two metres deep and two stations on the ground. -/
example : ∃ s, Static.PointHalf.new 1 100 1 ⟨0, 0, -2⟩ = .ok s ∧ ((⟨1, 0, 0⟩ : V3 ℝ) ≠ ⟨0, 0, -2⟩) ∧ (⟨1, 0, 0⟩ : V3 ℝ).z ≤ 0 := by
  obtain ⟨s, hs⟩ := (Static.pointHalf_new_iff 1 100 1 ⟨0, 0, -2⟩).2 ⟨by norm_num, by norm_num⟩
  exact ⟨s, hs, by simp, by norm_num⟩

end Verif
