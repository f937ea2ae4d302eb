import Verif.Model.StaticHalfspace
import Verif.Props.LineCurrent

/-! # C32, C34: point and dipole current sources in a halfspace -/

namespace Verif.Static

open V3

/-- The potential of a source and its mirror image in a medium of resistivity `rho` (specification). -/
noncomputable def imagePotential (rho current : ℝ) (s q : V3 ℝ) : ℝ :=
  rho * current / (4 * Real.pi) / (q - s).len + rho * current / (4 * Real.pi) / (q - ⟨s.x, s.y, -s.z⟩).len

/-- **C32.** Construction succeeds exactly for positive resistivity and a source at or below the surface. -/
theorem pointHalf_new_iff (mu0 rho current : ℝ) (location : V3 ℝ) :
    (∃ s, PointHalf.new mu0 rho current location = .ok s) ↔ 0 < rho ∧ location.z ≤ 0 := by
  unfold PointHalf.new
  constructor
  · rintro ⟨s, h⟩
    split at h
    · simp at h
    · split at h
      · simp at h
      · split at h
        · simp at h
        · rename_i h1 h2 h3
          exact ⟨by
            rw [not_le, one_div, inv_pos] at h2; exact h2, not_lt.1 h3⟩
  · rintro ⟨h1, h2⟩
    have h3 : ¬ (1 / rho ≤ 0) := not_le.2 (by positivity)
    rw [if_neg h1.ne', if_neg h3, if_neg (not_lt.2 h2)]
    exact ⟨_, rfl⟩

theorem pointHalf_new_eq {mu0 rho current : ℝ} {location : V3 ℝ} {s : PointHalf}
    (h : PointHalf.new mu0 rho current location = .ok s) :
    0 < rho ∧ location.z ≤ 0 ∧ s = ⟨rho, current, location, pointCurrent mu0 rho current location,
      pointCurrent mu0 rho current (mirror location)⟩ := by
  obtain ⟨h1, h2⟩ := (pointHalf_new_iff mu0 rho current location).1 ⟨s, h⟩
  have h3 : ¬ (1 / rho ≤ 0) := not_le.2 (by positivity)
  unfold PointHalf.new at h
  rw [if_neg h1.ne', if_neg h3, if_neg (not_lt.2 h2)] at h
  exact ⟨h1, h2, (Except.ok.inj h).symm⟩

/-- **C32.** The potential is that of the source plus that of its mirror image, at every point at or below the surface;
points above are rejected. -/
theorem pointHalf_potential (mu0 rho current : ℝ) (location : V3 ℝ) (s : PointHalf)
    (h : PointHalf.new mu0 rho current location = .ok s) (q : V3 ℝ) :
    s.potential q = if q.z ≤ 0 then .ok (imagePotential rho current location q) else .error .valueError := by
  obtain ⟨h1, h2, rfl⟩ := pointHalf_new_eq h
  have hr := h1.ne'
  by_cases hq : q.z ≤ 0
  · simp only [PointHalf.potential, if_neg (not_lt.2 hq), gt_iff_lt, if_pos hq, pointPotential]
    rw [line_point _ location rfl q, line_point _ (mirror location) rfl q]
    simp only [bind, Except.bind, pure, Except.pure, pointCurrent, imagePotential, mirror]
    congr 1
    simp only [div_eq_mul_inv, mul_inv, inv_inv, one_mul]
    ring
  · simp only [PointHalf.potential, if_pos (not_le.1 hq), gt_iff_lt, if_neg hq]

/-- The field of the two sources (helper). -/
noncomputable def imageField (rho current : ℝ) (s q : V3 ℝ) : V3 ℝ :=
  poleField (rho * current / (4 * Real.pi)) s q + poleField (rho * current / (4 * Real.pi)) (mirror s) q

theorem pointHalf_electricField (mu0 rho current : ℝ) (location : V3 ℝ) (s : PointHalf)
    (h : PointHalf.new mu0 rho current location = .ok s) (q : V3 ℝ) :
    s.electricField q = if q.z ≤ 0 then .ok (imageField rho current location q) else .error .valueError := by
  obtain ⟨h1, h2, rfl⟩ := pointHalf_new_eq h
  have hr := h1.ne'
  by_cases hq : q.z ≤ 0
  · simp only [PointHalf.electricField, if_neg (not_lt.2 hq), gt_iff_lt, if_pos hq, pointElectricField,
      LineCurrent.electricField, pointCurrent, bind, Except.bind, pure, Except.pure, imageField, poleField]
    congr 1
    ext <;> simp only [add_x, add_y, add_z, map_x, map_y, map_z, div_eq_mul_inv, mul_inv, inv_inv, one_mul] <;>
      ring
  · simp only [PointHalf.electricField, if_pos (not_le.1 hq), gt_iff_lt, if_neg hq]

/-- A source at or below the surface and a point at or below it: the image is met only at a source on the surface. -/
theorem ne_mirror {l q : V3 ℝ} (hl : l.z ≤ 0) (hq : q.z ≤ 0) (h : q ≠ l) : q ≠ mirror l := by
  rintro rfl
  apply h
  simp only [mirror] at hq ⊢
  ext <;> simp
  linarith

/-- **C32.** At every point at or below the surface, off the source, the electric field is minus the gradient of the
potential; the current density is the field over the resistivity; and on the surface the
vertical component vanishes. -/
theorem pointHalf_field (mu0 rho current : ℝ) (location : V3 ℝ) (s : PointHalf)
    (h : PointHalf.new mu0 rho current location = .ok s) (p : V3 ℝ) (hz : p.z ≤ 0) (hp : p ≠ location) :
    ∃ E : V3 ℝ, s.electricField p = .ok E ∧
      HasGrad (imagePotential rho current location) (-E) p ∧
      s.currentDensity p = .ok (rho⁻¹ • E) ∧
      (p.z = 0 → E.z = 0) := by
  obtain ⟨h1, h2, hs⟩ := pointHalf_new_eq h
  refine ⟨imageField rho current location p, ?_, ?_, ?_, ?_⟩
  · rw [pointHalf_electricField mu0 rho current location s h p, if_pos hz]
  · have g := (pole_grad (rho * current / (4 * Real.pi)) location p hp).add
      (pole_grad (rho * current / (4 * Real.pi)) (mirror location) p (ne_mirror h2 hz hp))
    refine HasGrad.congr (f := imagePotential rho current location) g ?_
    rw [imageField, neg_add]
  · have hE := pointHalf_electricField mu0 rho current location s h p
    rw [if_pos hz] at hE
    have hr : s.rho = rho := by rw [hs]
    simp only [PointHalf.currentDensity, hE, bind, Except.bind, pure, Except.pure, hr]
    congr 1
    ext <;> simp [div_eq_inv_mul]
  · intro h0
    have e : (p - mirror location).len = (p - location).len := by
      simp only [V3.len, mirror, sub_x, sub_y, sub_z, h0]
      congr 1; ring
    simp only [imageField, poleField, add_z, map_z]
    rw [e]
    simp only [sub_z, mirror, h0]
    ring

/-- **C32.** No current is created off the source: the electric field (and with it the current density) has zero
divergence at every point at or below the surface. -/
theorem pointHalf_div_free (mu0 rho current : ℝ) (location : V3 ℝ) (s : PointHalf)
    (h : PointHalf.new mu0 rho current location = .ok s) (p : V3 ℝ) (hz : p.z ≤ 0) (hp : p ≠ location) :
    ∃ E : V3 ℝ → V3 ℝ, (∀ q, q.z ≤ 0 → s.electricField q = .ok (E q)) ∧ HasDiv E 0 p := by
  obtain ⟨h1, h2, -⟩ := pointHalf_new_eq h
  obtain ⟨J, ⟨a, b, c⟩, ht, -⟩ := pole_div_curl (rho * current / (4 * Real.pi)) location p hp
  obtain ⟨K, ⟨a', b', c'⟩, ht', -⟩ := pole_div_curl (rho * current / (4 * Real.pi)) (mirror location) p
    (ne_mirror h2 hz hp)
  refine ⟨imageField rho current location, fun q hq => ?_, J + K, ⟨a.add a', b.add b', c.add c'⟩, ?_⟩
  · rw [pointHalf_electricField mu0 rho current location s h q, if_pos hq]
  · simp only [M3.trace, add_x, add_y, add_z] at ht ht' ⊢
    linear_combination ht + ht'

/-- **C32.** Points above the surface are rejected by every method. -/
theorem pointHalf_above (mu0 rho current : ℝ) (location : V3 ℝ) (s : PointHalf)
    (h : PointHalf.new mu0 rho current location = .ok s) (p : V3 ℝ) (hz : 0 < p.z) :
    s.potential p = .error .valueError ∧ s.electricField p = .error .valueError ∧
      s.currentDensity p = .error .valueError := by
  have h1 := pointHalf_electricField mu0 rho current location s h p
  have h2 := pointHalf_potential mu0 rho current location s h p
  rw [if_neg (not_le.2 hz)] at h1 h2
  exact ⟨h2, h1, by simp [PointHalf.currentDensity, h1, bind, Except.bind]⟩

/-- **C32.** The size: for a source on the surface the potential is `rho I / (2 π r)`. -/
theorem pointHalf_surface_source (rho current : ℝ) (location q : V3 ℝ) (h0 : location.z = 0) :
    imagePotential rho current location q = rho * current / (2 * Real.pi * (q - location).len) := by
  have e : (⟨location.x, location.y, -location.z⟩ : V3 ℝ) = location := by ext <;> simp [h0]
  rw [imagePotential, e]
  field_simp
  ring

/-- The point source in a whole space: potential `rho I / (4 π r)`, field minus its gradient, current density
`E / rho`. -/
theorem pointCurrent_spec (mu0 rho current : ℝ) (location p : V3 ℝ) (hp : p ≠ location) :
    (∀ q, pointPotential (pointCurrent mu0 rho current location) q =
      .ok (rho * current / (4 * Real.pi) / (q - location).len)) ∧
    ∃ E, pointElectricField (pointCurrent mu0 rho current location) p = .ok E ∧
      HasGrad (fun q => rho * current / (4 * Real.pi) / (q - location).len) (-E) p ∧
      pointCurrentDensity (pointCurrent mu0 rho current location) p = .ok (rho⁻¹ • E) := by
  have hE : pointElectricField (pointCurrent mu0 rho current location) p =
      .ok (poleField (rho * current / (4 * Real.pi)) location p) := by
    simp only [pointElectricField, LineCurrent.electricField, pointCurrent, poleField]
    congr 1
    ext <;> simp only [map_x, map_y, map_z, div_eq_mul_inv, mul_inv, inv_inv, one_mul] <;> ring
  refine ⟨fun q => ?_, _, hE, pole_grad _ _ _ hp, ?_⟩
  · rw [pointPotential, line_point _ location rfl q]
    congr 1
    simp only [pointCurrent, div_eq_mul_inv, mul_inv, inv_inv, one_mul]
    ring
  · rw [pointCurrentDensity, line_current_density _ p _ hE]
    simp only [pointCurrent, one_div]

/-- Non-vacuity. -/
example : ∃ s, PointHalf.new 1 100 1 ⟨0, 0, -1⟩ = .ok s :=
  (pointHalf_new_iff 1 100 1 ⟨0, 0, -1⟩).2 ⟨by norm_num, by norm_num⟩

/-! ## C34 -/

theorem dipoleHalf_new_eq {mu0 rho current : ℝ} {a b : V3 ℝ} {d : DipoleHalf}
    (h : DipoleHalf.new mu0 rho a b current = .ok d) :
    PointHalf.new mu0 rho current a = .ok d.a ∧ PointHalf.new mu0 rho current b = .ok d.b ∧
      d.rho = rho ∧ d.current = current ∧ d.locationA = a ∧ d.locationB = b := by
  simp only [DipoleHalf.new, bind, Except.bind, pure, Except.pure] at h
  cases h1 : PointHalf.new mu0 rho current a with
  | error e => simp [h1] at h
  | ok sa =>
    cases h2 : PointHalf.new mu0 rho current b with
    | error e => simp [h1, h2] at h
    | ok sb =>
      simp only [h1, h2, Except.ok.injEq] at h
      subst h
      simp

/-- The two-electrode potential difference. -/
noncomputable def dcVoltage (rho current : ℝ) (a b m n : V3 ℝ) : ℝ :=
  (imagePotential rho current a m - imagePotential rho current b m) -
    (imagePotential rho current a n - imagePotential rho current b n)

/-- **C34.** The value of the potential, with one and with two potential electrodes, for every pair of accepted
points. -/
theorem dipoleHalf_potential (mu0 rho current : ℝ) (a b : V3 ℝ) (d : DipoleHalf)
    (h : DipoleHalf.new mu0 rho a b current = .ok d) (m n : V3 ℝ) (hm : m.z ≤ 0) (hn : n.z ≤ 0) :
    d.potential m none = .ok (imagePotential rho current a m - imagePotential rho current b m) ∧
    d.potential m (some n) = .ok (dcVoltage rho current a b m n) := by
  obtain ⟨h1, h2, -⟩ := dipoleHalf_new_eq h
  have ham := pointHalf_potential mu0 rho current a d.a h1 m
  have han := pointHalf_potential mu0 rho current a d.a h1 n
  have hbm := pointHalf_potential mu0 rho current b d.b h2 m
  have hbn := pointHalf_potential mu0 rho current b d.b h2 n
  rw [if_pos hm] at ham hbm
  rw [if_pos hn] at han hbn
  constructor
  · simp only [DipoleHalf.potential, gt_iff_lt, if_neg (not_lt.2 hm), ham, hbm, bind, Except.bind, pure,
      Except.pure]
  · simp only [DipoleHalf.potential, gt_iff_lt, if_neg (not_lt.2 hm), if_neg (not_lt.2 hn), ham, hbm, han, hbn,
      bind, Except.bind, pure, Except.pure, dcVoltage]

/-- **C34.** Any potential electrode above the surface is rejected. -/
theorem dipoleHalf_above (d : DipoleHalf) (m n : V3 ℝ) :
    (0 < m.z → ∀ o, d.potential m o = .error .valueError ∧ d.electricField m o = .error .valueError) ∧
    (0 < n.z → d.potential m (some n) = .error .valueError ∧ d.electricField m (some n) = .error .valueError) := by
  constructor
  · intro h o
    simp [DipoleHalf.potential, DipoleHalf.electricField, h]
  · intro h
    by_cases hm : 0 < m.z <;> simp [DipoleHalf.potential, DipoleHalf.electricField, h, hm]

private theorem imagePotential_symm (rho current : ℝ) (a m : V3 ℝ) :
    imagePotential rho current a m = imagePotential rho current m a := by
  have e1 : (m - a).len = (a - m).len := by
    simp only [V3.len, sub_x, sub_y, sub_z]; congr 1; ring
  have e2 : (m - ⟨a.x, a.y, -a.z⟩).len = (a - ⟨m.x, m.y, -m.z⟩).len := by
    simp only [V3.len, sub_x, sub_y, sub_z]; congr 1; ring
  rw [imagePotential, imagePotential, e1, e2]

/-- **C34.** Reciprocity: exchanging the current and the potential electrodes leaves the measured voltage unchanged. -/
theorem dipoleHalf_reciprocity (mu0 rho current : ℝ) (a b m n : V3 ℝ) (d e : DipoleHalf)
    (h : DipoleHalf.new mu0 rho a b current = .ok d) (h' : DipoleHalf.new mu0 rho m n current = .ok e) :
    ∃ v, d.potential m (some n) = .ok v ∧ e.potential a (some b) = .ok v := by
  obtain ⟨h1, h2, -⟩ := dipoleHalf_new_eq h
  obtain ⟨h3, h4, -⟩ := dipoleHalf_new_eq h'
  obtain ⟨-, ha, -⟩ := pointHalf_new_eq h1
  obtain ⟨-, hb, -⟩ := pointHalf_new_eq h2
  obtain ⟨-, hm, -⟩ := pointHalf_new_eq h3
  obtain ⟨-, hn, -⟩ := pointHalf_new_eq h4
  refine ⟨_, (dipoleHalf_potential mu0 rho current a b d h m n hm hn).2, ?_⟩
  rw [(dipoleHalf_potential mu0 rho current m n e h' a b ha hb).2]
  congr 1
  simp only [dcVoltage]
  rw [imagePotential_symm _ _ m a, imagePotential_symm _ _ n a, imagePotential_symm _ _ m b,
    imagePotential_symm _ _ n b]
  ring

/-- **C34.** Swapping the current electrodes, or the potential electrodes, changes the sign. -/
theorem dipoleHalf_antisymm (mu0 rho current : ℝ) (a b m n : V3 ℝ) (d e : DipoleHalf)
    (h : DipoleHalf.new mu0 rho a b current = .ok d) (h' : DipoleHalf.new mu0 rho b a current = .ok e)
    (hm : m.z ≤ 0) (hn : n.z ≤ 0) :
    ∃ v, d.potential m (some n) = .ok v ∧ e.potential m (some n) = .ok (-v) ∧
      d.potential n (some m) = .ok (-v) := by
  refine ⟨_, (dipoleHalf_potential mu0 rho current a b d h m n hm hn).2, ?_, ?_⟩
  · rw [(dipoleHalf_potential mu0 rho current b a e h' m n hm hn).2]
    congr 1; simp only [dcVoltage]; ring
  · rw [(dipoleHalf_potential mu0 rho current a b d h n m hn hm).2]
    congr 1; simp only [dcVoltage]; ring

/-- **C34.** `potential(m) - potential(n) = potential(m, n)`. -/
theorem dipoleHalf_difference (mu0 rho current : ℝ) (a b m n : V3 ℝ) (d : DipoleHalf)
    (h : DipoleHalf.new mu0 rho a b current = .ok d) (hm : m.z ≤ 0) (hn : n.z ≤ 0) :
    ∃ vm vn, d.potential m none = .ok vm ∧ d.potential n none = .ok vn ∧
      d.potential m (some n) = .ok (vm - vn) :=
  ⟨_, _, (dipoleHalf_potential mu0 rho current a b d h m n hm hn).1,
    (dipoleHalf_potential mu0 rho current a b d h n m hn hm).1,
    (dipoleHalf_potential mu0 rho current a b d h m n hm hn).2⟩

/-- **C34.** The voltage is linear in the current and in the resistivity. -/
theorem dipoleHalf_linear (mu0 rho current c k : ℝ) (a b m n : V3 ℝ) (d e : DipoleHalf)
    (h : DipoleHalf.new mu0 rho a b current = .ok d)
    (h' : DipoleHalf.new mu0 (k * rho) a b (c * current) = .ok e) (hm : m.z ≤ 0) (hn : n.z ≤ 0) :
    ∃ v, d.potential m (some n) = .ok v ∧ e.potential m (some n) = .ok (k * c * v) := by
  refine ⟨_, (dipoleHalf_potential mu0 rho current a b d h m n hm hn).2, ?_⟩
  rw [(dipoleHalf_potential mu0 _ _ a b e h' m n hm hn).2]
  congr 1; simp only [dcVoltage, imagePotential]; ring

/-- **C32, C34.** The electric field of the pair is minus the gradient of its potential, off the electrodes; with a second
point it is the difference of the two fields, and the current density is the field over the resistivity. -/
theorem dipoleHalf_field (mu0 rho current : ℝ) (a b : V3 ℝ) (d : DipoleHalf)
    (h : DipoleHalf.new mu0 rho a b current = .ok d) (m n : V3 ℝ) (hm : m.z ≤ 0) (hn : n.z ≤ 0)
    (hma : m ≠ a) (hmb : m ≠ b) :
    ∃ E F : V3 ℝ, d.electricField m none = .ok E ∧ d.electricField n none = .ok F ∧
      d.electricField m (some n) = .ok (E - F) ∧
      HasGrad (fun q => imagePotential rho current a q - imagePotential rho current b q) (-E) m ∧
      d.currentDensity m none = .ok (rho⁻¹ • E) ∧ d.currentDensity m (some n) = .ok (rho⁻¹ • (E - F)) ∧
      (m.z = 0 → E.z = 0) := by
  obtain ⟨h1, h2, hr, -⟩ := dipoleHalf_new_eq h
  obtain ⟨Ea, ha1, ha2, -, ha4⟩ := pointHalf_field mu0 rho current a d.a h1 m hm hma
  obtain ⟨Eb, hb1, hb2, -, hb4⟩ := pointHalf_field mu0 rho current b d.b h2 m hm hmb
  have fa := pointHalf_electricField mu0 rho current a d.a h1 n
  have fb := pointHalf_electricField mu0 rho current b d.b h2 n
  rw [if_pos hn] at fa fb
  have e1 : d.electricField m none = .ok (Ea - Eb) := by
    simp only [DipoleHalf.electricField, gt_iff_lt, if_neg (not_lt.2 hm), ha1, hb1, bind, Except.bind, pure,
      Except.pure]
  have e3 : d.electricField m (some n) = .ok (Ea - Eb -
      (imageField rho current a n - imageField rho current b n)) := by
    simp only [DipoleHalf.electricField, gt_iff_lt, if_neg (not_lt.2 hm), if_neg (not_lt.2 hn), ha1, hb1, fa, fb,
      bind, Except.bind, pure, Except.pure]
  refine ⟨Ea - Eb, imageField rho current a n - imageField rho current b n, e1, ?_, e3, ?_, ?_, ?_, ?_⟩
  · simp only [DipoleHalf.electricField, gt_iff_lt, if_neg (not_lt.2 hn), fa, fb, bind, Except.bind, pure,
      Except.pure]
  · refine (ha2.sub hb2).congr ?_
    abel
  · simp only [DipoleHalf.currentDensity, e1, bind, Except.bind, pure, Except.pure, hr]
    congr 1
    ext <;> simp [div_eq_inv_mul]
  · simp only [DipoleHalf.currentDensity, e3, bind, Except.bind, pure, Except.pure, hr]
    congr 1
    ext <;> simp [div_eq_inv_mul]
  · intro h0
    rw [sub_z, ha4 h0, hb4 h0, sub_zero]

/-- Non-vacuity: four distinct electrodes on the surface. -/
example : ∃ d, DipoleHalf.new 1 100 ⟨-1, 0, 0⟩ ⟨1, 0, 0⟩ 2 = .ok d := by
  obtain ⟨s, hs⟩ := (pointHalf_new_iff 1 100 2 ⟨-1, 0, 0⟩).2 ⟨by norm_num, by norm_num⟩
  obtain ⟨t, ht⟩ := (pointHalf_new_iff 1 100 2 ⟨1, 0, 0⟩).2 ⟨by norm_num, by norm_num⟩
  exact ⟨_, by simp only [DipoleHalf.new, hs, ht, bind, Except.bind, pure, Except.pure]; rfl⟩

end Verif.Static
