import Verif.Lemmas.NearAxis
import Verif.Props.CircularLoop

/-!
# C161: close to the axis of a loop

In the region `rho² < 1e-6 (a² + z²)` a series replaces the elliptic integrals.  That of the flux density is accurate to ten digits; that of the
vector potential divides by `a² - 4 z²` where it has to multiply, and can be wrong by any amount.
-/

namespace Verif.Static

open Real Spatial NearAxis

namespace Loop

/-- The station is in the region where the series are used. -/
def CloseToAxis (s : Loop) (n q : V3 ℝ) : Prop :=
  (n.cross (q - s.location)).len ^ 2 < 1e-6 * (s.radius ^ 2 + n.dot (q - s.location) ^ 2)

variable {s : Loop}

theorem radial_len {n d : V3 ℝ} (hn : n.len = 1) : (d - n.dot d • n).len = axisDist n d := by
  have h : (d - n.dot d • n).len ^ 2 = axisDist n d ^ 2 := by
    rw [axisDist_sq hn, ← V3.dot_self, ← V3.dot_self]
    have h1 : n.dot n = 1 := by rw [V3.dot_self, hn]; norm_num
    have : (d - n.dot d • n).dot (d - n.dot d • n) = d.dot d - 2 * n.dot d ^ 2 + n.dot d ^ 2 * n.dot n := by
      simp only [V3.dot, V3.sub_x, V3.sub_y, V3.sub_z, V3.smul_x, V3.smul_y, V3.smul_z, smul_eq_mul]
      ring
    rw [this, h1]
    ring
  exact (pow_left_inj₀ (V3.len_nonneg _) (axisDist_nonneg _ _) two_ne_zero).1 h

theorem off_of_close {a rho z : ℝ} (ha : 0 < a) (hr : 0 ≤ rho) (h : rho ^ 2 < 1e-6 * (a ^ 2 + z ^ 2)) : (a - rho) ^ 2 + z ^ 2 ≠ 0 := by
  intro h0
  have h1 : a - rho = 0 := by nlinarith [sq_nonneg (a - rho), sq_nonneg z]
  have h2 : z = 0 := by nlinarith [sq_nonneg (a - rho), sq_nonneg z]
  rw [h2] at h
  nlinarith

/-- The integrals along the wire in closed form, close to the axis too. -/
theorem wire_closed (ha : 0 < s.radius) {e1 e2 : V3 ℝ} (he : CircularWire.IsFrame e1 e2 s.axis) (q : V3 ℝ)
    (hr : 0 < axisDist s.axis (q - s.location)) (hne : (s.radius - axisDist s.axis (q - s.location)) ^ 2 + s.axis.dot (q - s.location) ^ 2 ≠ 0) :
    (s.mu * s.current / (4 * π)) • CircularWire.potential s.location e1 e2 s.radius q = (s.mu * s.current / π) • freeA s.axis s.radius (q - s.location) ∧
    (s.mu * s.current / (4 * π)) • CircularWire.flux s.location e1 e2 s.radius q = (s.mu * s.current / π) • freeB s.axis s.radius (q - s.location) := by
  obtain ⟨u, w, hu, hw, -, i1, i2⟩ := CircularWire.wire_integrals (c := s.location) (q := q) he ha.le hne
  obtain ⟨l1, l2, l3⟩ := loop_integrals ha hr hne
  rw [i1, i2, freeA, freeB, ← hu, ← hw, ← l1, ← l2, ← l3]
  constructor
  · match_scalars; field_simp
  · match_scalars <;> field_simp

/-- **C161.** Close to the axis the flux density is defined.  It differs from the Biot–Savart integral by less than `2e-13` of the field on the axis at the
same height, only across the axis, and by less than `2e-10` of the part of the field that is across the axis. -/
theorem flux_close (hb : s.OffBand) (ha : 0 < s.radius) {e1 e2 : V3 ℝ} (he : CircularWire.IsFrame e1 e2 s.axis) (q : V3 ℝ)
    (hc : s.CloseToAxis s.axis q) :
    ∃ b B, s.magneticFluxDensity q = .ok (some b) ∧ B = (s.mu * s.current / (4 * π)) • CircularWire.flux s.location e1 e2 s.radius q ∧
      s.axis.dot b = s.axis.dot B ∧
      (b - B).len ≤ 2e-13 * (|s.mu * s.current| * s.radius ^ 2 / (2 * √(s.radius ^ 2 + s.axis.dot (q - s.location) ^ 2) ^ 3)) ∧
      (b - B).len ≤ 2e-10 * (B - s.axis.dot B • s.axis).len := by
  have hf := hb.frame
  have hn := hf.1
  have hn1 : s.axis.dot s.axis = 1 := by rw [V3.dot_self, hn]; norm_num
  rw [CloseToAxis, ← axisDist_sq_cross hn] at hc
  have hr := axisDist_nonneg s.axis (q - s.location)
  have hne := off_of_close ha hr hc
  have hax : s.OffWire s.axis q := (off_iff hn).2 hne
  obtain ⟨b, hbq, hbz⟩ := biot_savart_axial hb ha he q hax
  have hdot : ∀ (x : ℝ) (v : V3 ℝ), s.axis.dot (x • v) = x * s.axis.dot v := by intro x v; simp [V3.dot]; ring
  refine ⟨b, _, hbq, rfl, by rw [hdot]; exact hbz, ?_⟩
  rcases hr.lt_or_eq with hr | hr0
  · rw [(wire_closed ha he q hr hne).2]
    have hb2 : ¬ ((s.radius + axisDist s.axis (q - s.location)) ^ 2 + s.axis.dot (q - s.location) ^ 2 = 0 ∨
        (s.radius - axisDist s.axis (q - s.location)) ^ 2 + s.axis.dot (q - s.location) ^ 2 = 0) := by
      rintro (h1 | h1)
      · have : 0 < (s.radius + axisDist s.axis (q - s.location)) ^ 2 + s.axis.dot (q - s.location) ^ 2 := by positivity
        exact this.ne' h1
      · exact hne h1
    have hval := hbq
    rw [magneticFluxDensity, hf.2 _ _ (.inl hr)] at hval
    simp only [fluxRhoZ, if_neg hb2, if_pos ((smallRho_iff ha).2 hc), Option.map_some, Except.ok.injEq, Option.some.injEq, fromCyl, zero_div, zero_smul, add_zero] at hval
    obtain ⟨sc, near⟩ := exists_near ha hr hc.le
    have hrad := near.radial
    have hrel := near.relative
    obtain ⟨he0, -, hzT, hrT, -, -⟩ := near.le
    have hT := near.hT
    have hsm := near.small
    have hrl := radial_len (d := q - s.location) hn
    have herho := near.he
    set C := s.mu * s.current / π with hC
    set T := √(s.radius ^ 2 + s.axis.dot (q - s.location) ^ 2) with hTd
    set e := axisDist s.axis (q - s.location) ^ 2 / (s.radius ^ 2 + s.axis.dot (q - s.location) ^ 2) with hed
    set z := s.axis.dot (q - s.location) with hz
    set rho := axisDist s.axis (q - s.location) with hrho
    set code := 3 * π * s.radius ^ 2 * z * (rho / (4 * T ^ 5) + rho ^ 3 * (15 * s.radius ^ 2 - 20 * z ^ 2) / (32 * T ^ 9)) with hcode
    have hdiff : b - C • freeB s.axis s.radius (q - s.location) = (C * (code - loopBr s.radius rho z) / rho) • (q - s.location - z • s.axis) := by
      rw [← hval, freeB, hcode, loopBz]
      simp only [← hz, ← hrho]
      ext <;> simp only [V3.sub_x, V3.sub_y, V3.sub_z, V3.add_x, V3.add_y, V3.add_z, V3.smul_x, V3.smul_y, V3.smul_z, smul_eq_mul] <;> ring
    have hlen : (b - C • freeB s.axis s.radius (q - s.location)).len = |C| * |loopBr s.radius rho z - code| := by
      rw [hdiff, V3.len_smul, hrl, abs_div, abs_mul, abs_of_pos hr, div_mul_cancel₀ _ hr.ne', abs_sub_comm]
    have hrad2 : (C • freeB s.axis s.radius (q - s.location) - s.axis.dot (C • freeB s.axis s.radius (q - s.location)) • s.axis).len =
        |C| * |loopBr s.radius rho z| := by
      have h0 : s.axis.dot (q - s.location - z • s.axis) = 0 := by
        have : s.axis.dot (q - s.location - z • s.axis) = s.axis.dot (q - s.location) - z * s.axis.dot s.axis := by simp [V3.dot]; ring
        rw [this, hn1, ← hz]; ring
      have h1 : s.axis.dot (freeB s.axis s.radius (q - s.location)) = loopBz s.radius rho z := by
        rw [freeB]
        simp only [← hz, ← hrho]
        have : ∀ (x y : ℝ) (v : V3 ℝ), s.axis.dot (x • v + y • s.axis) = x * s.axis.dot v + y * s.axis.dot s.axis := by intro x y v; simp [V3.dot]; ring
        rw [this, h0, hn1]; ring
      rw [hdot, h1]
      have : C • freeB s.axis s.radius (q - s.location) - (C * loopBz s.radius rho z) • s.axis = (C * loopBr s.radius rho z / rho) • (q - s.location - z • s.axis) := by
        rw [freeB]
        simp only [← hz, ← hrho]
        ext <;> simp only [V3.sub_x, V3.sub_y, V3.sub_z, V3.add_x, V3.add_y, V3.add_z, V3.smul_x, V3.smul_y, V3.smul_z, smul_eq_mul] <;> ring
      rw [this, V3.len_smul, hrl, abs_div, abs_mul, abs_of_pos hr, div_mul_cancel₀ _ hr.ne']
    rw [hlen, hrad2]
    have he12 : e ^ 2 ≤ 1e-12 := by nlinarith
    constructor
    · have hCm : |C| * π = |s.mu * s.current| := by rw [hC, abs_div, abs_of_pos pi_pos]; field_simp
      have h1 : 120 * e ^ 2 * (3 * π * s.radius ^ 2 * |z| * rho / (4 * T ^ 5)) ≤ 90 * 1e-12 * (1 / 1000) * (π * s.radius ^ 2 / T ^ 3) := by
        have hzr : |z| * rho ≤ T * (T / 1000) := mul_le_mul hzT hrT hr.le hT.le
        have h2 : 120 * e ^ 2 * (3 * π * s.radius ^ 2 * |z| * rho / (4 * T ^ 5)) = 90 * (π * s.radius ^ 2 / T ^ 5) * (e ^ 2 * (|z| * rho)) := by ring
        have h3 : 90 * 1e-12 * (1 / 1000) * (π * s.radius ^ 2 / T ^ 3) = 90 * (π * s.radius ^ 2 / T ^ 5) * (1e-12 * (T * (T / 1000))) := by field_simp
        rw [h2, h3]
        refine mul_le_mul_of_nonneg_left ?_ (by positivity)
        exact mul_le_mul he12 hzr (by positivity) (by norm_num)
      have h4 := mul_le_mul_of_nonneg_left (hrad.trans h1) (abs_nonneg C)
      refine h4.trans (le_of_eq_of_le (show _ = 90 * 1e-12 * (1 / 1000) * ((|C| * π) * s.radius ^ 2 / T ^ 3) by ring) ?_)
      rw [hCm]
      have h5 : 0 ≤ |s.mu * s.current| * s.radius ^ 2 / T ^ 3 := by positivity
      have h6 : |s.mu * s.current| * s.radius ^ 2 / (2 * T ^ 3) = 1 / 2 * (|s.mu * s.current| * s.radius ^ 2 / T ^ 3) := by ring
      rw [h6]
      linarith
    · have h1 : 150 * e ^ 2 * |loopBr s.radius rho z| ≤ 2e-10 * |loopBr s.radius rho z| := mul_le_mul_of_nonneg_right (by linarith) (abs_nonneg _)
      have h2 := mul_le_mul_of_nonneg_left (hrel.trans h1) (abs_nonneg C)
      linarith
  · have hcr : s.axis.cross (q - s.location) = 0 := by
      rw [axisDist_eq_cross hn] at hr0
      exact V3.len_eq_zero.1 hr0.symm
    obtain ⟨u, w, -, -, -, -, i2⟩ := CircularWire.wire_integrals (c := s.location) (q := q) he ha.le hne
    have hz : (∫ t in (0 : ℝ)..(2 * π), cos t / √(wireDistSq s.radius (axisDist s.axis (q - s.location)) (s.axis.dot (q - s.location)) (cos t)) ^ 3) = 0 := by
      rw [← hr0]
      simp only [wireDistSq, mul_zero, zero_mul, sub_zero]
      rw [intervalIntegral.integral_div, integral_cos]
      simp
    rw [hz, mul_zero, zero_smul, zero_add] at i2
    have hb3 := axis_flux hb ha q hcr
    rw [hbq] at hb3
    simp only [Except.ok.injEq, Option.some.injEq] at hb3
    have : b - (s.mu * s.current / (4 * π)) • CircularWire.flux s.location e1 e2 s.radius q = 0 := by
      rw [hb3, i2] at hbz ⊢
      rw [hdot, hdot, hn1, mul_one, mul_one] at hbz
      rw [hbz, smul_smul, sub_self]
    rw [this, V3.len_eq_zero.2 rfl]
    exact ⟨by positivity, mul_nonneg (by norm_num) (V3.len_nonneg _)⟩

/-- The exact error of the vector potential close to the axis. -/
theorem potential_error (hb : s.OffBand) (ha : 0 < s.radius) {e1 e2 : V3 ℝ} (he : CircularWire.IsFrame e1 e2 s.axis) (q : V3 ℝ)
    (hc : s.CloseToAxis s.axis q) (hr : 0 < axisDist s.axis (q - s.location)) (hz : s.radius ^ 2 - 4 * s.axis.dot (q - s.location) ^ 2 ≠ 0) :
    ∃ A, s.vectorPotential q = .ok (some A) ∧
      (A - (s.mu * s.current / (4 * π)) • CircularWire.potential s.location e1 e2 s.radius q).len = |s.mu * s.current / π| *
        |π * s.radius ^ 2 * axisDist s.axis (q - s.location) / (4 * √(s.radius ^ 2 + s.axis.dot (q - s.location) ^ 2) ^ 3) *
          (1 + 3 * axisDist s.axis (q - s.location) ^ 2 / (8 * (s.radius ^ 2 - 4 * s.axis.dot (q - s.location) ^ 2) *
            √(s.radius ^ 2 + s.axis.dot (q - s.location) ^ 2) ^ 4)) -
          loopA s.radius (axisDist s.axis (q - s.location)) (s.axis.dot (q - s.location))| := by
  have hf := hb.frame
  have hn := hf.1
  rw [CloseToAxis, ← axisDist_sq_cross hn] at hc
  have hne := off_of_close ha hr.le hc
  rw [(wire_closed ha he q hr hne).1]
  refine ⟨_, by
    rw [vectorPotential, hf.2 _ _ (.inl hr)]
    simp only [potentialPhi, if_pos ((smallRho_iff ha).2 hc), if_neg hz, Option.map_some]
    rfl, ?_⟩
  have hT : 0 < √(s.radius ^ 2 + s.axis.dot (q - s.location) ^ 2) := sqrt_pos.2 (by positivity)
  have hcl := axisDist_eq_cross hn (q - s.location)
  rw [freeA]
  set C := s.mu * s.current / π with hC
  set T := √(s.radius ^ 2 + s.axis.dot (q - s.location) ^ 2) with hTd
  set z := s.axis.dot (q - s.location) with hzd
  set rho := axisDist s.axis (q - s.location) with hrho
  have : ∀ x y : ℝ, x = y → (fromCyl s.axis (q - s.location) ⟨0, C * y, 0⟩ - C • ((loopA s.radius rho z / rho) • s.axis.cross (q - s.location))).len =
      |C| * |x - loopA s.radius rho z| := by
    rintro x y rfl
    have h1 : fromCyl s.axis (q - s.location) ⟨0, C * x, 0⟩ - C • ((loopA s.radius rho z / rho) • s.axis.cross (q - s.location)) =
        (C * (x - loopA s.radius rho z) / rho) • s.axis.cross (q - s.location) := by
      simp only [fromCyl, ← hzd, ← hrho]
      ext <;> simp only [V3.sub_x, V3.sub_y, V3.sub_z, V3.add_x, V3.add_y, V3.add_z, V3.smul_x, V3.smul_y, V3.smul_z, smul_eq_mul] <;> ring
    rw [h1, V3.len_smul, ← hcl, abs_div, abs_mul, abs_of_pos hr, div_mul_cancel₀ _ hr.ne']
  have := this _ (π * (rho * s.radius ^ 2 / (4 * T ^ 3) + rho ^ 3 * 3 * s.radius ^ 2 / (s.radius ^ 2 - 4 * z ^ 2) / (32 * T ^ 7))) (show
    π * s.radius ^ 2 * rho / (4 * T ^ 3) * (1 + 3 * rho ^ 2 / (8 * (s.radius ^ 2 - 4 * z ^ 2) * T ^ 4)) = _ by field_simp; try ring)
  rw [← this]
  congr 4
  ring

/-- **C161.** What holds of the vector potential close to the axis: it differs from the integral over the wire by at most `18 rho² / T²` of its first
order term, plus the term of third order that the code uses in place of `3 (a² - 4 z²) rho² / (8 T⁴)`. -/
theorem potential_close_partial (hb : s.OffBand) (ha : 0 < s.radius) {e1 e2 : V3 ℝ} (he : CircularWire.IsFrame e1 e2 s.axis) (q : V3 ℝ)
    (hc : s.CloseToAxis s.axis q) (hq : s.axis.cross (q - s.location) ≠ 0) (hz : s.radius ^ 2 ≠ 4 * s.axis.dot (q - s.location) ^ 2) :
    ∃ A T rho z, s.vectorPotential q = .ok (some A) ∧ rho = (s.axis.cross (q - s.location)).len ∧ z = s.axis.dot (q - s.location) ∧
      T = √(s.radius ^ 2 + z ^ 2) ∧
      (A - (s.mu * s.current / (4 * π)) • CircularWire.potential s.location e1 e2 s.radius q).len ≤
        |s.mu * s.current| * s.radius ^ 2 * rho / (4 * T ^ 3) * (18 * (rho / T) ^ 2 + 3 * rho ^ 2 / (8 * |s.radius ^ 2 - 4 * z ^ 2| * T ^ 4)) := by
  have hn := hb.frame.1
  have hr : 0 < axisDist s.axis (q - s.location) := by
    rw [axisDist_eq_cross hn]
    exact (V3.len_nonneg _).lt_of_ne fun h => hq (V3.len_eq_zero.1 h.symm)
  have hz0 := sub_ne_zero.2 hz
  obtain ⟨A, hA, hE⟩ := potential_error hb ha he q hc hr hz0
  rw [CloseToAxis, ← axisDist_sq_cross hn] at hc
  obtain ⟨sc, near⟩ := exists_near ha hr hc.le
  have haz := near.azimuthal
  have hT := near.hT
  have hee : axisDist s.axis (q - s.location) ^ 2 / (s.radius ^ 2 + s.axis.dot (q - s.location) ^ 2) =
      (axisDist s.axis (q - s.location) / √(s.radius ^ 2 + s.axis.dot (q - s.location) ^ 2)) ^ 2 := by
    rw [div_pow, sq_sqrt (by positivity)]
  rw [hee] at haz
  refine ⟨A, _, _, _, hA, rfl, rfl, rfl, ?_⟩
  rw [hE, ← axisDist_eq_cross hn]
  set C := s.mu * s.current / π with hC
  set T := √(s.radius ^ 2 + s.axis.dot (q - s.location) ^ 2) with hTd
  set z := s.axis.dot (q - s.location) with hzd
  set rho := axisDist s.axis (q - s.location) with hrho
  set k := π * s.radius ^ 2 * rho / (4 * T ^ 3) with hk
  have hk0 : 0 < k := by positivity
  have hCm : |s.mu * s.current| = |C| * π := by rw [hC, abs_div, abs_of_pos pi_pos]; field_simp
  have h1 : |k * (1 + 3 * rho ^ 2 / (8 * (s.radius ^ 2 - 4 * z ^ 2) * T ^ 4)) - loopA s.radius rho z| ≤
      k * (18 * (rho / T) ^ 2 + 3 * rho ^ 2 / (8 * |s.radius ^ 2 - 4 * z ^ 2| * T ^ 4)) := by
    have h2 : k * (1 + 3 * rho ^ 2 / (8 * (s.radius ^ 2 - 4 * z ^ 2) * T ^ 4)) - loopA s.radius rho z =
        -(loopA s.radius rho z - k) + k * (3 * rho ^ 2 / (8 * (s.radius ^ 2 - 4 * z ^ 2) * T ^ 4)) := by ring
    have h3 : |k * (3 * rho ^ 2 / (8 * (s.radius ^ 2 - 4 * z ^ 2) * T ^ 4))| = k * (3 * rho ^ 2 / (8 * |s.radius ^ 2 - 4 * z ^ 2| * T ^ 4)) := by
      rw [abs_mul, abs_of_pos hk0, abs_div, abs_of_nonneg (show 0 ≤ 3 * rho ^ 2 by positivity), abs_mul, abs_mul,
        abs_of_nonneg (show (0:ℝ) ≤ 8 by norm_num), abs_of_pos (show 0 < T ^ 4 by positivity)]
    rw [h2]
    refine (abs_add_le _ _).trans ?_
    rw [abs_neg, h3]
    linarith
  refine (mul_le_mul_of_nonneg_left h1 (abs_nonneg C)).trans (le_of_eq ?_)
  rw [hCm, hk]
  ring

/-- **C161, the finding.** Close to the axis the vector potential can be wrong by any amount. -/
theorem potential_unbounded (K : ℝ) : ∃ q A, unitLoop.CloseToAxis unitLoop.axis q ∧ unitLoop.vectorPotential q = .ok (some A) ∧
    ∀ e1 e2, CircularWire.IsFrame e1 e2 unitLoop.axis →
      K < (A - (unitLoop.mu * unitLoop.current / (4 * π)) • CircularWire.potential unitLoop.location e1 e2 unitLoop.radius q).len := by
  set δ : ℝ := 1e-14 / (|K| + 2) with hδ
  have hK := abs_nonneg K
  have hδ0 : 0 < δ := by positivity
  have hδ1 : δ ≤ 1e-14 := by
    rw [hδ, div_le_iff₀ (by positivity)]
    linarith
  set t := √((1 - δ) / 4) with ht
  have ht2 : t ^ 2 = (1 - δ) / 4 := sq_sqrt (by linarith)
  have e0 : (⟨1e-4, 0, t⟩ : V3 ℝ) - unitLoop.location = ⟨1e-4, 0, t⟩ := by ext <;> simp [unitLoop]
  have ez : unitLoop.axis.dot ((⟨1e-4, 0, t⟩ : V3 ℝ) - unitLoop.location) = t := by rw [e0, unitLoop_axis]; simp [V3.dot]
  have er : axisDist unitLoop.axis ((⟨1e-4, 0, t⟩ : V3 ℝ) - unitLoop.location) = 1e-4 := by
    rw [e0, unitLoop_axis, axisDist, V3.len_sq]
    have h4 : √((1e-4 : ℝ) ^ 2) = 1e-4 := sqrt_sq (by norm_num)
    simp only [V3.dot, zero_mul, one_mul, zero_add]
    refine Eq.trans ?_ h4
    congr 1
    ring
  have hn := unitLoop_offBand.frame.1
  have hR : unitLoop.radius = 1 := rfl
  have hc0 : (1e-4 : ℝ) ^ 2 < 1e-6 * (1 ^ 2 + t ^ 2) := by rw [ht2]; linarith
  have hc : unitLoop.CloseToAxis unitLoop.axis ⟨1e-4, 0, t⟩ := by
    rw [CloseToAxis, ← axisDist_sq_cross hn, er, ez, hR]
    exact hc0
  have hd : (1 : ℝ) ^ 2 - 4 * t ^ 2 = δ := by rw [ht2]; ring
  have hpot := unitLoop_small (r := 1e-4) (t := t) (by norm_num) (by simpa using hc0) (by rw [show 1 - 4 * t ^ 2 = δ by rw [← hd]; ring]; exact hδ0.ne')
  refine ⟨_, _, hc, hpot, fun e1 e2 he => ?_⟩
  obtain ⟨A, hA, hE⟩ := potential_error unitLoop_offBand (by rw [hR]; norm_num) he ⟨1e-4, 0, t⟩ hc (by rw [er]; norm_num) (by rw [ez, hR, hd]; exact hδ0.ne')
  rw [hpot] at hA
  simp only [Except.ok.injEq, Option.some.injEq] at hA
  rw [hA, hE, er, ez, hR, hd]
  obtain ⟨sc, near⟩ := exists_near (a := 1) (rho := 1e-4) (z := t) one_pos (by norm_num) hc0.le
  have haz := near.azimuthal
  have hT := near.hT
  have hsq := near.sq
  have hsm := near.small
  set T := √((1:ℝ) ^ 2 + t ^ 2) with hTd
  have hT1 : 1 ≤ T := by nlinarith
  have hT2 : T ≤ 6 / 5 := by nlinarith
  have hC : |unitLoop.mu * unitLoop.current / π| = 1 / π := by
    rw [show unitLoop.mu * unitLoop.current = 1 by simp [unitLoop], abs_of_pos (by positivity)]
  rw [hC]
  set k : ℝ := π * 1 ^ 2 * 1e-4 / (4 * T ^ 3) with hk
  have hk0 : 0 < k := by positivity
  have hpi := pi_pos
  have hT7 : T ^ 7 ≤ 4 := (pow_le_pow_left₀ hT.le hT2 7).trans (by norm_num)
  have hext : π * (|K| + 2) ≤ k * (3 * 1e-4 ^ 2 / (8 * δ * T ^ 4)) := by
    have h1 : k * (3 * 1e-4 ^ 2 / (8 * δ * T ^ 4)) = π * (|K| + 2) * (300 / (32 * T ^ 7)) := by
      rw [hk, hδ]
      field_simp
      norm_num
    rw [h1]
    refine le_mul_of_one_le_right (by positivity) ?_
    rw [le_div_iff₀ (by positivity)]
    linarith
  have hk1 : k ≤ π := by
    rw [hk, div_le_iff₀ (by positivity)]
    have : 1 ≤ T ^ 3 := one_le_pow₀ hT1
    nlinarith
  have hle := abs_le.1 haz
  have h18 : 18 * (1e-4 ^ 2 / (1 ^ 2 + t ^ 2)) * k ≤ π := by
    have : 18 * (1e-4 ^ 2 / (1 ^ 2 + t ^ 2)) * k ≤ 1 * k := mul_le_mul_of_nonneg_right (by linarith) hk0.le
    linarith
  have hlow : π * (|K| + 1) ≤ k * (1 + 3 * 1e-4 ^ 2 / (8 * δ * T ^ 4)) - loopA 1 1e-4 t := by
    have : k * (1 + 3 * 1e-4 ^ 2 / (8 * δ * T ^ 4)) = k + k * (3 * 1e-4 ^ 2 / (8 * δ * T ^ 4)) := by ring
    rw [this]
    linarith [hle.2]
  calc K ≤ |K| := le_abs_self K
    _ < |K| + 1 := by linarith
    _ = 1 / π * (π * (|K| + 1)) := by field_simp
    _ ≤ _ := mul_le_mul_of_nonneg_left (hlow.trans (le_abs_self _)) (by positivity)

/-- The hypotheses are met by stations on and off the axis. -/
example : unitLoop.OffBand ∧ 0 < unitLoop.radius ∧ CircularWire.IsFrame ⟨1, 0, 0⟩ ⟨0, 1, 0⟩ unitLoop.axis ∧
    unitLoop.CloseToAxis unitLoop.axis ⟨1e-4, 0, 3⟩ ∧ unitLoop.CloseToAxis unitLoop.axis ⟨0, 0, 3⟩ := by
  refine ⟨unitLoop_offBand, by simp [unitLoop], ?_, ?_, ?_⟩
  · rw [unitLoop_axis]
    refine ⟨by simp [V3.dot], by simp [V3.dot], by simp [V3.dot], by ext <;> simp⟩
  · rw [CloseToAxis, unitLoop_axis, V3.len_sq]; norm_num [unitLoop, V3.dot]
  · rw [CloseToAxis, unitLoop_axis, V3.len_sq]; norm_num [unitLoop, V3.dot]

end Loop

end Verif.Static
