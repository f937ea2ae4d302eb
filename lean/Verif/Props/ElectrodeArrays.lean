import Verif.Spec.Electrodes
import Verif.Props.StaticHalfspace
import Verif.Lemmas.Rotation

/-! # C141: electrode arrays read the resistivity of a uniform ground -/

namespace Verif.Static

open Real

theorem dcVoltage_eq (rho current : ℝ) (a b m n : V3 ℝ) :
    dcVoltage rho current a b m n = rho * current / (4 * π) * (arrayFactor a b m n + arrayFactor ⟨a.x, a.y, -a.z⟩ ⟨b.x, b.y, -b.z⟩ m n) := by
  simp only [dcVoltage, imagePotential, arrayFactor]
  ring

/-- **C141.** Whatever the four electrodes in the ground, the voltage per current times the geometric factor is the resistivity of the ground, unless the
voltage is zero. -/
theorem DipoleHalf.reads_resistivity_buried {mu0 rho current : ℝ} {a b : V3 ℝ} {d : DipoleHalf} (h : DipoleHalf.new mu0 rho a b current = .ok d)
    (m n : V3 ℝ) (hm : m.z ≤ 0) (hn : n.z ≤ 0) :
    ∃ V, d.potential m (some n) = .ok V ∧ (V ≠ 0 → apparentResistivityBuried a b m n (V / current) = rho) := by
  refine ⟨_, (dipoleHalf_potential mu0 rho current a b d h m n hm hn).2, fun hV => ?_⟩
  rw [dcVoltage_eq] at hV ⊢
  have h1 := right_ne_zero_of_mul hV
  have h2 : current ≠ 0 := fun h => hV (by rw [h]; ring)
  rw [apparentResistivityBuried]
  field_simp

/-- **C141.** The same for current electrodes on the surface with the usual factor. -/
theorem DipoleHalf.reads_resistivity {mu0 rho current : ℝ} {a b : V3 ℝ} {d : DipoleHalf} (h : DipoleHalf.new mu0 rho a b current = .ok d)
    (m n : V3 ℝ) (ha : a.z = 0) (hb : b.z = 0) (hm : m.z ≤ 0) (hn : n.z ≤ 0) :
    ∃ V, d.potential m (some n) = .ok V ∧ V = rho * current / (2 * π) * arrayFactor a b m n ∧
      (V ≠ 0 → apparentResistivity a b m n (V / current) = rho) := by
  refine ⟨_, (dipoleHalf_potential mu0 rho current a b d h m n hm hn).2, ?_⟩
  have e1 : (⟨a.x, a.y, -a.z⟩ : V3 ℝ) = a := by ext <;> simp [ha]
  have e2 : (⟨b.x, b.y, -b.z⟩ : V3 ℝ) = b := by ext <;> simp [hb]
  have e : dcVoltage rho current a b m n = rho * current / (2 * π) * arrayFactor a b m n := by rw [dcVoltage_eq, e1, e2]; ring
  refine ⟨e, fun hV => ?_⟩
  rw [e] at hV ⊢
  have h1 := right_ne_zero_of_mul hV
  have h2 : current ≠ 0 := fun h => hV (by rw [h]; ring)
  rw [apparentResistivity]
  field_simp

theorem alongLine_dist {o u : V3 ℝ} (hu : u.len = 1) (s t : ℝ) : (alongLine o u s - alongLine o u t).len = |s - t| := by
  rw [show alongLine o u s - alongLine o u t = (s - t) • u by simp only [alongLine]; module, V3.len_smul, hu, mul_one]

theorem alongLine_z {o u : V3 ℝ} (ho : o.z = 0) (hu : u.z = 0) (s : ℝ) : (alongLine o u s).z = 0 := by simp [alongLine, ho, hu]

section arrays

variable {mu0 rho current : ℝ} {o u : V3 ℝ} {d : DipoleHalf} (ho : o.z = 0) (hu : u.len = 1) (huz : u.z = 0) (hI : current ≠ 0)

include ho hu huz hI

theorem array_reading {A B M N f : ℝ} (h : DipoleHalf.new mu0 rho (alongLine o u A) (alongLine o u B) current = .ok d)
    (hf : f * (1 / |M - A| - 1 / |M - B| - 1 / |N - A| + 1 / |N - B|) = 2 * π) :
    ∃ V, d.potential (alongLine o u M) (some (alongLine o u N)) = .ok V ∧ rho = f * (V / current) := by
  obtain ⟨V, h1, h2, -⟩ := DipoleHalf.reads_resistivity h (alongLine o u M) (alongLine o u N) (alongLine_z ho huz _) (alongLine_z ho huz _)
    (alongLine_z ho huz _).le (alongLine_z ho huz _).le
  refine ⟨V, h1, ?_⟩
  simp only [arrayFactor, alongLine_dist hu] at h2
  rw [h2, show f * (rho * current / (2 * π) * (1 / |M - A| - 1 / |M - B| - 1 / |N - A| + 1 / |N - B|) / current) =
    f * (1 / |M - A| - 1 / |M - B| - 1 / |N - A| + 1 / |N - B|) * (rho * current / (2 * π)) / current by ring, hf]
  have := pi_pos.ne'
  field_simp

/-- **C141, Wenner array** A–M–N–B with the spacing `s`: `rho = 2 π s V / I`. -/
theorem DipoleHalf.wenner {s : ℝ} (hs : 0 < s) (h : DipoleHalf.new mu0 rho (alongLine o u 0) (alongLine o u (3 * s)) current = .ok d) :
    ∃ V, d.potential (alongLine o u s) (some (alongLine o u (2 * s))) = .ok V ∧ rho = 2 * π * s * (V / current) := by
  refine array_reading ho hu huz hI h ?_
  rw [abs_of_pos (by linarith), abs_of_neg (by linarith), abs_of_pos (by linarith), abs_of_neg (by linarith)]
  ring_nf
  field_simp

/-- **C141, Schlumberger array** with the half spreads `L` and `l`: `rho = π (L² - l²) / (2 l) V / I`. -/
theorem DipoleHalf.schlumberger {l L : ℝ} (hl : 0 < l) (hL : l < L) (h : DipoleHalf.new mu0 rho (alongLine o u (-L)) (alongLine o u L) current = .ok d) :
    ∃ V, d.potential (alongLine o u (-l)) (some (alongLine o u l)) = .ok V ∧ rho = π * (L ^ 2 - l ^ 2) / (2 * l) * (V / current) := by
  refine array_reading ho hu huz hI h ?_
  rw [abs_of_pos (by linarith), abs_of_neg (by linarith), abs_of_pos (by linarith), abs_of_neg (by linarith)]
  have h1 : L - l ≠ 0 := by linarith
  have h2 : L + l ≠ 0 := by linarith
  rw [show -l - -L = L - l by ring, show -(-l - L) = L + l by ring, show l - -L = L + l by ring, show -(l - L) = L - l by ring]
  field_simp
  ring

/-- **C141, dipole-dipole array** B–A–M–N with the dipole length `s` and the separation `n s`: `rho = π n (n + 1) (n + 2) s V / I`. -/
theorem DipoleHalf.dipoleDipole {s n : ℝ} (hs : 0 < s) (hn : 0 < n) (h : DipoleHalf.new mu0 rho (alongLine o u s) (alongLine o u 0) current = .ok d) :
    ∃ V, d.potential (alongLine o u ((n + 1) * s)) (some (alongLine o u ((n + 2) * s))) = .ok V ∧
      rho = π * n * (n + 1) * (n + 2) * s * (V / current) := by
  refine array_reading ho hu huz hI h ?_
  have := mul_pos hn hs
  rw [abs_of_pos (by linarith), abs_of_pos (by linarith), abs_of_pos (by linarith), abs_of_pos (by linarith)]
  rw [show (n + 1) * s - s = n * s by ring, show (n + 2) * s - s = (n + 1) * s by ring, sub_zero, sub_zero]
  field_simp
  ring

end arrays

/-- **C141, pole-pole and pole-dipole arrays**: `rho = 2 π s V / I`, and `rho = 2 π n (n + 1) s (V_M - V_N) / I`. -/
theorem PointHalf.poleArrays {mu0 rho current : ℝ} {o u : V3 ℝ} {p : PointHalf} (ho : o.z = 0) (hu : u.len = 1) (huz : u.z = 0) (hI : current ≠ 0)
    (h : PointHalf.new mu0 rho current o = .ok p) {s n : ℝ} (hs : 0 < s) (hn : 0 < n) :
    (∃ V, p.potential (alongLine o u s) = .ok V ∧ rho = 2 * π * s * (V / current)) ∧
    ∃ V W, p.potential (alongLine o u (n * s)) = .ok V ∧ p.potential (alongLine o u ((n + 1) * s)) = .ok W ∧
      rho = 2 * π * n * (n + 1) * s * ((V - W) / current) := by
  have key : ∀ {t : ℝ}, 0 < t → p.potential (alongLine o u t) = .ok (rho * current / (2 * π * t)) := fun {t} ht => by
    rw [pointHalf_potential mu0 rho current o p h, if_pos (alongLine_z ho huz t).le, pointHalf_surface_source _ _ _ _ ho]
    have e := alongLine_dist (o := o) hu t 0
    rw [show alongLine o u 0 = o by simp [alongLine], sub_zero, abs_of_pos ht] at e
    rw [e]
  have := pi_pos.ne'
  refine ⟨⟨_, key hs, ?_⟩, _, _, key (mul_pos hn hs), key (mul_pos (by linarith) hs), ?_⟩
  · field_simp
  · field_simp
    ring

/-- The four electrodes at the depth `h` more. -/
def lowered (h : ℝ) (p : V3 ℝ) : V3 ℝ := ⟨p.x, p.y, p.z - h⟩

theorem image_fades (a m : V3 ℝ) :
    Filter.Tendsto (fun h => 1 / (lowered h m - ⟨(lowered h a).x, (lowered h a).y, -(lowered h a).z⟩).len) Filter.atTop (nhds 0) := by
  simp only [one_div]
  refine Filter.Tendsto.inv_tendsto_atTop ?_
  refine Filter.tendsto_atTop_mono (f := fun h => 2 * h - (m.z + a.z)) (fun h => ?_) ?_
  · refine Real.le_sqrt_of_sq_le ?_
    simp only [lowered, V3.sub_x, V3.sub_y, V3.sub_z]
    nlinarith [sq_nonneg (m.x - a.x), sq_nonneg (m.y - a.y)]
  · exact Filter.tendsto_atTop_add_const_right _ _ (Filter.tendsto_id.const_mul_atTop (by norm_num))

/-- **C141.** Deep in the ground the surface does not matter: the voltage tends to that between the same electrodes in a whole space. -/
theorem DipoleHalf.deep_is_wholespace {mu0 rho current : ℝ} (hr : 0 < rho) (a b m n : V3 ℝ) (ha : a.z ≤ 0) (hb : b.z ≤ 0) (hm : m.z ≤ 0) (hn : n.z ≤ 0) :
    ∃ V : ℝ → ℝ, (∀ h, 0 ≤ h → ∃ d, DipoleHalf.new mu0 rho (lowered h a) (lowered h b) current = .ok d ∧
        d.potential (lowered h m) (some (lowered h n)) = .ok (V h)) ∧
      ∃ Vam Vbm Van Vbn, pointPotential (pointCurrent mu0 rho current a) m = .ok Vam ∧ pointPotential (pointCurrent mu0 rho current b) m = .ok Vbm ∧
        pointPotential (pointCurrent mu0 rho current a) n = .ok Van ∧ pointPotential (pointCurrent mu0 rho current b) n = .ok Vbn ∧
        Filter.Tendsto V Filter.atTop (nhds (Vam - Vbm - (Van - Vbn))) := by
  have hp : ∀ l q : V3 ℝ, pointPotential (pointCurrent mu0 rho current l) q = .ok (rho * current / (4 * π) / (q - l).len) := fun l q => by
    rw [pointPotential, line_point _ l rfl q]
    congr 1
    simp only [pointCurrent, div_eq_mul_inv, mul_inv, inv_inv, one_mul]
    ring
  refine ⟨fun h => dcVoltage rho current (lowered h a) (lowered h b) (lowered h m) (lowered h n), fun h h0 => ?_,
    _, _, _, _, hp a m, hp b m, hp a n, hp b n, ?_⟩
  · obtain ⟨p, h1⟩ := (pointHalf_new_iff mu0 rho current (lowered h a)).2 ⟨hr, by simp only [lowered]; linarith⟩
    obtain ⟨q, h2⟩ := (pointHalf_new_iff mu0 rho current (lowered h b)).2 ⟨hr, by simp only [lowered]; linarith⟩
    have hd : DipoleHalf.new mu0 rho (lowered h a) (lowered h b) current = .ok ⟨rho, current, lowered h a, lowered h b, p, q⟩ := by
      simp [DipoleHalf.new, h1, h2, bind, Except.bind, pure, Except.pure]
    exact ⟨_, hd, (dipoleHalf_potential mu0 rho current _ _ _ hd _ _ (by simp only [lowered]; linarith) (by simp only [lowered]; linarith)).2⟩
  · simp only [dcVoltage_eq]
    have e : ∀ h p q, lowered h p - lowered h q = p - q := fun h p q => by ext <;> simp [lowered]
    have lim := (((image_fades a m).sub (image_fades b m)).sub (image_fades a n)).add (image_fades b n)
    have := (lim.const_add (arrayFactor a b m n)).const_mul (rho * current / (4 * π))
    simp only [sub_zero, add_zero] at this
    convert this using 1
    · funext h
      simp only [arrayFactor, e]
    · congr 1
      simp only [arrayFactor]
      ring

/-- Non-vacuity: electrodes ten metres apart on a line to the east. -/
example : ∃ d, DipoleHalf.new 1 100 (alongLine 0 ⟨1, 0, 0⟩ 0) (alongLine 0 ⟨1, 0, 0⟩ (3 * 10)) 1 = .ok d ∧ (⟨1, 0, 0⟩ : V3 ℝ).len = 1 := by
  obtain ⟨p, h1⟩ := (pointHalf_new_iff 1 100 1 (alongLine 0 ⟨1, 0, 0⟩ 0)).2 ⟨by norm_num, by simp [alongLine]⟩
  obtain ⟨q, h2⟩ := (pointHalf_new_iff 1 100 1 (alongLine 0 ⟨1, 0, 0⟩ (3 * 10))).2 ⟨by norm_num, by simp [alongLine]⟩
  exact ⟨⟨100, 1, alongLine 0 ⟨1, 0, 0⟩ 0, alongLine 0 ⟨1, 0, 0⟩ (3 * 10), p, q⟩, by
    simp [DipoleHalf.new, h1, h2, bind, Except.bind, pure, Except.pure], by simp [V3.len]⟩

end Verif.Static
