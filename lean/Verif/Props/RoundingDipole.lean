import Verif.Props.Rounding

/-!
# C116: rounding errors of the magnetic dipole
-/

namespace Verif.Rounded

variable {u : ℝ} (F : Arith u)

theorem dot_abs_le {a b : V3 ℝ} (ha : a.len = 1) (hb : b.len = 1) : |a.x * b.x| + |a.y * b.y| + |a.z * b.z| ≤ 1 := by
  have e1 := V3.len_sq a
  have e2 := V3.len_sq b
  rw [ha] at e1
  rw [hb] at e2
  simp only [abs_mul]
  nlinarith [sq_nonneg (|a.x| - |b.x|), sq_nonneg (|a.y| - |b.y|), sq_nonneg (|a.z| - |b.z|), sq_abs a.x, sq_abs a.y, sq_abs a.z,
    sq_abs b.x, sq_abs b.y, sq_abs b.z]

/-- The field of a unit dipole is nowhere smaller than `1 / r³`. -/
theorem dipole_size {a b : V3 ℝ} (ha : a.len = 1) (hb : b.len = 1) (k : ℝ) :
    |k| ≤ (⟨k * (3 * a.dot b * a.x - b.x), k * (3 * a.dot b * a.y - b.y), k * (3 * a.dot b * a.z - b.z)⟩ : V3 ℝ).len := by
  have e1 := V3.len_sq a
  have e2 := V3.len_sq b
  rw [ha] at e1
  rw [hb] at e2
  unfold V3.len
  rw [← Real.sqrt_sq_eq_abs]
  apply Real.sqrt_le_sqrt
  have e : (k * (3 * a.dot b * a.x - b.x)) ^ 2 + (k * (3 * a.dot b * a.y - b.y)) ^ 2 + (k * (3 * a.dot b * a.z - b.z)) ^ 2 =
      k ^ 2 * (1 + 3 * (a.dot b) ^ 2) := by
    have e3 : a.dot b = a.x * b.x + a.y * b.y + a.z * b.z := rfl
    generalize a.dot b = d at *
    subst e3
    linear_combination (-9 * k ^ 2 * (a.x * b.x + a.y * b.y + a.z * b.z) ^ 2) * e1 - k ^ 2 * e2
  rw [e]
  nlinarith [sq_nonneg k, sq_nonneg (k * a.dot b)]

theorem dipole_error {k a c x y z e1 e2 e3 e4 g : ℝ} (ha : |a| ≤ 1) (hc : |c| ≤ 1) (hx : |x| + |y| + |z| ≤ 1)
    (h1 : |e1| ≤ g) (h2 : |e2| ≤ g) (h3 : |e3| ≤ g) (h4 : |e4| ≤ g) :
    |k * (3 * a * (x * e1 + y * e2 + z * e3) - c * e4)| ≤ g * (4 * |k|) := by
  have hg : 0 ≤ g := (abs_nonneg _).trans h1
  have hS : |x * e1 + y * e2 + z * e3| ≤ g := by
    have term : ∀ {p q : ℝ}, |q| ≤ g → |p * q| ≤ |p| * g := fun hy => by
      rw [abs_mul]; exact mul_le_mul_of_nonneg_left hy (abs_nonneg _)
    refine (abs_add_three _ _ _).trans ((add_le_add (add_le_add (term h1) (term h2)) (term h3)).trans ?_)
    nlinarith
  have hT : |3 * a * (x * e1 + y * e2 + z * e3) - c * e4| ≤ 4 * g := by
    generalize x * e1 + y * e2 + z * e3 = S at *
    refine (abs_sub _ _).trans ?_
    rw [abs_mul, abs_mul, abs_mul, abs_of_pos (by norm_num : (0:ℝ) < 3)]
    have m1 := mul_le_mul ha hS (abs_nonneg _) zero_le_one
    have m2 := mul_le_mul hc h4 (abs_nonneg _) zero_le_one
    nlinarith
  rw [abs_mul]
  calc |k| * _ ≤ |k| * (4 * g) := mul_le_mul_of_nonneg_left hT (abs_nonneg _)
    _ = g * (4 * |k|) := by ring

variable (hu : 0 ≤ u)
include hu

theorem near_moment (hu1 : u < 1) (s : Static.MagDipole) {xyz : V3 ℝ} (hp : xyz ≠ s.location) (j : ℕ) :
    Near u (j * (7 / 2) + 6) (s.moment * s.mu / (4 * Real.pi * (xyz - s.location).len ^ j))
      (F.div (F.mul s.moment s.mu) (F.mul (F.mul 4 (F.const Real.pi)) (F.pow (norm F (diff F xyz s.location)) j))) :=
  (F.near_div hu hu1 (F.near_mul hu hu1 (Near.refl s.moment) (Near.refl s.mu))
    (F.near_mul hu hu1 (F.near_mul hu hu1 (Near.refl 4) (F.near_const hu hu1 Real.pi))
      (F.near_pow hu hu1 (near_dist F hu hu1 xyz s.location) j))
    (mul_ne_zero (mul_ne_zero (by norm_num) Real.pi_ne_zero) (pow_ne_zero j (V3.len_sub_ne_zero hp)))).mono hu hu1
    (by linarith)

set_option maxHeartbeats 1000000 in
/-- Each component of the field of a magnetic dipole is accurate to 34.5 roundings of four times the length of the field. -/
theorem MagDipole.flux_accurate (s : Static.MagDipole) (ho : s.orientation.len = 1) {xyz : V3 ℝ} (hp : xyz ≠ s.location)
    (h : 69 / 2 * u < 1) :
    V3.AccurateTo (4 * (s.magneticFluxDensity xyz).len) u (69 / 2) (s.magneticFluxDensity xyz)
      (MagDipole.magneticFluxDensity F s xyz) := by
  have hu1 := lt_one_of hu (by norm_num) h
  have h0 := V3.len_sub_ne_zero hp
  obtain ⟨h1, h2, h3⟩ := near_unit F hu hu1 hp
  obtain ⟨b1, b2, b3, bs⟩ := unit_bounds h0
  set rHat : V3 ℝ := (xyz - s.location).map (· / (xyz - s.location).len) with hrHat
  have hl : rHat.len = 1 := by
    have e : rHat.x ^ 2 + rHat.y ^ 2 + rHat.z ^ 2 = 1 := bs
    rw [V3.len, e, Real.sqrt_one]
  set rHat' := unit F (diff F xyz s.location) (norm F (diff F xyz s.location)) with hrHat'
  set o := s.orientation with hoo
  set k := s.moment * s.mu / (4 * Real.pi * (xyz - s.location).len ^ 3) with hk
  have hkn := near_moment F hu hu1 s hp 3
  rw [← hk] at hkn
  set k' := F.div (F.mul s.moment s.mu) (F.mul (F.mul 4 (F.const Real.pi)) (F.pow (norm F (diff F xyz s.location)) 3)) with hk'
  have prod : ∀ {a b c : ℝ}, Near u (11 / 2) a b → Near u (13 / 2) (a * c) (F.mul b c) := fun hab =>
    (F.near_mul hu hu1 hab (Near.refl _)).mono hu hu1 (by norm_num)
  obtain ⟨t1, t2, t3, f1, f2, f3, ed⟩ := sum3_fac F hu hu1 (prod (c := o.x) h1) (prod (c := o.y) h2) (prod (c := o.z) h3)
  have hB : s.magneticFluxDensity xyz = ⟨k * (3 * rHat.dot o * rHat.x - o.x), k * (3 * rHat.dot o * rHat.y - o.y),
    k * (3 * rHat.dot o * rHat.z - o.z)⟩ := rfl
  have hsize : |k| ≤ (s.magneticFluxDensity xyz).len := by rw [hB]; exact dipole_size hl ho k
  have hdot := dot_abs_le hl ho
  set d' := sum3 F (F.mul rHat'.x o.x) (F.mul rHat'.y o.y) (F.mul rHat'.z o.z) with hd'
  have hob : |o.x| ≤ 1 ∧ |o.y| ≤ 1 ∧ |o.z| ≤ 1 := by
    have e2 := V3.len_sq o
    rw [ho] at e2
    refine ⟨?_, ?_, ?_⟩ <;> rw [← sq_le_one_iff_abs_le_one] <;> nlinarith [sq_nonneg o.x, sq_nonneg o.y, sq_nonneg o.z]
  have key : ∀ {a a' c : ℝ}, |a| ≤ 1 → |c| ≤ 1 → Near u (11 / 2) a a' →
      AccurateTo (4 * (s.magneticFluxDensity xyz).len) u (69 / 2) (k * (3 * rHat.dot o * a - c))
        (F.mul k' (F.sub (F.mul (F.mul 3 d') a') c)) := by
    intro a a' c ha hc haa
    have hm : Near u (15 / 2) (3 * d' * a) (F.mul (F.mul 3 d') a') :=
      (F.near_mul hu hu1 (F.near_mul hu hu1 (Near.refl 3) (Near.refl d')) haa).mono hu hu1 (by norm_num)
    obtain ⟨t, r, ht, hr, e1⟩ := sub_fac F hu hu1 hm ((Near.refl (u := u) c).mono hu hu1 (by norm_num : (0:ℝ) ≤ 15 / 2))
    obtain ⟨d, hd, e2⟩ := (F.near_mul hu hu1 hkn (Near.refl (F.sub (F.mul (F.mul 3 d') a') c))).fac
    have big : ∀ {x : ℝ}, Fac u (13 / 2 + 2) x → Fac u (69 / 2) (x * t * d) := fun hx =>
      ((hx.mul hu1 ht).mul hu1 hd).mono hu hu1 (by norm_num)
    have c1 := (big f1).close hu (by norm_num) h
    have c2 := (big f2).close hu (by norm_num) h
    have c3 := (big f3).close hu (by norm_num) h
    have c4 := ((hr.mul hu1 hd).mono hu hu1 (by norm_num : _ ≤ (69 / 2 : ℝ))).close hu (by norm_num) h
    set g := 69 / 2 * u / (1 - 69 / 2 * u) with hg
    have hg0 : 0 ≤ g := div_nonneg (by positivity) (by linarith)
    unfold AccurateTo
    rw [← hg, e2, e1, ed]
    have e3 : k * (3 * (rHat.x * o.x * t1 + rHat.y * o.y * t2 + rHat.z * o.z * t3) * a * t - c * r) * d -
        k * (3 * rHat.dot o * a - c) =
        k * (3 * a * (rHat.x * o.x * (t1 * t * d - 1) + rHat.y * o.y * (t2 * t * d - 1) + rHat.z * o.z * (t3 * t * d - 1)) -
          c * (r * d - 1)) := by
      show _ = _
      simp only [V3.dot]
      ring
    have e3' : k * (3 * (((xyz - s.location).x / (xyz - s.location).len) * o.x * t1 + ((xyz - s.location).y / (xyz - s.location).len) * o.y * t2 + ((xyz - s.location).z / (xyz - s.location).len) * o.z * t3) * a * t - c * r) * d -
        k * (3 * rHat.dot o * a - c) = _ := e3
    rw [e3', abs_mul]
    have hb := dipole_error (k := k) ha hc hdot c1 c2 c3 c4
    rw [abs_mul] at hb
    refine hb.trans (mul_le_mul_of_nonneg_left ?_ hg0)
    linarith
  exact ⟨key b1 hob.1 h1, key b2 hob.2.1 h2, key b3 hob.2.2 h3⟩

/-- Each component of the vector potential of a magnetic dipole is accurate to 21.5 roundings of `μ m / (4 π r²)`. -/
theorem MagDipole.potential_accurate (s : Static.MagDipole) (ho : s.orientation.len = 1) {xyz : V3 ℝ} (hp : xyz ≠ s.location)
    (h : 43 / 2 * u < 1) :
    V3.AccurateTo |s.moment * s.mu / (4 * Real.pi * (xyz - s.location).len ^ 2)| u (43 / 2) (s.vectorPotential xyz)
      (MagDipole.vectorPotential F s xyz) := by
  have hu1 := lt_one_of hu (by norm_num) h
  have h0 := V3.len_sub_ne_zero hp
  obtain ⟨h1, h2, h3⟩ := near_unit F hu hu1 hp
  obtain ⟨b1, b2, b3, bs⟩ := unit_bounds h0
  set rHat : V3 ℝ := (xyz - s.location).map (· / (xyz - s.location).len) with hrHat
  set rHat' := unit F (diff F xyz s.location) (norm F (diff F xyz s.location)) with hrHat'
  set o := s.orientation with hoo
  set k := s.moment * s.mu / (4 * Real.pi * (xyz - s.location).len ^ 2) with hk
  have hkn := near_moment F hu hu1 s hp 2
  rw [← hk] at hkn
  set k' := F.div (F.mul s.moment s.mu) (F.mul (F.mul 4 (F.const Real.pi)) (F.pow (norm F (diff F xyz s.location)) 2)) with hk'
  have eo := V3.len_sq o
  rw [ho] at eo
  have er : rHat.x ^ 2 + rHat.y ^ 2 + rHat.z ^ 2 = 1 := bs
  have key : ∀ {a a' b b' p q : ℝ}, |p * a| + |q * b| ≤ 1 → Near u (11 / 2) a a' → Near u (11 / 2) b b' →
      AccurateTo |k| u (43 / 2) (k * (p * a - q * b)) (F.mul k' (F.sub (F.mul p a') (F.mul q b'))) := by
    intro a a' b b' p q hpq ha hb
    obtain ⟨t, r, ht, hr, e1⟩ := sub_fac F hu hu1 (F.near_mul hu hu1 (Near.refl p) ha) (F.near_mul hu hu1 (Near.refl q) hb)
    obtain ⟨d, hd, e2⟩ := (F.near_mul hu hu1 hkn (Near.refl (F.sub (F.mul p a') (F.mul q b')))).fac
    have c1 := ((ht.mul hu1 hd).mono hu hu1 (by norm_num : _ ≤ (43 / 2 : ℝ))).close hu (by norm_num) h
    have c2 := ((hr.mul hu1 hd).mono hu hu1 (by norm_num : _ ≤ (43 / 2 : ℝ))).close hu (by norm_num) h
    have hc := close_sub (k := k) (a := p * a) (b := q * b) c1 c2
    unfold AccurateTo
    have e3 : k * (p * a * t - q * b * r) * d = k * (p * a * (t * d) - q * b * (r * d)) := by ring
    rw [e2, e1, e3]
    refine hc.trans (mul_le_mul_of_nonneg_left ?_ (div_nonneg (by positivity) (by linarith)))
    nlinarith [abs_nonneg k]
  have bound : ∀ {p a q b : ℝ}, p ^ 2 + q ^ 2 ≤ 1 → a ^ 2 + b ^ 2 ≤ 1 → |p * a| + |q * b| ≤ 1 := by
    intro p a q b hpq hab
    rw [abs_mul, abs_mul]
    nlinarith [sq_nonneg (|p| - |a|), sq_nonneg (|q| - |b|), sq_abs p, sq_abs a, sq_abs q, sq_abs b]
  have s0 := sq_nonneg o.x
  have s1 := sq_nonneg o.y
  have s2 := sq_nonneg o.z
  have r0 := sq_nonneg rHat.x
  have r1 := sq_nonneg rHat.y
  have r2 := sq_nonneg rHat.z
  exact ⟨key (bound (p := o.y) (q := o.z) (a := rHat.z) (b := rHat.y) (by linarith) (by linarith)) h3 h2,
    key (bound (p := o.z) (q := o.x) (a := rHat.x) (b := rHat.z) (by linarith) (by linarith)) h1 h3,
    key (bound (p := o.x) (q := o.y) (a := rHat.y) (b := rHat.x) (by linarith) (by linarith)) h2 h1⟩

end Verif.Rounded
