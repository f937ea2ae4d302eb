import Verif.Model.Earthquake
import Mathlib.Tactic.LinearCombination
import Mathlib.Tactic.FieldSimp

/-!
# C62, C72, C73: line-of-sight vectors, angular distances and plot data of an interferogram
-/

namespace Verif.Earthquake

open Real

/-! ## C62: the great circle -/

/-- Specification: the unit vector of a point at longitude `x` and latitude `y` (degrees). -/
noncomputable def radial (x y : ℝ) : V3 ℝ :=
  ⟨cos (y * (π / 180)) * cos (x * (π / 180)), cos (y * (π / 180)) * sin (x * (π / 180)), sin (y * (π / 180))⟩

/-- Specification: the unit vector pointing north there. -/
noncomputable def north (x y : ℝ) : V3 ℝ :=
  ⟨-sin (y * (π / 180)) * cos (x * (π / 180)), -sin (y * (π / 180)) * sin (x * (π / 180)), cos (y * (π / 180))⟩

/-- Specification: the unit vector pointing east there. -/
noncomputable def east (x : ℝ) : V3 ℝ := ⟨-sin (x * (π / 180)), cos (x * (π / 180)), 0⟩

/-- Specification: the direction of flight at a point: azimuth `az` degrees clockwise from north. -/
noncomputable def heading (x y az : ℝ) : V3 ℝ :=
  ⟨cos (az * (π / 180)) * (north x y).x + sin (az * (π / 180)) * (east x).x,
   cos (az * (π / 180)) * (north x y).y + sin (az * (π / 180)) * (east x).y,
   cos (az * (π / 180)) * (north x y).z + sin (az * (π / 180)) * (east x).z⟩

/-- Specification: the point reached from `(x, y)` after the angle `t` along the great circle with azimuth `az`. -/
noncomputable def alongTrack (x y az t : ℝ) : V3 ℝ :=
  ⟨cos t * (radial x y).x + sin t * (heading x y az).x,
   cos t * (radial x y).y + sin t * (heading x y az).y,
   cos t * (radial x y).z + sin t * (heading x y az).z⟩

theorem geocentric_eq (x y : ℝ) : geocentric x y = radial x y := by
  simp only [geocentric, radial, deg2rad]
  congr 1 <;> ring

theorem dot_self_radial (x y : ℝ) : (radial x y).dot (radial x y) = 1 := by
  simp only [V3.dot, radial]
  have h1 := sin_sq_add_cos_sq (x * (π / 180))
  have h2 := sin_sq_add_cos_sq (y * (π / 180))
  linear_combination cos (y * (π / 180)) ^ 2 * h1 + h2

/-- The normal of the track is a unit vector, perpendicular to the reference point and to the direction of flight. -/
theorem trackNormal_spec (x y az : ℝ) :
    (trackNormal x y az).dot (trackNormal x y az) = 1 ∧ (trackNormal x y az).dot (radial x y) = 0 ∧
      (trackNormal x y az).dot (heading x y az) = 0 := by
  have h1 := sin_sq_add_cos_sq (x * (π / 180))
  have h2 := sin_sq_add_cos_sq (y * (π / 180))
  have h3 := sin_sq_add_cos_sq (az * (π / 180))
  simp only [V3.dot, trackNormal, radial, heading, north, east, deg2rad]
  generalize sin (x * (π / 180)) = sx at *
  generalize cos (x * (π / 180)) = cx at *
  generalize sin (y * (π / 180)) = sy at *
  generalize cos (y * (π / 180)) = cy at *
  generalize sin (az * (π / 180)) = sa at *
  generalize cos (az * (π / 180)) = ca at *
  refine ⟨?_, ?_, ?_⟩
  · linear_combination (sa ^ 2 * sy ^ 2 + ca ^ 2) * h1 + sa ^ 2 * h2 + h3
  · linear_combination sa * sy * cy * h1
  · linear_combination (-ca * sa * sy ^ 2 + ca * sa) * h1 - ca * sa * h2

/-- The cosine whose `arccos` is taken lies in `[-1, 1]`, whatever the geometry. -/
theorem cosine_range (x y origx origy az : ℝ) :
    |(trackNormal origx origy az).dot (radial x y)| ≤ 1 := by
  have hn := (trackNormal_spec origx origy az).1
  have hr := dot_self_radial x y
  rw [abs_le_one_iff_mul_self_le_one]
  simp only [V3.dot] at *
  nlinarith [sq_nonneg ((trackNormal origx origy az).x * (radial x y).y - (trackNormal origx origy az).y * (radial x y).x),
    sq_nonneg ((trackNormal origx origy az).x * (radial x y).z - (trackNormal origx origy az).z * (radial x y).x),
    sq_nonneg ((trackNormal origx origy az).y * (radial x y).z - (trackNormal origx origy az).z * (radial x y).y)]

/-- The angular distance is always a number in `[-90, 90]` degrees, and its sine is minus the component of the point along the
normal of the track. -/
theorem angToGc_spec (x y origx origy az : ℝ) :
    ∃ d, angToGc x y origx origy az = some d ∧ -90 ≤ d ∧ d ≤ 90 ∧
      sin (d * (π / 180)) = -(trackNormal origx origy az).dot (radial x y) := by
  have hr := cosine_range x y origx origy az
  set c := (trackNormal origx origy az).dot (radial x y) with hc
  have hc' : (trackNormal origx origy az).x * (geocentric x y).x + (trackNormal origx origy az).y * (geocentric x y).y +
      (trackNormal origx origy az).z * (geocentric x y).z = c := by
    rw [geocentric_eq]; rfl
  rw [abs_le] at hr
  have hcond : ¬ (c < -1 ∨ 1 < c) := by
    rintro (h | h) <;> linarith
  refine ⟨rad2deg (arccos c) - 90, ?_, ?_, ?_, ?_⟩
  · simp only [angToGc, hc', npArccos, hcond, if_false]
  · have := mul_nonneg (arccos_nonneg c) (by positivity : (0 : ℝ) ≤ 180 / π)
    simp only [rad2deg]; linarith
  · have h1 := mul_le_mul_of_nonneg_right (arccos_le_pi c) (by positivity : (0 : ℝ) ≤ 180 / π)
    have h2 : π * (180 / π) = 180 := by field_simp
    simp only [rad2deg]; linarith
  · have : (rad2deg (arccos c) - 90) * (π / 180) = arccos c - π / 2 := by
      simp only [rad2deg]; field_simp; ring
    rw [this, sin_sub_pi_div_two, cos_arccos hr.1 hr.2]

/-- Distance zero means being on the track's great circle. -/
theorem angToGc_zero_iff (x y origx origy az : ℝ) :
    angToGc x y origx origy az = some 0 ↔ (trackNormal origx origy az).dot (radial x y) = 0 := by
  obtain ⟨d, hd, h1, h2, h3⟩ := angToGc_spec x y origx origy az
  rw [hd]
  constructor
  · intro h
    rw [Option.some.injEq] at h
    rw [h] at h3
    simp at h3
    exact h3
  · intro h
    rw [h, neg_zero] at h3
    have hb1 : -(π / 2) ≤ d * (π / 180) := by nlinarith [pi_pos]
    have hb2 : d * (π / 180) ≤ π / 2 := by nlinarith [pi_pos]
    have : d * (π / 180) = 0 := by
      have := injOn_sin ⟨hb1, hb2⟩ ⟨by linarith [pi_pos], by linarith [pi_pos]⟩ (h3.trans sin_zero.symm)
      exact this
    rcases mul_eq_zero.1 this with h | h
    · rw [h]
    · exact absurd h (by positivity)

/-- Every point reached by following the track, in either direction, has angular distance zero; in particular the reference
point. -/
theorem on_track (x y origx origy az t : ℝ) (h : radial x y = alongTrack origx origy az t) :
    angToGc x y origx origy az = some 0 := by
  rw [angToGc_zero_iff, h]
  obtain ⟨_, h1, h2⟩ := trackNormal_spec origx origy az
  simp only [V3.dot, alongTrack] at *
  linear_combination cos t * h1 + sin t * h2

theorem reference_on_track (x y az : ℝ) : angToGc x y x y az = some 0 :=
  on_track x y x y az 0 (by simp [alongTrack])

/-! ## C62: line-of-sight vectors -/

theorem pointing_unit (g : Geometry) (beta d : ℝ) (v : V3 ℝ) (h : pointing g beta d = some v) : v.dot v = 1 := by
  unfold pointing at h
  simp only at h
  split at h
  · simp at h
  · rename_i a ha
    simp only [Option.some.injEq] at h
    subst h
    simp only [V3.dot]
    have h1 := sin_sq_add_cos_sq ((360 - g.azimuth) * (π / 180))
    have h2 := sin_sq_add_cos_sq ((90 - a / (π / 180)) * (π / 180))
    linear_combination cos ((90 - a / (π / 180)) * (π / 180)) ^ 2 * h1 + h2

/-- Every line-of-sight vector returned has length one. -/
theorem los_unit (latlon : ℝ × ℝ → ℝ × ℝ) (g : Geometry) (locations : List (ℝ × ℝ)) (l : List (Option (V3 ℝ)))
    (h : losVector latlon g locations = .ok l) (v : V3 ℝ) (hv : some v ∈ l) : v.dot v = 1 := by
  unfold losVector at h
  split at h
  · simp at h
  · simp only [Except.ok.injEq] at h
    subst h
    obtain ⟨u, _, hu⟩ := List.mem_map.1 hv
    split at hu
    · exact pointing_unit _ _ _ _ hu
    · simp at hu

/-- One vector per location. -/
theorem los_length (latlon : ℝ × ℝ → ℝ × ℝ) (g : Geometry) (locations : List (ℝ × ℝ)) (l : List (Option (V3 ℝ)))
    (h : losVector latlon g locations = .ok l) : l.length = locations.length := by
  unfold losVector at h
  split at h
  · simp at h
  · simp only [Except.ok.injEq] at h
    subst h
    simp

/-- For a satellite above the surface of an earth of positive radius every vector is defined. -/
theorem los_defined (latlon : ℝ × ℝ → ℝ × ℝ) (g : Geometry) (hR : 0 < g.earthRadius) (hH : 0 < g.altitude)
    (locations : List (ℝ × ℝ)) :
    ∃ l, losVector latlon g locations = .ok l ∧ ∀ o ∈ l, ∃ v, o = some v := by
  have hne : g.altitude + g.earthRadius ≠ 0 := by positivity
  have hk0 : 0 < g.earthRadius / (g.earthRadius + g.altitude) := by positivity
  have hk1 : g.earthRadius / (g.earthRadius + g.altitude) < 1 := by
    rw [div_lt_one (by positivity)]; linarith
  have hbeta : ∃ b, refBeta g = some b := by
    have hb : ¬ (g.earthRadius / (g.altitude + g.earthRadius) * sin (g.incidence * (π / 180)) < -1 ∨
        1 < g.earthRadius / (g.altitude + g.earthRadius) * sin (g.incidence * (π / 180))) := by
      rw [add_comm g.altitude]
      have h1 := sin_le_one (g.incidence * (π / 180))
      have h2 := neg_one_le_sin (g.incidence * (π / 180))
      rintro (h | h) <;> nlinarith
    exact ⟨_, by simp only [refBeta, npArcsin, hb, if_false]; rfl⟩
  obtain ⟨b, hb⟩ := hbeta
  have hpoint : ∀ d, ∃ v, pointing g b d = some v := by
    intro d
    have : ∃ a, npArctanDiv (sin ((b - d) * (π / 180)))
        (cos ((b - d) * (π / 180)) - g.earthRadius / (g.earthRadius + g.altitude)) = some a := by
      unfold npArctanDiv
      by_cases h0 : cos ((b - d) * (π / 180)) - g.earthRadius / (g.earthRadius + g.altitude) = 0
      · rw [if_pos h0]
        by_cases hs : sin ((b - d) * (π / 180)) = 0
        · exfalso
          have hsq := sin_sq_add_cos_sq ((b - d) * (π / 180))
          rw [hs, sub_eq_zero.1 h0] at hsq
          nlinarith
        · rw [if_neg hs]
          split <;> exact ⟨_, rfl⟩
      · rw [if_neg h0]; exact ⟨_, rfl⟩
    obtain ⟨a, ha⟩ := this
    exact ⟨_, by simp only [pointing, ha]; rfl⟩
  refine ⟨_, by rw [losVector, if_neg hne], ?_⟩
  intro o ho
  obtain ⟨u, _, hu⟩ := List.mem_map.1 ho
  obtain ⟨d, hd, _⟩ := angToGc_spec (latlon u).2 (latlon u).1 (latlon g.ref).2 (latlon g.ref).1 g.azimuth
  simp only [hb, hd] at hu
  obtain ⟨v, hv⟩ := hpoint d
  exact ⟨v, by rw [← hu, hv]⟩

/-! ## C73: direction of the line of sight -/

theorem cos_360_sub (az : ℝ) : cos ((360 - az) * (π / 180)) = cos (az * (π / 180)) := by
  have : (360 - az) * (π / 180) = 2 * π - az * (π / 180) := by ring
  rw [this, cos_two_pi_sub]

theorem sin_360_sub (az : ℝ) : sin ((360 - az) * (π / 180)) = -sin (az * (π / 180)) := by
  have : (360 - az) * (π / 180) = 2 * π - az * (π / 180) := by ring
  rw [this, sin_two_pi_sub]

/-- The vector points from the ground to a satellite on the left of the point (a right-looking one): for some incidence angle
`a` strictly between -90 and 90 degrees or equal to one of them it is `sin a` times the horizontal direction
left of the flight direction `(sin az, cos az)` (east, north), plus `cos a` upwards. -/
theorem pointing_direction (g : Geometry) (beta d : ℝ) (v : V3 ℝ) (h : pointing g beta d = some v) :
    ∃ a, -(π / 2) ≤ a ∧ a ≤ π / 2 ∧
      v = ⟨-cos (g.azimuth * (π / 180)) * sin a, sin (g.azimuth * (π / 180)) * sin a, cos a⟩ := by
  unfold pointing at h
  simp only at h
  split at h
  · simp at h
  · rename_i a ha
    simp only [Option.some.injEq] at h
    subst h
    refine ⟨a, ?_, ?_, ?_⟩
    · unfold npArctanDiv at ha
      split at ha
      · split at ha
        · simp at ha
        · split at ha <;> simp only [Option.some.injEq] at ha <;> subst ha
          · linarith [pi_pos]
          · exact le_refl _
      · simp only [Option.some.injEq] at ha
        subst ha
        exact (neg_pi_div_two_lt_arctan _).le
    · unfold npArctanDiv at ha
      split at ha
      · split at ha
        · simp at ha
        · split at ha <;> simp only [Option.some.injEq] at ha <;> subst ha
          · exact le_refl _
          · linarith [pi_pos]
      · simp only [Option.some.injEq] at ha
        subst ha
        exact (arctan_lt_pi_div_two _).le
    · have : (90 - a / (π / 180)) * (π / 180) = π / 2 - a := by field_simp; ring
      rw [this, cos_pi_div_two_sub, sin_pi_div_two_sub, cos_360_sub, sin_360_sub, neg_neg]

/-- At the reference point the line of sight has exactly the reference incidence angle: the spherical-earth correction
vanishes there. -/
theorem los_at_reference (latlon : ℝ × ℝ → ℝ × ℝ) (g : Geometry) (hR : 0 < g.earthRadius) (hH : 0 < g.altitude)
    (hi : |g.incidence| < 90) :
    losVector latlon g [g.ref] = .ok [some
      ⟨-cos (g.azimuth * (π / 180)) * sin (g.incidence * (π / 180)),
        sin (g.azimuth * (π / 180)) * sin (g.incidence * (π / 180)),
        cos (g.incidence * (π / 180))⟩] := by
  have hne : g.altitude + g.earthRadius ≠ 0 := by positivity
  set k := g.earthRadius / (g.earthRadius + g.altitude) with hk
  have hk0 : 0 < k := by positivity
  have hk1 : k < 1 := by rw [hk, div_lt_one (by positivity)]; linarith
  set a := g.incidence * (π / 180) with ha
  rw [abs_lt] at hi
  have ha1 : -(π / 2) < a := by rw [ha]; nlinarith [pi_pos, hi.1]
  have ha2 : a < π / 2 := by rw [ha]; nlinarith [pi_pos, hi.2]
  have hcos : 0 < cos a := cos_pos_of_mem_Ioo ⟨ha1, ha2⟩
  have h1 := sin_le_one a
  have h2 := neg_one_le_sin a
  have hs1 : -1 ≤ k * sin a := by nlinarith
  have hs2 : k * sin a ≤ 1 := by nlinarith
  have hcond : ¬ (k * sin a < -1 ∨ 1 < k * sin a) := by
    rintro (h | h) <;> linarith
  have hbeta : refBeta g = some ((a - arcsin (k * sin a)) / (π / 180)) := by
    simp only [refBeta, ← ha, add_comm g.altitude, ← hk, npArcsin, hcond, if_false]
  have hang := reference_on_track (latlon g.ref).2 (latlon g.ref).1 g.azimuth
  have hb : ((a - arcsin (k * sin a)) / (π / 180) - 0) * (π / 180) = a - arcsin (k * sin a) := by
    rw [sub_zero, div_mul_cancel₀ _ (by positivity : (π / 180 : ℝ) ≠ 0)]
  set c := cos (arcsin (k * sin a)) with hc
  have hst : sin (arcsin (k * sin a)) = k * sin a := sin_arcsin hs1 hs2
  have hc0 : 0 ≤ c := by rw [hc]; exact cos_arcsin_nonneg _
  have hc2 : c ^ 2 = 1 - (k * sin a) ^ 2 := by
    have := sin_sq_add_cos_sq (arcsin (k * sin a))
    rw [hst] at this
    rw [hc]; linarith
  have hm : 0 < c - k * cos a := by
    have hsq := sin_sq_add_cos_sq a
    have : (k * cos a) ^ 2 < c ^ 2 := by
      have hkk : k ^ 2 < 1 := by nlinarith
      have : (k * sin a) ^ 2 + (k * cos a) ^ 2 = k ^ 2 := by linear_combination k ^ 2 * hsq
      rw [hc2]; linarith
    have := abs_lt_of_sq_lt_sq this hc0
    linarith [(abs_lt.1 this).2]
  have hsin : sin (a - arcsin (k * sin a)) = sin a * (c - k * cos a) := by
    rw [sin_sub, hst, ← hc]; ring
  have hcosd : cos (a - arcsin (k * sin a)) - k = cos a * (c - k * cos a) := by
    rw [cos_sub, hst, ← hc]
    have hsq := sin_sq_add_cos_sq a
    linear_combination k * hsq
  have hden : cos a * (c - k * cos a) ≠ 0 := by positivity
  have harc : npArctanDiv (sin a * (c - k * cos a)) (cos a * (c - k * cos a)) = some a := by
    rw [npArctanDiv, if_neg hden, mul_div_mul_right _ _ hm.ne', ← tan_eq_sin_div_cos, arctan_tan ha1 ha2]
  have hlast : (90 - a / (π / 180)) * (π / 180) = π / 2 - a := by field_simp; ring
  simp only [losVector, hne, if_false, List.map_cons, List.map_nil, hbeta, hang, pointing, hb, hsin, ← hk, hcosd, harc,
    hlast, cos_pi_div_two_sub, sin_pi_div_two_sub, cos_360_sub, sin_360_sub, neg_neg]

/-- A geometry that meets the hypotheses. -/
example : ∃ g : Geometry, 0 < g.earthRadius ∧ 0 < g.altitude ∧ |g.incidence| < 90 :=
  ⟨⟨(741140, 4230327), 788792, 192, 23, 6371000⟩, by norm_num, by norm_num, by norm_num [abs_lt]⟩

/-- Below the surface it can fail: with the satellite on the surface and a point straight below, the incidence is 0/0. -/
theorem los_undefined_on_surface (latlon : ℝ × ℝ → ℝ × ℝ) (r : ℝ × ℝ) :
    losVector latlon ⟨r, 0, 0, 0, 1⟩ [r] = .ok [none] := by
  have hang := reference_on_track (latlon r).2 (latlon r).1 0
  have h10 : ¬ (1 : ℝ) < 0 := by norm_num
  simp [losVector, refBeta, npArcsin, hang, pointing, npArctanDiv, h10]

/-! ## C72: plot data -/

theorem edge_eq (p : ℝ) (i : ℕ) : edge (.fin p) i = .fin (i * p) := by
  induction i using Nat.strong_induction_on with
  | _ i ih =>
    match i with
    | 0 => simp [edge]
    | 1 => simp [edge]
    | i + 2 =>
      rw [edge, ih (i + 1) (by omega), PyFloat.fin_add_fin]
      congr 1
      push_cast; ring

open Classical in
/-- Sample `i + nx·j` of the data is drawn in the pixel whose corners are `location + (i, -(j+1))·pixel_size` and
`location + (i+1, -j)·pixel_size`: lines run from the top down, samples within a line from left to right.  Its value is
scaled, and zero means no data. -/
theorem plotData_spec (data : NArr PyFloat) (lx ly px py : ℝ) (nx ny : ℕ) (scaling : PyFloat)
    (h : data.size = nx * ny) :
    ∃ out, plotData data (.fin lx, .fin ly) (.fin px, .fin py) nx ny scaling = .ok out ∧
      out.vectorNx.shape = [nx + 1] ∧ out.vectorNy.shape = [ny + 1] ∧ out.data.shape = [ny, nx] ∧
      ∀ i < nx, ∀ j < ny, ∃ row < ny,
        out.vectorNx.get [i] = .fin (lx + i * px) ∧ out.vectorNx.get [i + 1] = .fin (lx + (i + 1) * px) ∧
        out.vectorNy.get [row] = .fin (ly - (j + 1) * py) ∧ out.vectorNy.get [row + 1] = .fin (ly - j * py) ∧
        out.data.get [row, i] = (if data.flattenF.get [i + nx * j] = .fin 0 then .nan
          else data.flattenF.get [i + nx * j]) * scaling := by
  refine ⟨_, by simp only [plotData, h, ne_eq, not_true_eq_false, if_false]; rfl, rfl, rfl, rfl, ?_⟩
  intro i hi j hj
  refine ⟨ny - 1 - j, by omega, ?_, ?_, ?_, ?_, ?_⟩
  · simp only [List.headD_cons, edge_eq, PyFloat.fin_add_fin]; congr 1; ring
  · simp only [List.headD_cons, edge_eq, PyFloat.fin_add_fin]; congr 1; push_cast; ring
  · simp only [List.headD_cons, edge_eq, PyFloat.fin_add_fin, PyFloat.fin_mul_fin, PyFloat.fin_sub_fin]
    congr 1
    have : ((ny - 1 - j : ℕ) : ℝ) = ny - 1 - j := by
      rw [Nat.cast_sub (by omega), Nat.cast_sub (by omega)]; simp
    rw [this]; ring
  · simp only [List.headD_cons, edge_eq, PyFloat.fin_add_fin, PyFloat.fin_mul_fin, PyFloat.fin_sub_fin]
    congr 1
    have : ((ny - 1 - j + 1 : ℕ) : ℝ) = ny - j := by
      have : ny - 1 - j + 1 = ny - j := by omega
      rw [this, Nat.cast_sub (by omega)]
    rw [this]; ring
  · have : ny - 1 - (ny - 1 - j) = j := by omega
    simp [this]

/-- A size mismatch is rejected. -/
theorem plotData_rejects (data : NArr PyFloat) (location pixel : PyFloat × PyFloat) (nx ny : ℕ) (scaling : PyFloat)
    (h : data.size ≠ nx * ny) : plotData data location pixel nx ny scaling = .error .valueError := by
  simp [plotData, h]

/-- Two lines of three samples. -/
example : (NArr.ofList [PyFloat.fin 1, .fin 0, .fin 3, .fin 4, .fin 5, .fin 6] .nan).size = 3 * 2 := by
  simp [NArr.size, NArr.ofList]

end Verif.Earthquake
