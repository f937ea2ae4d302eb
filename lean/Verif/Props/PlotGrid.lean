import Verif.Model.PlotGrid
import Verif.Spec.Interpolation
import Verif.Props.Plot2D
import Verif.Lemmas.Arctan2
import Verif.Lemmas.Rotation

/-! # C140: the map that `plot2Ddata` draws shows the data where they were measured, and its shading is that of a lit surface -/

namespace Verif.Plot2D

open Real

/-! ## The grid -/

theorem linspaceN_spec (a b : ℝ) {n : ℕ} (hn : 2 ≤ n) :
    (linspaceN a b n).length = n ∧ (linspaceN a b n)[0]? = some a ∧ (linspaceN a b n)[n - 1]? = some b ∧
      ∀ i, i + 1 < n → ∃ u v, (linspaceN a b n)[i]? = some u ∧ (linspaceN a b n)[i + 1]? = some v ∧ v - u = (b - a) / (n - 1) := by
  have h1 : n ≠ 1 := by omega
  have h2 : (n : ℝ) - 1 ≠ 0 := by
    have : (2 : ℝ) ≤ n := by exact_mod_cast hn
    linarith
  refine ⟨by simp [linspaceN], ?_, ?_, fun i hi => ?_⟩
  · rw [linspaceN, List.getElem?_map, List.getElem?_range (by omega)]; simp [h1]
  · rw [linspaceN, List.getElem?_map, List.getElem?_range (by omega)]
    simp only [Option.map_some, h1, if_false, Option.some.injEq]
    rw [Nat.cast_sub (by omega), Nat.cast_one]
    field_simp
    ring
  · refine ⟨_, _, by rw [linspaceN, List.getElem?_map, List.getElem?_range (by omega)]; rfl, by
      rw [linspaceN, List.getElem?_map, List.getElem?_range (by omega)]; rfl, ?_⟩
    simp only [h1, if_false]
    push_cast
    ring

theorem arrMin_spec {l : List ℝ} (h : l ≠ []) : ∃ m, arrMin l = .ok m ∧ m ∈ l ∧ ∀ y ∈ l, m ≤ y := by
  cases l with
  | nil => exact absurd rfl h
  | cons x xs => exact ⟨_, rfl, foldl_min_least x xs⟩

theorem arrMax_spec {l : List ℝ} (h : l ≠ []) : ∃ m, arrMax l = .ok m ∧ m ∈ l ∧ ∀ y ∈ l, y ≤ m := by
  cases l with
  | nil => exact absurd rfl h
  | cons x xs => exact ⟨_, rfl, foldl_max_greatest x xs⟩

/-- **C140.** The grid spans the rectangle around the stations, with `nx` columns and `ny` rows at equal distances. -/
theorem grid_spans_stations (pts : List (ℝ × ℝ)) (hp : pts ≠ []) {nx ny : ℕ} (hx : 2 ≤ nx) (hy : 2 ≤ ny) :
    ∃ x y x0 x1 y0 y1, gridAxes pts nx ny = .ok (x, y) ∧ x.length = nx ∧ y.length = ny ∧
      x[0]? = some x0 ∧ x[nx - 1]? = some x1 ∧ y[0]? = some y0 ∧ y[ny - 1]? = some y1 ∧
      (∀ p ∈ pts, x0 ≤ p.1 ∧ p.1 ≤ x1 ∧ y0 ≤ p.2 ∧ p.2 ≤ y1) ∧
      (∃ p ∈ pts, p.1 = x0) ∧ (∃ p ∈ pts, p.1 = x1) ∧ (∃ p ∈ pts, p.2 = y0) ∧ (∃ p ∈ pts, p.2 = y1) ∧
      (∀ i, i + 1 < nx → ∃ u v, x[i]? = some u ∧ x[i + 1]? = some v ∧ v - u = (x1 - x0) / (nx - 1)) ∧
      (∀ i, i + 1 < ny → ∃ u v, y[i]? = some u ∧ y[i + 1]? = some v ∧ v - u = (y1 - y0) / (ny - 1)) := by
  obtain ⟨a, ha, ha1, ha2⟩ := arrMin_spec (l := pts.map (·.1)) (by simpa using hp)
  obtain ⟨b, hb, hb1, hb2⟩ := arrMax_spec (l := pts.map (·.1)) (by simpa using hp)
  obtain ⟨c, hc, hc1, hc2⟩ := arrMin_spec (l := pts.map (·.2)) (by simpa using hp)
  obtain ⟨d, hd, hd1, hd2⟩ := arrMax_spec (l := pts.map (·.2)) (by simpa using hp)
  obtain ⟨l1, l2, l3, l4⟩ := linspaceN_spec a b hx
  obtain ⟨m1, m2, m3, m4⟩ := linspaceN_spec c d hy
  refine ⟨linspaceN a b nx, linspaceN c d ny, a, b, c, d, ?_, l1, m1, l2, l3, m2, m3, fun p h => ?_, ?_, ?_, ?_, ?_, l4, m4⟩
  · simp [gridAxes, ha, hb, hc, hd, bind, Except.bind, pure, Except.pure]
  · exact ⟨ha2 _ (List.mem_map_of_mem h), hb2 _ (List.mem_map_of_mem h), hc2 _ (List.mem_map_of_mem h), hd2 _ (List.mem_map_of_mem h)⟩
  · simpa using ha1
  · simpa using hb1
  · simpa using hc1
  · simpa using hd1

theorem gridPoints_eq (x y : List ℝ) : gridPoints x y = y.flatMap fun c => x.map fun a => (a, c) := by
  induction y with
  | nil => rfl
  | cons c y ih =>
    rw [List.flatMap_cons, ← ih]
    simp only [gridPoints, meshgridX, meshgridY, List.map_cons, List.flatten_cons]
    rw [List.zip_append (by simp)]
    congr 1
    clear ih
    induction x with
    | nil => rfl
    | cons a x ih => rw [List.map_cons, List.map_cons, List.zip_cons_cons, ih]

/-- **C140.** Row `i` and column `j` of what is drawn belongs to the point with the abscissa of the column and the ordinate of the row. -/
theorem node_position (x y : List ℝ) {i j : ℕ} (hi : i < y.length) (hj : j < x.length) :
    (gridPoints x y).length = y.length * x.length ∧ reshaped x.length (gridPoints x y) i j = some (x[j], y[i]) := by
  rw [gridPoints_eq, reshaped]
  constructor
  · simp
  · induction y generalizing i with
    | nil => simp at hi
    | cons c y ih =>
      rw [List.flatMap_cons]
      cases i with
      | zero => rw [Nat.zero_mul, Nat.zero_add, List.getElem?_append_left (by simpa using hj)]; simp [hj]
      | succ i =>
        rw [List.getElem?_append_right (by rw [List.length_map]; nlinarith), List.length_map,
          show (i + 1) * x.length + j - x.length = i * x.length + j by rw [Nat.succ_mul]; omega, ih (by simpa using hi)]
        rfl

theorem reshaped_map {α β : Type} (n : ℕ) (f : α → β) (l : List α) (i j : ℕ) : reshaped n (l.map f) i j = (reshaped n l i j).map f := by
  simp [reshaped]

/-- **C140.** With `method="nearest"` every node shows the datum of a closest station, and its mask is that of the station. -/
theorem node_nearest (I : Interp) (pts : List (ℝ × ℝ)) (d : List ℝ) (mask : List Bool) (hd : d.length = pts.length) (hm : mask.length = pts.length)
    (x y : List ℝ) {i j : ℕ} (hi : i < y.length) (hj : j < x.length) (hI : IsNearest pts (x[j], y[i]) (I.nearest pts (x[j], y[i]))) :
    ∃ g k v b, gridOf I "nearest" pts (.scalar d) x y = .scalar g ∧ IsNearest pts (x[j], y[i]) k ∧ d[k]? = some v ∧ mask[k]? = some b ∧
      reshaped x.length g i j = some (.fin v) ∧ reshaped x.length (gridMask I pts mask x y) i j = some b := by
  have hk : I.nearest pts (x[j], y[i]) < pts.length := by
    obtain ⟨q, hq, -⟩ := hI
    exact (List.getElem?_eq_some_iff.1 hq).1
  refine ⟨_, _, _, _, rfl, hI, List.getElem?_eq_getElem (hd ▸ hk), List.getElem?_eq_getElem (hm ▸ hk), ?_, ?_⟩
  · rw [reshaped_map, (node_position x y hi hj).2]
    simp [interpolate, hd, hk]
  · rw [gridMask, reshaped_map, (node_position x y hi hj).2]
    simp [hm, hk]

/-- **C140.** For vectors both components at a node, which the stream lines follow, come from the same closest station. -/
theorem node_nearest_vector (I : Interp) (pts : List (ℝ × ℝ)) (d : List (ℝ × ℝ)) (hd : d.length = pts.length)
    (x y : List ℝ) {i j : ℕ} (hi : i < y.length) (hj : j < x.length) (hI : IsNearest pts (x[j], y[i]) (I.nearest pts (x[j], y[i]))) :
    ∃ g k v, gridOf I "nearest" pts (.vector d) x y = .vector g ∧ IsNearest pts (x[j], y[i]) k ∧ d[k]? = some v ∧
      reshaped x.length g i j = some (.fin v.1, .fin v.2) := by
  have hk : I.nearest pts (x[j], y[i]) < pts.length := by
    obtain ⟨q, hq, -⟩ := hI
    exact (List.getElem?_eq_some_iff.1 hq).1
  refine ⟨_, _, _, rfl, hI, List.getElem?_eq_getElem (hd ▸ hk), ?_⟩
  rw [reshaped_map, (node_position x y hi hj).2]
  simp [interpolate, hd, hk]

/-- **C140.** With any other method a node shows the mean of stations around it, or NaN: data which are a linear function of the position are shown
without error. -/
theorem node_linear (I : Interp) {method : String} (hmet : method ≠ "nearest") (pts : List (ℝ × ℝ)) (a b c : ℝ) (x y : List ℝ) {i j : ℕ}
    (hi : i < y.length) (hj : j < x.length) (hI : ∀ w, I.linear pts (x[j], y[i]) = some w → IsMean pts (x[j], y[i]) w) :
    ∃ g, gridOf I method pts (.scalar (pts.map fun p => a * p.1 + b * p.2 + c)) x y = .scalar g ∧
      (reshaped x.length g i j = some .nan ∨ reshaped x.length g i j = some (.fin (a * x[j] + b * y[i] + c))) := by
  refine ⟨_, rfl, ?_⟩
  rw [reshaped_map, (node_position x y hi hj).2]
  simp only [interpolate, hmet, if_false, Option.map_some, Option.some.injEq]
  rcases hw : I.linear pts (x[j], y[i]) with _ | w
  · exact .inl rfl
  right
  obtain ⟨h1, -, h3, h4, h5⟩ := hI w hw
  simp only at h4 h5
  have e : (w.map fun q => q.2 * (pts.map fun p => a * p.1 + b * p.2 + c).getD q.1 0) =
      w.map fun q => a * (q.2 * (pts.getD q.1 0).1) + b * (q.2 * (pts.getD q.1 0).2) + c * q.2 := by
    refine List.map_congr_left fun q hq => ?_
    have := h1 q hq
    simp [List.getD, this]
    ring
  dsimp only
  rw [e, List.sum_map_add, List.sum_map_add, List.sum_map_mul_left, List.sum_map_mul_left, List.sum_map_mul_left, h3, h4, h5, mul_one]

/-- What is on the grid lies between the smallest and the largest datum. -/
theorem node_between (I : Interp) (method : String) (pts : List (ℝ × ℝ)) (d : List ℝ) (hd : d.length = pts.length) {lo hi : ℝ}
    (hb : ∀ v ∈ d, lo ≤ v ∧ v ≤ hi) (p : ℝ × ℝ) (hN : IsNearest pts p (I.nearest pts p)) (hL : ∀ w, I.linear pts p = some w → IsMean pts p w) {v : ℝ}
    (hv : interpolate I method pts d p = .fin v) : lo ≤ v ∧ v ≤ hi := by
  unfold interpolate at hv
  split_ifs at hv with hm
  · have hk : I.nearest pts p < d.length := by
      obtain ⟨q, hq, -⟩ := hN
      exact hd ▸ (List.getElem?_eq_some_iff.1 hq).1
    rw [PyFloat.fin.injEq] at hv
    subst hv
    simpa [List.getD, hk] using hb _ (List.getElem_mem hk)
  · rcases hw : I.linear pts p with _ | w <;> rw [hw] at hv <;> simp only [reduceCtorEq, PyFloat.fin.injEq] at hv
    subst hv
    obtain ⟨h1, h2, h3, -, -⟩ := hL w hw
    have hbk : ∀ c ∈ w, lo ≤ d.getD c.1 0 ∧ d.getD c.1 0 ≤ hi := fun c hc => by
      have := hd ▸ h1 c hc
      simpa [List.getD, this] using hb _ (List.getElem_mem this)
    constructor
    · calc lo = (w.map fun c => c.2 * lo).sum := by rw [List.sum_map_mul_right, h3, one_mul]
        _ ≤ _ := List.sum_le_sum fun c hc => mul_le_mul_of_nonneg_left (hbk c hc).1 (h2 c hc)
    · calc (w.map fun c => c.2 * d.getD c.1 0).sum ≤ (w.map fun c => c.2 * hi).sum :=
          List.sum_le_sum fun c hc => mul_le_mul_of_nonneg_left (hbk c hc).2 (h2 c hc)
        _ = hi := by rw [List.sum_map_mul_right, h3, one_mul]

/-- **C140.** Without `clim`, `vmin` and `vmax` the colours of a map of scalars stay within the range of the data. -/
theorem colours_within_data (I : Interp) (hN : ∀ pts p, pts ≠ [] → IsNearest pts p (I.nearest pts p))
    (hL : ∀ pts p w, I.linear pts p = some w → IsMean pts p w) (method : String) (pts : List (ℝ × ℝ)) (hp : pts ≠ []) (d : List ℝ)
    (hd : d.length = pts.length) {lo hi : ℝ} (hb : ∀ v ∈ d, lo ≤ v ∧ v ≤ hi) {nx ny : ℕ} {a : Args} (ha : a.clim = none) (hs : a.scale ≠ "log")
    {opts : Dict} (h1 : opts "vmin" = none) (h2 : opts "vmax" = none) {r : Drawn} (h : (plotStations I method pts (.scalar d) nx ny a opts).2 = .ok r) :
    ∃ u v : ℝ, r.vmin = .num (.fin u) ∧ r.vmax = .num (.fin v) ∧ lo ≤ u ∧ u ≤ v ∧ v ≤ hi := by
  unfold plotStations at h
  rcases hg : gridAxes pts nx ny with e | ⟨x, y⟩ <;> rw [hg] at h
  · rcases hr : (resolveLimits a.clim opts).2 with e' | l <;> rw [hr] at h <;> simp at h
  simp only at h
  obtain ⟨l, u, g, e1, e2, e3, e4, -, -⟩ := drawn_limits h
  simp only at e1
  rw [ha, limits_from_options, h1, h2] at e1
  simp only [Option.getD_none, Except.ok.injEq, Prod.mk.injEq] at e1
  obtain ⟨rfl, rfl⟩ := e1
  have hg2 : g = (gridPoints x y).map (interpolate I method pts d) := by
    simp only [gridData, gridOf] at e2
    split_ifs at e2
    · simpa using e2.symm
  obtain ⟨-, k1, k2⟩ := limits_from_data g
  by_cases hx : ∃ x : ℝ, PyFloat.fin x ∈ g
  · obtain ⟨p, q, f1, f2, ⟨f3, f4⟩, f5, f6⟩ := k2 hx
    rw [f1, Except.ok.injEq] at e3
    rw [f2, Except.ok.injEq] at e4
    have hz : ∀ z : ℝ, PyFloat.fin z ∈ g → lo ≤ z ∧ z ≤ hi := fun z hz => by
      rw [hg2, List.mem_map] at hz
      obtain ⟨t, -, ht⟩ := hz
      exact node_between I method pts d hd hb t (hN pts t hp) (hL pts t) ht
    exact ⟨p, q, e3.symm, e4.symm, (hz p f3).1, f4 q f5, (hz q f5).2⟩
  · rw [(k1 (by simpa using hx)).1] at e3
    simp at e3

/-! ## The shading -/

/-- The brightness is that of a surface lit from the azimuth counted from *south*: rows run north, the formula is one for images, whose rows run south. -/
theorem hillshade_eq {n m : ℕ} (hn : 2 ≤ n) (hm : 2 ≤ m) (f : ℕ → ℕ → ℝ) (azimuth altitude : ℝ) (i j : ℕ) :
    hillshade n m f azimuth altitude i j = .ok (brightness (npGradient m (fun k => f i k) j) (npGradient n (fun k => f k j) i)
      (lightDirection (180 - azimuth) altitude)) := by
  unfold hillshade
  rw [if_neg (by omega)]
  simp only
  generalize npGradient n (fun k => f k j) i = q
  generalize npGradient m (fun k => f i k) j = p
  have hw : (0 : ℝ) < √(1 + p ^ 2 + q ^ 2) := sqrt_pos.2 (by positivity)
  have hg : √(q * q + p * p) ^ 2 = p ^ 2 + q ^ 2 := by rw [sq_sqrt (by nlinarith [sq_nonneg p, sq_nonneg q])]; ring
  have hgs : √(1 + √(q * q + p * p) ^ 2) = √(1 + p ^ 2 + q ^ 2) := by rw [hg, add_assoc]
  have hc := Spatial.sqrt_mul_cos_arctan2 (-q) p
  have hs := Spatial.sqrt_mul_sin_arctan2 (-q) p
  rw [show p ^ 2 + (-q) ^ 2 = q * q + p * p by ring] at hc hs
  rw [sin_pi_div_two_sub, cos_pi_div_two_sub, cos_arctan, sin_arctan, hgs]
  generalize hG : √(q * q + p * p) = G at hc hs ⊢
  have e1 : (360 - azimuth) * π / 180 - π / 2 - Spatial.arctan2 (-q) p = 2 * π - (azimuth * π / 180 + π / 2 + Spatial.arctan2 (-q) p) := by ring
  have e2 : (180 - azimuth) * π / 180 = π - azimuth * π / 180 := by ring
  rw [e1, cos_two_pi_sub]
  simp only [brightness, surfaceNormal, lightDirection, V3.dot, V3.smul_x, V3.smul_y, V3.smul_z]
  rw [e2, sin_pi_sub, cos_pi_sub, add_right_comm (azimuth * π / 180), cos_add_pi_div_two, sin_add]
  simp only [smul_eq_mul]
  congr 4
  generalize azimuth * π / 180 = A at *
  generalize altitude * π / 180 = B at *
  generalize √(1 + p ^ 2 + q ^ 2) = W at *
  generalize Spatial.arctan2 (-q) p = C at *
  have : G * (sin A * cos C + cos A * sin C) = p * sin A - q * cos A := by rw [mul_add]; linear_combination sin A * hc + cos A * hs
  field_simp
  linear_combination -cos B * this

theorem surfaceNormal_len (p q : ℝ) : (surfaceNormal p q).len = 1 := by
  have h : (0 : ℝ) < 1 + p ^ 2 + q ^ 2 := by positivity
  have hw := sq_sqrt h.le
  have hw0 := (sqrt_pos.2 h).ne'
  unfold V3.len
  rw [sqrt_eq_one]
  simp only [surfaceNormal, V3.smul_x, V3.smul_y, V3.smul_z, smul_eq_mul]
  field_simp
  linarith

theorem lightDirection_len (azimuth altitude : ℝ) : (lightDirection azimuth altitude).len = 1 := by
  unfold V3.len
  rw [sqrt_eq_one]
  simp only [lightDirection]
  generalize azimuth * π / 180 = A
  generalize altitude * π / 180 = B
  have h1 := sin_sq_add_cos_sq A
  have h2 := sin_sq_add_cos_sq B
  linear_combination cos B ^ 2 * h1 + h2

/-- **C140.** The brightness is between 0 and 255. -/
theorem shading_range {n m : ℕ} (hn : 2 ≤ n) (hm : 2 ≤ m) (f : ℕ → ℕ → ℝ) (azimuth altitude : ℝ) (i j : ℕ) :
    ∃ b, hillshade n m f azimuth altitude i j = .ok b ∧ 0 ≤ b ∧ b ≤ 255 := by
  refine ⟨_, hillshade_eq hn hm f azimuth altitude i j, ?_⟩
  have h := V3.dot_sq_le (surfaceNormal (npGradient m (fun k => f i k) j) (npGradient n (fun k => f k j) i)) (lightDirection (180 - azimuth) altitude)
  rw [V3.dot_self, V3.dot_self, surfaceNormal_len, lightDirection_len] at h
  simp only [one_pow, mul_one, sq_le_one_iff_abs_le_one] at h
  have := abs_le.1 h
  unfold brightness
  constructor <;> linarith

/-- **C140, the part that holds.** With the light due east or west, or where the map does not change to the north, a node is as bright as a surface
which the light shines on. -/
theorem shading_partial {n m : ℕ} (hn : 2 ≤ n) (hm : 2 ≤ m) (f : ℕ → ℕ → ℝ) (azimuth altitude : ℝ) (i j : ℕ)
    (h : cos (azimuth * π / 180) = 0 ∨ npGradient n (fun k => f k j) i = 0) :
    hillshade n m f azimuth altitude i j = .ok (brightness (npGradient m (fun k => f i k) j) (npGradient n (fun k => f k j) i)
      (lightDirection azimuth altitude)) := by
  rw [hillshade_eq hn hm]
  simp only [brightness, surfaceNormal, lightDirection, V3.dot, V3.smul_x, V3.smul_y, V3.smul_z, smul_eq_mul]
  rw [show (180 - azimuth) * π / 180 = π - azimuth * π / 180 by ring, sin_pi_sub, cos_pi_sub]
  rcases h with h | h <;> rw [h] <;> simp

theorem npGradient_linear {n : ℕ} (hn : 2 ≤ n) (a b : ℝ) (i : ℕ) : npGradient n (fun k => a + b * k) i = b := by
  unfold npGradient
  split_ifs with h1 h2
  · push_cast; ring
  · simp only []
    rw [Nat.cast_sub (show 1 ≤ n by omega), Nat.cast_sub (show 2 ≤ n by omega)]; push_cast; ring
  · simp only []
    rw [Nat.cast_sub (show 1 ≤ i by omega)]; push_cast; ring

/-- **C140, negation.** The light is on the wrong side: a map which rises to the north, so that its surface faces south, is fully lit by a light in the
north; a surface which the light grazes has half the brightness. -/
theorem shading_from_wrong_side : ∃ (f : ℕ → ℕ → ℝ), (∀ i j, f i j = i) ∧ ∀ n m i j : ℕ, 2 ≤ n → 2 ≤ m →
    hillshade n m f 0 45 i j = .ok 255 ∧ brightness 0 1 (lightDirection 0 45) = 255 / 2 := by
  refine ⟨fun i _ => i, fun _ _ => rfl, fun n m i j hn hm => ?_⟩
  have g1 : npGradient n (fun k => (k : ℝ)) i = 1 := by simpa using npGradient_linear hn 0 1 i
  have g2 : npGradient m (fun _ => (i : ℝ)) j = 0 := by simpa using npGradient_linear hm i 0 j
  have h2 : √2 * √2 = (2 : ℝ) := mul_self_sqrt (by norm_num)
  have h20 : √2 ≠ 0 := by positivity
  have e45 : (45 : ℝ) * π / 180 = π / 4 := by ring
  rw [hillshade_eq hn hm]
  simp only [g1, g2, brightness, surfaceNormal, lightDirection, V3.dot, V3.smul_x, V3.smul_y, V3.smul_z, smul_eq_mul]
  rw [e45, show ((180 : ℝ) - 0) * π / 180 = π by ring, sin_pi, cos_pi, cos_pi_div_four, sin_pi_div_four, show (0 : ℝ) * π / 180 = 0 by ring, sin_zero, cos_zero,
    show (1 : ℝ) + 0 ^ 2 + 1 ^ 2 = 2 by norm_num]
  constructor
  · congr 1
    field_simp
    nlinarith
  · field_simp
    ring

/-- **C140.** A plane is equally bright everywhere, up to the edges; the slopes that count are those from one node to the next. -/
theorem shading_plane {n m : ℕ} (hn : 2 ≤ n) (hm : 2 ≤ m) (a b c azimuth altitude : ℝ) (i j : ℕ) :
    hillshade n m (fun i j => a * j + b * i + c) azimuth altitude i j = .ok (brightness a b (lightDirection (180 - azimuth) altitude)) := by
  rw [hillshade_eq hn hm]
  have g1 : npGradient n (fun k : ℕ => a * j + b * k + c) i = b := by
    rw [show (fun k : ℕ => a * j + b * k + c) = fun k : ℕ => (a * j + c) + b * k by funext k; ring, npGradient_linear hn]
  have g2 : npGradient m (fun k : ℕ => a * k + b * i + c) j = a := by
    rw [show (fun k : ℕ => a * k + b * i + c) = fun k : ℕ => (b * i + c) + a * k by funext k; ring, npGradient_linear hm]
  rw [g1, g2]

/-- **C140, negation.** The brightness of the same map depends on the number of nodes: a plane which rises by one to the east across the map, lit from
the zenith, is brighter on a finer grid. -/
theorem shading_depends_on_grid {m : ℕ} (hm : 2 ≤ m) :
    hillshade 2 m (fun _ j => (linspaceN 0 1 m).getD j 0) 0 90 0 0 = .ok (255 * (1 / √(1 + (1 / ((m : ℝ) - 1)) ^ 2) + 1) / 2) := by
  have hm1 : m ≠ 1 := by omega
  have e : ∀ j, j < m → (linspaceN 0 1 m).getD j 0 = 1 / ((m : ℝ) - 1) * j := fun j hj => by
    simp [linspaceN, List.getD, hj, hm1]
    ring
  rw [hillshade_eq le_rfl hm]
  have g1 : npGradient 2 (fun _ => (linspaceN 0 1 m).getD 0 0) 0 = 0 := by simp [npGradient]
  have g2 : npGradient m (fun k => (linspaceN 0 1 m).getD k 0) 0 = 1 / ((m : ℝ) - 1) := by
    simp only [npGradient, if_true]
    rw [e 0 (by omega), e 1 (by omega)]
    push_cast
    ring
  rw [g1, g2]
  simp only [brightness, surfaceNormal, lightDirection, V3.dot, V3.smul_x, V3.smul_y, V3.smul_z, smul_eq_mul]
  rw [show (90 : ℝ) * π / 180 = π / 2 by ring, cos_pi_div_two, sin_pi_div_two]
  simp

/-- **C140.** Colours are drawn first and lowest; unless their heights are given, the shading is drawn above the colours, the contour lines above the
shading and the stream lines above the contour lines. -/
theorem layers_order (vec level shade dataloc : Flag) :
    (layers vec level shade dataloc).head? = some (.colours 1) ∧
    (∀ z, .streams z ∈ layers vec level shade dataloc ↔ vec ≠ .bool false ∧ z = 4) ∧
    (∀ z, .lines z ∈ layers vec level shade dataloc ↔ level.truthy ∧ z = 3) ∧
    (∀ z, .shading z ∈ layers vec level shade dataloc ↔ shade.truthy ∧ z = 2) ∧
    (.dots ∈ layers vec level shade dataloc ↔ dataloc.truthy) := by
  unfold layers
  refine ⟨by simp, fun z => ?_, fun z => ?_, fun z => ?_, ?_⟩ <;>
    by_cases h1 : vec = .bool false <;> by_cases h2 : level.truthy <;> by_cases h3 : shade.truthy <;> by_cases h4 : dataloc.truthy <;> simp [h1, h2, h3, h4]

/-- **C140.** Without stations nothing is drawn: numpy finds no smallest coordinate and raises `ValueError`. -/
theorem no_stations (I : Interp) (method : String) (d : Stations) (nx ny : ℕ) (a : Args) (ha : a.clim = none) (opts : Dict) :
    (plotStations I method [] d nx ny a opts).2 = .error .valueError := by
  have h1 : gridAxes [] nx ny = .error .valueError := rfl
  have h2 : ∃ l, (resolveLimits none opts).2 = .ok l := by
    simp only [resolveLimits, resolveOne]
    rcases opts "vmin" with _ | v <;> simp only <;> split <;> rename_i h <;> split at h <;> simp_all
  obtain ⟨l, h2⟩ := h2
  simp only [plotStations, h1, ha, h2]

/-- **C140.** Colour limits that contradict each other are reported before the stations are looked at, whatever these are. -/
theorem limits_first (I : Interp) (method : String) (pts : List (ℝ × ℝ)) (d : Stations) (nx ny : ℕ) (a : Args) (opts : Dict) (e : PyErr)
    (h : (resolveLimits a.clim opts).2 = .error e) : (plotStations I method pts d nx ny a opts).2 = .error e := by
  unfold plotStations
  split
  · simp only [plot2Ddata]
    split
    · rename_i h1
      rw [h1] at h
      simp only [Except.error.injEq] at h ⊢
      exact h
    · rename_i h1
      rw [h1] at h
      simp at h
  · simp only [h]

/-- Non-vacuity: three stations, the interpolator that takes the first closest of them, and a weighted mean. -/
example : IsNearest [(0, 0), (1, 0), (0, 1)] (0, 0) 0 ∧ IsMean [(0, 0), (1, 0), (0, 1)] (1 / 4, 1 / 2) [(0, 1 / 4), (1, 1 / 4), (2, 1 / 2)] := by
  refine ⟨⟨_, rfl, by simp⟩, by simp, by norm_num, by norm_num, by norm_num, by norm_num⟩

end Verif.Plot2D
