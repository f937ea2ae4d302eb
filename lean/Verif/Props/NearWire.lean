import Verif.Props.Ampere
import Verif.Spec.StaticLimit

/-!
# C142: Close to a wire

Close to a point inside one of the pieces of a wire the magnetic field is that of an infinitely long straight wire: at the distance `d` it is
`I/2πd`, around the wire, whatever the rest of the wire looks like. -/

namespace Verif.Static

open V3 Spatial BiotSavart Coil Filter Topology

theorem segSum_split (g : V3 ℝ → V3 ℝ → V3 ℝ) (pre : List (V3 ℝ)) (a b : V3 ℝ) (post : List (V3 ℝ)) :
    segSum g (pre ++ a :: b :: post) = segSum g (pre ++ [a]) + g a b + segSum g (b :: post) := by
  induction pre with
  | nil => simp [segSum]
  | cons p t ih =>
    cases t with
    | nil => simp only [List.cons_append, List.nil_append, segSum]; module
    | cons p' t' =>
      simp only [List.cons_append, segSum] at ih ⊢
      rw [ih]
      module

/-- The other pieces do not count. -/
theorem tends_smooth {F : V3 ℝ → V3 ℝ} {c w : V3 ℝ} (h : Smooth F c) : V3.Tends (fun d : ℝ => d • F (c + d • w)) (𝓝 0) 0 := by
  have k : ∀ e : V3 ℝ, Tendsto (fun d : ℝ => d * (F (c + d • w)).app e) (𝓝 0) (𝓝 0) := fun e => by
    have h1 := (smooth_line (F := F) (a := c) (u := w) (t := 0) (by simpa using h) e).tendsto
    have h2 : Tendsto (fun d : ℝ => d) (𝓝 0) (𝓝 0) := tendsto_id
    simpa using h2.mul h1
  refine ⟨?_, ?_, ?_⟩
  · simpa [V3.app] using k ⟨1, 0, 0⟩
  · simpa [V3.app] using k ⟨0, 1, 0⟩
  · simpa [V3.app] using k ⟨0, 0, 1⟩

theorem Tends.add {F G : ℝ → V3 ℝ} {l : Filter ℝ} {u v : V3 ℝ} (h : V3.Tends F l u) (k : V3.Tends G l v) : V3.Tends (fun d => F d + G d) l (u + v) :=
  ⟨h.1.add k.1, h.2.1.add k.2.1, h.2.2.add k.2.2⟩

/-- The piece itself. -/
theorem bs_near {e w a b : V3 ℝ} {l m d : ℝ} (hl : 0 < l) (hm : 0 < m) (he : e.len = 1) (hw : w.len = 1) (hew : e.dot w = 0)
    (hd : d ≠ 0) {c : V3 ℝ} (ha : c = a + l • e) (hb : b = c + m • e) :
    d • bs a b (c + d • w) =
      ((1 / √(l ^ 2 + d ^ 2) + 1 / √(m ^ 2 + d ^ 2)) * ((√(l ^ 2 + d ^ 2) * √(m ^ 2 + d ^ 2) + l * m - d ^ 2) / (l + m))) • e.cross w := by
  have he' : e.dot e = 1 := by rw [V3.dot_self, he]; norm_num
  have hw' : w.dot w = 1 := by rw [V3.dot_self, hw]; norm_num
  have qa : c + d • w - a = l • e + d • w := by rw [ha]; module
  have qb : c + d • w - b = d • w - m • e := by rw [hb]; module
  have n1 : (l • e + d • w).len = √(l ^ 2 + d ^ 2) := by
    rw [← Real.sqrt_sq (len_nonneg _), ← V3.dot_self]
    congr 1
    simp only [V3.dot, add_x, add_y, add_z, smul_x, smul_y, smul_z, smul_eq_mul] at he' hw' hew ⊢
    linear_combination l ^ 2 * he' + d ^ 2 * hw' + 2 * l * d * hew
  have n2 : (d • w - m • e).len = √(m ^ 2 + d ^ 2) := by
    rw [← Real.sqrt_sq (len_nonneg _), ← V3.dot_self]
    congr 1
    simp only [V3.dot, sub_x, sub_y, sub_z, smul_x, smul_y, smul_z, smul_eq_mul] at he' hw' hew ⊢
    linear_combination m ^ 2 * he' + d ^ 2 * hw' - 2 * m * d * hew
  have n3 : (l • e + d • w).dot (d • w - m • e) = d ^ 2 - l * m := by
    simp only [V3.dot, add_x, add_y, add_z, sub_x, sub_y, sub_z, smul_x, smul_y, smul_z, smul_eq_mul] at he' hw' hew ⊢
    linear_combination (-l * m) * he' + d ^ 2 * hw' + (l * d - m * d) * hew
  have n4 : (l • e + d • w).cross (d • w - m • e) = ((l + m) * d) • e.cross w := by
    ext <;> simp only [V3.cross, add_x, add_y, add_z, sub_x, sub_y, sub_z, smul_x, smul_y, smul_z, smul_eq_mul] <;> ring
  have hd2 : 0 < d ^ 2 := by positivity
  have p1 : 0 < √(l ^ 2 + d ^ 2) := Real.sqrt_pos.2 (by positivity)
  have p2 : 0 < √(m ^ 2 + d ^ 2) := Real.sqrt_pos.2 (by positivity)
  have s1 : √(l ^ 2 + d ^ 2) ^ 2 = l ^ 2 + d ^ 2 := Real.sq_sqrt (by positivity)
  have s2 : √(m ^ 2 + d ^ 2) ^ 2 = m ^ 2 + d ^ 2 := Real.sq_sqrt (by positivity)
  have key : (√(l ^ 2 + d ^ 2) * √(m ^ 2 + d ^ 2) + (d ^ 2 - l * m)) * (√(l ^ 2 + d ^ 2) * √(m ^ 2 + d ^ 2) + l * m - d ^ 2) = d ^ 2 * (l + m) ^ 2 := by
    grind
  rw [bs, qa, qb, n1, n2, n3, n4, smul_smul, smul_smul]
  congr 1
  have hne : √(l ^ 2 + d ^ 2) * √(m ^ 2 + d ^ 2) + (d ^ 2 - l * m) ≠ 0 := fun h => by
    rw [h, zero_mul] at key
    have : 0 < d ^ 2 * (l + m) ^ 2 := by positivity
    linarith
  have hlm : l + m ≠ 0 := by positivity
  generalize 1 / √(l ^ 2 + d ^ 2) + 1 / √(m ^ 2 + d ^ 2) = A at *
  generalize √(l ^ 2 + d ^ 2) * √(m ^ 2 + d ^ 2) = B at *
  have : (B + (d ^ 2 - l * m))⁻¹ = (B + l * m - d ^ 2) / (d ^ 2 * (l + m) ^ 2) := by
    rw [inv_eq_one_div, div_eq_div_iff hne (by positivity), one_mul, ← key]
    ring
  rw [this]
  field_simp

theorem tends_bs {e w a b c : V3 ℝ} {l m : ℝ} (hl : 0 < l) (hm : 0 < m) (he : e.len = 1) (hw : w.len = 1) (hew : e.dot w = 0)
    (ha : c = a + l • e) (hb : b = c + m • e) : V3.Tends (fun d : ℝ => d • bs a b (c + d • w)) (𝓝[>] 0) ((2 : ℝ) • e.cross w) := by
  have k : Tendsto (fun d : ℝ => (1 / √(l ^ 2 + d ^ 2) + 1 / √(m ^ 2 + d ^ 2)) * ((√(l ^ 2 + d ^ 2) * √(m ^ 2 + d ^ 2) + l * m - d ^ 2) / (l + m))) (𝓝[>] 0)
      (𝓝 2) := by
    have hc : ContinuousAt (fun d : ℝ => (1 / √(l ^ 2 + d ^ 2) + 1 / √(m ^ 2 + d ^ 2)) *
        ((√(l ^ 2 + d ^ 2) * √(m ^ 2 + d ^ 2) + l * m - d ^ 2) / (l + m))) 0 := by
      have h1 : √(l ^ 2 + 0 ^ 2) ≠ 0 := (Real.sqrt_pos.2 (by positivity)).ne'
      have h2 : √(m ^ 2 + 0 ^ 2) ≠ 0 := (Real.sqrt_pos.2 (by positivity)).ne'
      have h3 : l + m ≠ 0 := by positivity
      fun_prop (disch := assumption)
    have := hc.tendsto
    have v : (1 / √(l ^ 2 + (0:ℝ) ^ 2) + 1 / √(m ^ 2 + (0:ℝ) ^ 2)) * ((√(l ^ 2 + (0:ℝ) ^ 2) * √(m ^ 2 + (0:ℝ) ^ 2) + l * m - (0:ℝ) ^ 2) / (l + m)) = 2 := by
      have e1 : √(l ^ 2 + (0:ℝ) ^ 2) = l := by rw [show l ^ 2 + (0:ℝ) ^ 2 = l ^ 2 by ring, Real.sqrt_sq hl.le]
      have e2 : √(m ^ 2 + (0:ℝ) ^ 2) = m := by rw [show m ^ 2 + (0:ℝ) ^ 2 = m ^ 2 by ring, Real.sqrt_sq hm.le]
      rw [e1, e2]
      field_simp
      ring
    rw [v] at this
    exact this.mono_left nhdsWithin_le_nhds
  have ev : ∀ᶠ d : ℝ in 𝓝[>] 0, ((1 / √(l ^ 2 + d ^ 2) + 1 / √(m ^ 2 + d ^ 2)) * ((√(l ^ 2 + d ^ 2) * √(m ^ 2 + d ^ 2) + l * m - d ^ 2) / (l + m))) •
      e.cross w = d • bs a b (c + d • w) := by
    filter_upwards [self_mem_nhdsWithin] with d hd
    exact (bs_near hl hm he hw hew (ne_of_gt hd) ha hb).symm
  refine ⟨?_, ?_, ?_⟩
  · exact (k.mul_const (e.cross w).x).congr' (ev.mono fun d h => congrArg V3.x h)
  · exact (k.mul_const (e.cross w).y).congr' (ev.mono fun d h => congrArg V3.y h)
  · exact (k.mul_const (e.cross w).z).congr' (ev.mono fun d h => congrArg V3.z h)

theorem tends_segSum {nodes : List (V3 ℝ)} {c w : V3 ℝ} (h : Off nodes c) :
    V3.Tends (fun d : ℝ => d • segSum (fun a b => bs a b (c + d • w)) nodes) (𝓝[>] 0) 0 := by
  have := tends_smooth (w := w) (smooth_segSum (g := bs) nodes (h.imp fun a b k => smooth_bs k.offSeg))
  exact ⟨this.1.mono_left nhdsWithin_le_nhds, this.2.1.mono_left nhdsWithin_le_nhds, this.2.2.mono_left nhdsWithin_le_nhds⟩

theorem off_split {q : V3 ℝ} {pre : List (V3 ℝ)} {a b : V3 ℝ} {post : List (V3 ℝ)} (h1 : Off (pre ++ [a]) q) (h2 : OffLine a b q) (h3 : Off (b :: post) q) :
    Off (pre ++ a :: b :: post) q := by
  induction pre with
  | nil => exact List.isChain_cons_cons.2 ⟨h2, h3⟩
  | cons p t ih =>
    cases t with
    | nil =>
      simp only [Off, List.cons_append, List.nil_append, List.isChain_cons_cons] at h1 ⊢
      exact ⟨h1.1, h2, h3⟩
    | cons p' t' =>
      simp only [Off, List.cons_append, List.isChain_cons_cons] at h1 ih ⊢
      exact ⟨h1.1, ih h1.2⟩

/-- **C142.** The points `c + d w` next to the point `c`, which is at the fraction `t` of the piece of the wire from `a` to `b` and not on the lines
of the other pieces: at small distances `d` the field is defined, and the product of the distance and the field tends to `I/2π` times the vector
that is perpendicular to the wire and to `w`, with the right-hand rule. -/
theorem near_wire (s : LineCurrent) (hmu : 0 < s.mu) (hsig : 0 < s.sigma) (hr : Regular s.nodes) (pre post : List (V3 ℝ)) (a b : V3 ℝ)
    (hn : s.nodes = pre ++ a :: b :: post) (t : ℝ) (ht : 0 < t) (ht' : t < 1) (c : V3 ℝ) (hc : c = a + t • (b - a)) (h1 : Off (pre ++ [a]) c)
    (h2 : Off (b :: post) c) (w : V3 ℝ) (hw : w.len = 1) (hwp : (b - a).dot w = 0) :
    ∃ H : ℝ → V3 ℝ, (∀ᶠ d in 𝓝[>] 0, s.magneticField (c + d • w) = .ok (H d)) ∧
      V3.Tends (fun d => d • H d) (𝓝[>] 0) ((s.current / (2 * Real.pi)) • ((1 / (b - a).len) • (b - a)).cross w) := by
  have hab : a ≠ b := by
    have h := hr
    rw [Regular, hn] at h
    exact (List.isChain_cons_cons.1 (List.isChain_append.1 h).2.1).1.1
  have hL : 0 < (b - a).len := len_sub_pos hab.symm
  set L := (b - a).len with hLdef
  set e : V3 ℝ := (1 / L) • (b - a) with hedef
  have he : e.len = 1 := by
    rw [hedef, V3.len_smul, abs_of_pos (by positivity)]
    field_simp
    exact hLdef.symm
  have hew : e.dot w = 0 := by
    simp only [V3.dot, hedef, smul_x, smul_y, smul_z, smul_eq_mul] at hwp ⊢
    linear_combination (1 / L) * hwp
  have hLe : (b - a) = L • e := by rw [hedef, smul_smul, mul_one_div_cancel hL.ne', one_smul]
  have ha : c = a + (t * L) • e := by rw [hc, hLe, smul_smul]
  have hb : b = c + ((1 - t) * L) • e := by
    rw [hc, ← smul_smul, ← hLe]
    module
  refine ⟨fun d => (s.current / (4 * Real.pi)) • segSum (fun a b => bs a b (c + d • w)) s.nodes, ?_, ?_⟩
  · have k1 := (eventually_off _ _ h1 w).filter_mono (nhdsWithin_le_nhds (s := Set.Ioi 0))
    have k2 := (eventually_off _ _ h2 w).filter_mono (nhdsWithin_le_nhds (s := Set.Ioi 0))
    filter_upwards [k1, k2, self_mem_nhdsWithin] with d o1 o2 hd
    refine ((line_enclosed s hmu hsig (by rw [hn]; simp; omega) hr).1 _ ?_).1
    rw [hn]
    refine off_split o1 ?_ o2
    intro z
    have z' : (L * d) • e.cross w = 0 := by
      rw [← z, hLe, ha]
      ext <;> simp only [V3.cross, add_x, add_y, add_z, sub_x, sub_y, sub_z, smul_x, smul_y, smul_z, smul_eq_mul] <;> ring
    have hcr : (e.cross w).dot (e.cross w) = 1 := by
      rw [V3.cross_dot_self, hew, V3.dot_self, V3.dot_self, he, hw]
      norm_num
    have hd' : (0:ℝ) < d := hd
    have hk : L * d ≠ 0 := by positivity
    have hz : e.cross w = 0 := by
      have := congrArg (fun v => (L * d)⁻¹ • v) z'
      simpa only [smul_smul, inv_mul_cancel₀ hk, one_smul, smul_zero] using this
    rw [hz] at hcr
    simp [V3.dot] at hcr
  · have k := Tends.add (Tends.add (tends_segSum (w := w) h1) (tends_bs (mul_pos ht hL) (mul_pos (sub_pos.2 ht') hL) he hw hew ha hb)) (tends_segSum (w := w) h2)
    have e0 : ∀ d : ℝ, d • (s.current / (4 * Real.pi)) • segSum (fun a b => bs a b (c + d • w)) s.nodes = (s.current / (4 * Real.pi)) •
        (d • segSum (fun a b => bs a b (c + d • w)) (pre ++ [a]) + d • bs a b (c + d • w) + d • segSum (fun a b => bs a b (c + d • w)) (b :: post)) := fun d => by
      rw [hn, segSum_split]
      module
    have e1 : (s.current / (2 * Real.pi)) • e.cross w = (s.current / (4 * Real.pi)) • ((0 : V3 ℝ) + (2 : ℝ) • e.cross w + 0) := by
      rw [zero_add, add_zero, smul_smul]
      congr 1
      field_simp
      norm_num
    simp only [e0]
    rw [e1]
    exact ⟨k.1.const_mul _, k.2.1.const_mul _, k.2.2.const_mul _⟩

/-- Next to the middle of the first of two pieces that make a corner. -/
example : ((⟨2, 0, 0⟩ : V3 ℝ) - ⟨0, 0, 0⟩).dot ⟨0, 0, 1⟩ = 0 ∧ (⟨0, 0, 1⟩ : V3 ℝ).len = 1 ∧ Off ([] ++ [⟨0, 0, 0⟩]) ⟨1, 0, 0⟩ ∧
    Off [⟨2, 0, 0⟩, ⟨2, 1, 0⟩] ⟨1, 0, 0⟩ ∧ (⟨1, 0, 0⟩ : V3 ℝ) = ⟨0, 0, 0⟩ + (1 / 2 : ℝ) • (⟨2, 0, 0⟩ - ⟨0, 0, 0⟩) := by
  refine ⟨by simp [V3.dot], by simp [V3.len], by simp [Off], ?_, by ext <;> norm_num⟩
  simp only [Off, List.isChain_cons_cons, List.isChain_singleton, and_true, OffLine]
  intro h
  have := congrArg V3.z h
  norm_num [V3.cross] at this

end Verif.Static
