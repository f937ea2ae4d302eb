import Verif.Props.Okada

/-!
# Property C93: displacements add up

The displacement is linear in the slip, and a fault may be divided along the strike or along the dip: the displacements of the parts add
up to that of the whole.
-/

namespace Verif.Okada

open Real

variable {f : Fault} {st : List Station}

theorem sum_of_runs {f g h : Fault} {F G H : Station → V3 ℝ}
    (hf : dc3d3 f st = .ok (Mat F (wide st))) (hg : dc3d3 g st = .ok (Mat G (wide st))) (hh : dc3d3 h st = .ok (Mat H (wide st)))
    (e : ∀ p, H p = F p + G p) : ∃ A B C, dc3d3 f st = .ok A ∧ dc3d3 g st = .ok B ∧ dc3d3 h st = .ok C ∧ A.add B = .ok C := by
  refine ⟨_, _, _, hf, hg, hh, ?_⟩
  rw [mat_add_mat]
  congr 1
  exact mat_congr fun p _ => (e p).symm

/-- **C93.** The displacements of two slips add up to that of their sum. -/
theorem slips_superpose (hst : st.length = 1 ∨ st.length = 3) (hres : Resolved f st) (hb : Buried f) {a1 a2 b1 b2 : ℝ}
    (ha : a1 ≠ 0 ∨ a2 ≠ 0) (hb' : b1 ≠ 0 ∨ b2 ≠ 0) (hab : a1 + b1 ≠ 0 ∨ a2 + b2 ≠ 0) :
    ∃ A B C, dc3d3 { f with disl1 := a1, disl2 := a2 } st = .ok A ∧ dc3d3 { f with disl1 := b1, disl2 := b2 } st = .ok B ∧
      dc3d3 { f with disl1 := a1 + b1, disl2 := a2 + b2 } st = .ok C ∧ A.add B = .ok C := by
  have run := fun (g : Fault) hslip (hr : Resolved g st) (h1 : Buried g) =>
    dc3d3_resolved (f := g) hst hslip (s := (dipConstants g.dip).1) (c := (dipConstants g.dip).2) rfl hr h1.1 h1.2
  refine sum_of_runs (run { f with disl1 := a1, disl2 := a2 } ha hres hb) (run { f with disl1 := b1, disl2 := b2 } hb' hres hb)
    (run { f with disl1 := a1 + b1, disl2 := a2 + b2 } hab hres hb) fun p => ?_
  ext <;> simp [Corner.field, Corner.turned] <;> ring

/-- A multiple of the slip gives the same multiple of the displacement. -/
theorem slip_scales (hst : st.length = 1 ∨ st.length = 3) (hres : Resolved f st) (hb : Buried f) (hslip : f.disl1 ≠ 0 ∨ f.disl2 ≠ 0)
    {k : ℝ} (hk : k ≠ 0) : ∃ vs : List (V3 ℝ), dc3d3 f st = .ok (asColumns vs) ∧
      dc3d3 { f with disl1 := k * f.disl1, disl2 := k * f.disl2 } st = .ok (asColumns (vs.map (k • ·))) := by
  have h1 := dc3d3_resolved (f := f) hst hslip (s := (dipConstants f.dip).1) (c := (dipConstants f.dip).2) rfl hres hb.1 hb.2
  have h2 := dc3d3_resolved (f := { f with disl1 := k * f.disl1, disl2 := k * f.disl2 }) hst (by simpa [hk] using hslip)
    (s := (dipConstants f.dip).1) (c := (dipConstants f.dip).2) rfl hres hb.1 hb.2
  rw [mat_asColumns] at h1 h2
  refine ⟨_, h1, ?_⟩
  rw [h2, List.map_map]
  congr 2
  refine List.map_congr_left fun p _ => ?_
  ext <;> simp [Corner.field, Corner.turned] <;> ring

/-- A fault divided at `al` along the strike. -/
theorem divided_along_strike (hst : st.length = 1 ∨ st.length = 3) (hslip : f.disl1 ≠ 0 ∨ f.disl2 ≠ 0) {al : ℝ}
    (h1 : Resolved { f with al2 := al } st) (h2 : Resolved { f with al1 := al } st) (h3 : Resolved f st) (hb : Buried f) :
    ∃ A B C, dc3d3 { f with al2 := al } st = .ok A ∧ dc3d3 { f with al1 := al } st = .ok B ∧ dc3d3 f st = .ok C ∧ A.add B = .ok C := by
  have run := fun (g : Fault) hslip (hr : Resolved g st) (h1 : Buried g) =>
    dc3d3_resolved (f := g) hst hslip (s := (dipConstants g.dip).1) (c := (dipConstants g.dip).2) rfl hr h1.1 h1.2
  refine sum_of_runs (run { f with al2 := al } hslip h1 hb) (run { f with al1 := al } hslip h2 hb) (run f hslip h3 hb) fun p => ?_
  ext <;> simp <;> ring

/-- A fault divided at `aw` along the dip. -/
theorem divided_along_dip (hst : st.length = 1 ∨ st.length = 3) (hslip : f.disl1 ≠ 0 ∨ f.disl2 ≠ 0) {aw : ℝ}
    (h1 : Resolved { f with aw2 := aw } st) (h2 : Resolved { f with aw1 := aw } st) (h3 : Resolved f st)
    (hb1 : Buried { f with aw2 := aw }) (hb2 : Buried { f with aw1 := aw }) :
    ∃ A B C, dc3d3 { f with aw2 := aw } st = .ok A ∧ dc3d3 { f with aw1 := aw } st = .ok B ∧ dc3d3 f st = .ok C ∧ A.add B = .ok C := by
  have run := fun (g : Fault) hslip (hr : Resolved g st) (h1 : Buried g) =>
    dc3d3_resolved (f := g) hst hslip (s := (dipConstants g.dip).1) (c := (dipConstants g.dip).2) rfl hr h1.1 h1.2
  refine sum_of_runs (run { f with aw2 := aw } hslip h1 hb1) (run { f with aw1 := aw } hslip h2 hb2) (run f hslip h3 ⟨hb1.1, hb2.2⟩)
    fun p => ?_
  ext <;> simp <;> ring

/-! ## A case that meets the hypotheses: a vertical fault between depths one and three, seen from both sides and from above -/

theorem dipConstants_vertical : dipConstants (-90) = (-1, 0) := by
  have hpl : (-90 : ℝ) * pl8 = -(π / 2) + (π / 2 - 90 * pl8) := by ring
  have hsmall : |π / 2 - 90 * pl8| < eps := by
    have h1 := pi_gt_d6
    have h2 := pi_lt_d6
    rw [abs_lt, pl8, eps]
    constructor <;> norm_num at * <;> linarith
  generalize π / 2 - 90 * pl8 = t at *
  have hc : cos (-90 * pl8) = sin t := by rw [hpl, cos_add, cos_neg, sin_neg, cos_pi_div_two, sin_pi_div_two]; ring
  have hs : sin (-90 * pl8) = -cos t := by rw [hpl, sin_add, cos_neg, sin_neg, cos_pi_div_two, sin_pi_div_two]; ring
  have hlt : |sin t| < eps := lt_of_le_of_lt (abs_sin_le_abs) hsmall
  have hcos : 0 < cos t := by
    have h1 : eps < 1 := by rw [eps]; norm_num
    have h2 := abs_lt.1 hsmall
    refine cos_pos_of_mem_Ioo ⟨?_, ?_⟩ <;> linarith [pi_gt_three]
  rw [dipConstants]
  simp only [hc, hs, if_pos hlt]
  have e1 : ¬ (-cos t > 0) := by linarith
  have e2 : -cos t < 0 := by linarith
  simp [e1, e2]

/-- A vertical fault of length one, with slip in both directions. -/
noncomputable def sampleFault : Fault := ⟨2 / 3, -90, 0, 1, 1, 3, 2, 1⟩

theorem sample_resolved : Resolved sampleFault [⟨2, 1⟩, ⟨1 / 2, 0⟩, ⟨2, -2⟩] := by
  refine ⟨3, by norm_num, ?_⟩
  have h : dipConstants sampleFault.dip = (-1, 0) := dipConstants_vertical
  simp only [OnTrace, h]
  simp only [List.mem_cons, List.not_mem_nil, or_false, forall_eq_or_imp, forall_eq, sampleFault, eps]
  norm_num [abs_of_pos, abs_of_neg]

theorem sample_buried : Buried sampleFault := by
  have h : dipConstants sampleFault.dip = (-1, 0) := dipConstants_vertical
  rw [Buried, h]
  simp [sampleFault]

example : dc3d3 sampleFault [⟨2, 1⟩, ⟨1 / 2, 0⟩, ⟨2, -2⟩] =
    .ok (asColumns ([⟨2, 1⟩, ⟨1 / 2, 0⟩, ⟨2, -2⟩].map (volterra sampleFault 1 1))) := by
  refine displacement_is_volterra (lam := 1) (mu := 1) (by norm_num) (by norm_num) ?_ (.inr rfl) (.inl ?_) sample_resolved sample_buried
  · simp [sampleFault]; norm_num
  · simp [sampleFault]

end Verif.Okada
