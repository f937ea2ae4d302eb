import Verif.Lemmas.Plate
import Verif.Props.Work
import Verif.Props.FarField

/-!
# C148: wide prisms are plates

No prism attracts across one of its pairs of faces more than the infinite plate between them, `2πG` times density times thickness;
a prism that reaches far to all sides attracts nearly like this plate (the Bouguer formula), with an explicit bound on the difference, above, below
and inside it.  Across a wide magnetised plate the field is the demagnetising one inside and vanishes outside.
-/

namespace Verif.Prism

open Real Filter Topology Plate
open Gravity (G)

theorem eval_le (b : Box) (h : b.Proper) (p : V3 ℝ) :
    |b.evalDefInt Py.prismFz p 1| ≤ 2 * π * (b.max.x - b.min.x) ∧ |b.evalDefInt Py.prismFz p 2| ≤ 2 * π * (b.max.y - b.min.y) ∧
    |b.evalDefInt Py.prismFz p 0| ≤ 2 * π * (b.max.z - b.min.z) := by
  have h1 := slab_le b h p
  have h2 := slab_le (turned (turned b)) (turned_proper (turned_proper h)) ⟨p.y, p.z, p.x⟩
  have h3 := slab_le (turned b) (turned_proper h) ⟨p.z, p.x, p.y⟩
  rw [(turned_eval b Py.prismFz p).2] at h2
  rw [(turned_eval b Py.prismFz p).1] at h3
  exact ⟨h1, h2, h3⟩

theorem eval_near (b : Box) (h : b.Proper) (p : V3 ℝ) {L H : ℝ} (hL : 0 < L) (x0 : b.min.x ≤ p.x - L) (x1 : p.x + L ≤ b.max.x)
    (y0 : b.min.y ≤ p.y - L) (y1 : p.y + L ≤ b.max.y) (h0 : |b.min.z - p.z| ≤ H) (h1 : |b.max.z - p.z| ≤ H) :
    |-b.evalDefInt Py.prismFz p 0 - 2 * π * (|b.max.z - p.z| - |b.min.z - p.z|)| ≤ 2 * π * (H / L) * (b.max.z - b.min.z) := by
  have h2 := slab_near (turned b) (turned_proper h) ⟨p.z, p.x, p.y⟩ hL x0 x1 y0 y1 h0 h1
  rw [(turned_eval b Py.prismFz p).1] at h2
  exact h2

/-- **C148.** At no point, inside or outside, does a prism attract across two opposite faces more than the infinite plate between them. -/
theorem GravPrism.plate_bound (s : GravPrism) (h : s.box.Proper) (p : V3 ℝ) :
    |(s.gravitationalField p).x| ≤ 2 * π * G * |s.rho| * (s.box.max.x - s.box.min.x) ∧
    |(s.gravitationalField p).y| ≤ 2 * π * G * |s.rho| * (s.box.max.y - s.box.min.y) ∧
    |(s.gravitationalField p).z| ≤ 2 * π * G * |s.rho| * (s.box.max.z - s.box.min.z) := by
  obtain ⟨h1, h2, h3⟩ := eval_le s.box h p
  have hg := G_pos
  have key : ∀ {u B : ℝ}, |u| ≤ 2 * π * B → |-G * s.rho * u| ≤ 2 * π * G * |s.rho| * B := fun {u B} hu => by
    rw [abs_mul, abs_mul, abs_neg, abs_of_pos hg]
    calc G * |s.rho| * |u| ≤ G * |s.rho| * (2 * π * B) := by gcongr
      _ = _ := by ring
  exact ⟨key h1, key h2, key h3⟩

/-- **C148.** A prism that reaches at least `L` to all sides of the station attracts like the infinite plate: `2πG` times density times the
thickness above less the thickness below the station. The relative difference is at most `H / L`, where `H` is the vertical distance to the farther face. -/
theorem GravPrism.plate_near (s : GravPrism) (h : s.box.Proper) (p : V3 ℝ) {L H : ℝ} (hL : 0 < L)
    (x0 : s.box.min.x ≤ p.x - L) (x1 : p.x + L ≤ s.box.max.x) (y0 : s.box.min.y ≤ p.y - L) (y1 : p.y + L ≤ s.box.max.y)
    (h0 : |s.box.min.z - p.z| ≤ H) (h1 : |s.box.max.z - p.z| ≤ H) :
    |(s.gravitationalField p).z - 2 * π * G * s.rho * (|s.box.max.z - p.z| - |s.box.min.z - p.z|)| ≤
      H / L * (2 * π * G * |s.rho| * (s.box.max.z - s.box.min.z)) := by
  have h2 := eval_near s.box h p hL x0 x1 y0 y1 h0 h1
  have e : (s.gravitationalField p).z - 2 * π * G * s.rho * (|s.box.max.z - p.z| - |s.box.min.z - p.z|) =
      G * s.rho * (-s.box.evalDefInt Py.prismFz p 0 - 2 * π * (|s.box.max.z - p.z| - |s.box.min.z - p.z|)) := by
    simp only [GravPrism.gravitationalField]
    ring
  have hg := G_pos
  rw [e, abs_mul, abs_mul, abs_of_pos hg]
  calc G * |s.rho| * _ ≤ G * |s.rho| * (2 * π * (H / L) * (s.box.max.z - s.box.min.z)) := by gcongr
    _ = _ := by ring

/-- The prism of density `rho` between the levels `lo` and `hi` that reaches `L` to all sides of the station. -/
noncomputable def plate (rho : ℝ) (p : V3 ℝ) (lo hi L : ℝ) : GravPrism := ⟨⟨⟨p.x - L, p.y - L, lo⟩, ⟨p.x + L, p.y + L, hi⟩⟩, rho⟩

/-- **C148.** The Bouguer formula: the attraction of ever wider prisms tends to that of the infinite plate.
On top of or above it this is `-2πGρ` times its thickness whatever the height of the station. -/
theorem GravPrism.bouguer (rho : ℝ) (p : V3 ℝ) {lo hi : ℝ} (hz : lo < hi) :
    Tendsto (fun L => ((plate rho p lo hi L).gravitationalField p).z) atTop (𝓝 (2 * π * G * rho * (|hi - p.z| - |lo - p.z|))) ∧
    (hi ≤ p.z → 2 * π * G * rho * (|hi - p.z| - |lo - p.z|) = -(2 * π * G * rho * (hi - lo))) := by
  constructor
  · rw [tendsto_iff_norm_sub_tendsto_zero]
    set H := max |hi - p.z| |lo - p.z| with hH
    have hlim : Tendsto (fun L : ℝ => H / L * (2 * π * G * |rho| * (hi - lo))) atTop (𝓝 0) := by
      have := (tendsto_const_nhds (x := H)).div_atTop tendsto_id
      simpa using this.mul_const (2 * π * G * |rho| * (hi - lo))
    refine squeeze_zero' (Eventually.of_forall fun _ => norm_nonneg _) ?_ hlim
    filter_upwards [eventually_gt_atTop 0] with L hL
    rw [norm_eq_abs]
    exact GravPrism.plate_near (plate rho p lo hi L) ⟨by simp only [plate]; linarith, by simp only [plate]; linarith, hz⟩ p hL le_rfl le_rfl le_rfl le_rfl
      (le_max_right _ _) (le_max_left _ _)
  · intro hp
    rw [abs_of_nonpos (by linarith), abs_of_nonpos (by linarith)]
    ring

/-- **C148.** Errors in the positions of the stations change the potential little: at most by the attraction of the three plates times the displacement. -/
theorem GravPrism.potential_sensitivity (s : GravPrism) (h : s.box.Proper) (p q : V3 ℝ) :
    |s.gravitationalPotential q - s.gravitationalPotential p| ≤ 2 * π * G * |s.rho| *
      ((s.box.max.x - s.box.min.x) * |q.x - p.x| + (s.box.max.y - s.box.min.y) * |q.y - p.y| + (s.box.max.z - s.box.min.z) * |q.z - p.z|) := by
  have hw := s.work_done [p, q] (by simp)
  simp only [work, List.getLast_cons_cons, List.getLast_singleton, List.head_cons, add_zero] at hw
  rw [← hw, along, ← norm_eq_abs]
  refine (intervalIntegral.norm_integral_le_of_norm_le_const (C := 2 * π * G * |s.rho| *
      ((s.box.max.x - s.box.min.x) * |q.x - p.x| + (s.box.max.y - s.box.min.y) * |q.y - p.y| + (s.box.max.z - s.box.min.z) * |q.z - p.z|))
    fun t _ => ?_).trans (by simp)
  obtain ⟨h1, h2, h3⟩ := s.plate_bound h (p + t • (q - p))
  simp only [V3.app, V3.sub_x, V3.sub_y, V3.sub_z, smul_eq_mul, norm_eq_abs]
  refine (abs_add_three _ _ _).trans ?_
  simp only [abs_mul]
  have k1 := mul_le_mul_of_nonneg_left h1 (abs_nonneg (q.x - p.x))
  have k2 := mul_le_mul_of_nonneg_left h2 (abs_nonneg (q.y - p.y))
  have k3 := mul_le_mul_of_nonneg_left h3 (abs_nonneg (q.z - p.z))
  linarith

/-- **C148.** The scalar potential of a magnetic prism is at most half the magnetisation times the size, axis by axis. -/
theorem MagPrism.potential_bound (s : MagPrism) (h : s.box.Proper) (p : V3 ℝ) :
    |s.scalarPotential p| ≤ (|s.magnetization.x| * (s.box.max.x - s.box.min.x) + |s.magnetization.y| * (s.box.max.y - s.box.min.y) +
      |s.magnetization.z| * (s.box.max.z - s.box.min.z)) / 2 := by
  obtain ⟨h1, h2, h3⟩ := eval_le s.box h p
  have hpi := pi_pos
  have e : s.scalarPotential p = -(s.box.evalDefInt Py.prismFz p 1 * s.magnetization.x + s.box.evalDefInt Py.prismFz p 2 * s.magnetization.y +
      s.box.evalDefInt Py.prismFz p 0 * s.magnetization.z) / (4 * π) := by
    simp only [MagPrism.scalarPotential]
    norm_num
    ring
  rw [e, abs_div, abs_neg, abs_of_pos (by positivity : 0 < 4 * π), div_le_div_iff₀ (by positivity) (by norm_num)]
  have t := abs_add_three (s.box.evalDefInt Py.prismFz p 1 * s.magnetization.x) (s.box.evalDefInt Py.prismFz p 2 * s.magnetization.y)
    (s.box.evalDefInt Py.prismFz p 0 * s.magnetization.z)
  simp only [abs_mul] at t
  have k1 := mul_le_mul_of_nonneg_right h1 (abs_nonneg s.magnetization.x)
  have k2 := mul_le_mul_of_nonneg_right h2 (abs_nonneg s.magnetization.y)
  have k3 := mul_le_mul_of_nonneg_right h3 (abs_nonneg s.magnetization.z)
  linarith

/-- How far a plate that reaches `L` to all sides may differ from an infinite one. -/
noncomputable def edgeEffect (L H : ℝ) : ℝ := H * √(2 * L ^ 2 + H ^ 2) / L ^ 2

/-- **C148.** The edge effect vanishes as the plate grows. -/
theorem edgeEffect_vanishes (H : ℝ) : Tendsto (fun L => edgeEffect L H) atTop (𝓝 0) := by
  have h1 : Tendsto (fun L : ℝ => H * √(2 * L⁻¹ ^ 2 + H ^ 2 * L⁻¹ ^ 4)) atTop (𝓝 (H * √(2 * 0 ^ 2 + H ^ 2 * 0 ^ 4))) := by
    have hi := tendsto_inv_atTop_zero (𝕜 := ℝ)
    exact tendsto_const_nhds.mul ((continuous_sqrt.tendsto _).comp (((hi.pow 2).const_mul 2).add ((hi.pow 4).const_mul (H ^ 2))))
  have e0 : H * √(2 * 0 ^ 2 + H ^ 2 * 0 ^ 4) = 0 := by simp
  rw [e0] at h1
  refine h1.congr' ?_
  filter_upwards [eventually_gt_atTop 0] with L hL
  have e : 2 * L⁻¹ ^ 2 + H ^ 2 * L⁻¹ ^ 4 = (2 * L ^ 2 + H ^ 2) / (L ^ 2) ^ 2 := by field_simp
  rw [edgeEffect, e, sqrt_div (by positivity), sqrt_sq (by positivity), mul_div_assoc]

/-- **C148.** The vertical gradient of a wide plate: `-4πGρ` inside, nothing above and below, half of it on the faces. -/
theorem GravPrism.plate_gradient (s : GravPrism) (p : V3 ℝ) {L H : ℝ} (hL : 0 < L)
    (x0 : s.box.min.x ≤ p.x - L) (x1 : p.x + L ≤ s.box.max.x) (y0 : s.box.min.y ≤ p.y - L) (y1 : p.y + L ≤ s.box.max.y)
    (h0 : |s.box.min.z - p.z| ≤ H) (h1 : |s.box.max.z - p.z| ≤ H) :
    (s.box.min.z < p.z → p.z < s.box.max.z → |(s.gravitationalGradient p).z.z - -(4 * π * G * s.rho)| ≤ 8 * G * |s.rho| * edgeEffect L H) ∧
    (s.box.min.z < s.box.max.z → p.z = s.box.max.z → |(s.gravitationalGradient p).z.z - -(2 * π * G * s.rho)| ≤ 8 * G * |s.rho| * edgeEffect L H) ∧
    (s.box.min.z < s.box.max.z → s.box.max.z < p.z → |(s.gravitationalGradient p).z.z| ≤ 8 * G * |s.rho| * edgeEffect L H) ∧
    (s.box.min.z < s.box.max.z → p.z < s.box.min.z → |(s.gravitationalGradient p).z.z| ≤ 8 * G * |s.rho| * edgeEffect L H) := by
  have h2 := zz_near s.box p hL x0 x1 y0 y1 h0 h1
  have hg := G_pos
  have key : ∀ {c T : ℝ}, c = 2 * π * ((s.box.max.z - p.z) / |s.box.max.z - p.z| - (s.box.min.z - p.z) / |s.box.min.z - p.z|) → T = -(G * s.rho * c) →
      |(s.gravitationalGradient p).z.z - T| ≤ 8 * G * |s.rho| * edgeEffect L H := by
    intro c T hc hT
    rw [← hc] at h2
    have e : (s.gravitationalGradient p).z.z - T = -(G * s.rho * (s.box.evalDefInt Py.prismFzz p 0 - c)) := by
      simp only [GravPrism.gravitationalGradient, hT]
      ring
    rw [e, abs_neg, abs_mul, abs_mul, abs_of_pos hg]
    calc G * |s.rho| * _ ≤ G * |s.rho| * (8 * (H * √(2 * L ^ 2 + H ^ 2) / L ^ 2)) := by gcongr
      _ = _ := by rw [edgeEffect]; ring
  have pos : ∀ {u : ℝ}, 0 < u → u / |u| = 1 := fun hu => by rw [abs_of_pos hu, div_self hu.ne']
  have neg : ∀ {u : ℝ}, u < 0 → u / |u| = -1 := fun hu => by rw [abs_of_neg hu, div_neg, div_self hu.ne]
  refine ⟨fun a b => key (c := 4 * π) ?_ (by ring), fun a b => key (c := 2 * π) ?_ (by ring), fun a b => ?_, fun a b => ?_⟩
  · rw [pos (by linarith), neg (by linarith)]; ring
  · rw [b, sub_self, neg (u := s.box.min.z - s.box.max.z) (by linarith)]; simp
  · have := key (c := 0) (T := 0) (by rw [neg (by linarith), neg (by linarith)]; ring) (by ring)
    rwa [sub_zero] at this
  · have := key (c := 0) (T := 0) (by rw [pos (by linarith), pos (by linarith)]; ring) (by ring)
    rwa [sub_zero] at this

/-- **C148.** A wide plate magnetised across its faces: inside, the field opposes the magnetisation and is as large, so there is no flux across the plate;
above and below it there is no field across the plate. -/
theorem MagPrism.plate_magnetised (s : MagPrism) (mx : s.magnetization.x = 0) (my : s.magnetization.y = 0) (p : V3 ℝ) {L H : ℝ} (hL : 0 < L)
    (x0 : s.box.min.x ≤ p.x - L) (x1 : p.x + L ≤ s.box.max.x) (y0 : s.box.min.y ≤ p.y - L) (y1 : p.y + L ≤ s.box.max.y)
    (h0 : |s.box.min.z - p.z| ≤ H) (h1 : |s.box.max.z - p.z| ≤ H) :
    (s.box.min.z < p.z → p.z < s.box.max.z → |(s.magneticField p).z - -s.magnetization.z| ≤ |s.magnetization.z| * edgeEffect L H ∧
      |(s.magneticFluxDensity p).z| ≤ mu0 * |s.magnetization.z| * edgeEffect L H) ∧
    (s.box.min.z < s.box.max.z → s.box.max.z < p.z ∨ p.z < s.box.min.z → |(s.magneticField p).z| ≤ |s.magnetization.z| * edgeEffect L H ∧
      |(s.magneticFluxDensity p).z| ≤ mu0 * |s.magnetization.z| * edgeEffect L H) := by
  have h2 := zz_near s.box p hL x0 x1 y0 y1 h0 h1
  have hpi := two_le_pi
  have hmu : 0 < mu0 := by norm_num [mu0]
  have hE : 0 ≤ edgeEffect L H := by
    have : 0 ≤ H := (abs_nonneg _).trans h0
    rw [edgeEffect]; positivity
  have hz : (s.magneticField p).z = -(s.box.evalDefInt Py.prismFzz p 0 * s.magnetization.z / (4 * π)) := by
    simp only [MagPrism.magneticField, mx, my]
    norm_num
    ring
  have key : ∀ {c T : ℝ}, c = 2 * π * ((s.box.max.z - p.z) / |s.box.max.z - p.z| - (s.box.min.z - p.z) / |s.box.min.z - p.z|) →
      T = -(c * s.magnetization.z / (4 * π)) → |(s.magneticField p).z - T| ≤ |s.magnetization.z| * edgeEffect L H := by
    intro c T hc hT
    rw [← hc] at h2
    have e : (s.magneticField p).z - T = -((s.box.evalDefInt Py.prismFzz p 0 - c) * s.magnetization.z / (4 * π)) := by
      rw [hz, hT]
      ring
    rw [e, abs_neg, abs_div, abs_mul, abs_of_pos (by positivity : 0 < 4 * π), div_le_iff₀ (by positivity)]
    calc |s.box.evalDefInt Py.prismFzz p 0 - c| * |s.magnetization.z| ≤ 8 * edgeEffect L H * |s.magnetization.z| := by
          rw [edgeEffect]; gcongr
      _ ≤ |s.magnetization.z| * edgeEffect L H * (4 * π) := by
          have : 0 ≤ |s.magnetization.z| * edgeEffect L H := by positivity
          nlinarith
  have pos : ∀ {u : ℝ}, 0 < u → u / |u| = 1 := fun hu => by rw [abs_of_pos hu, div_self hu.ne']
  have neg : ∀ {u : ℝ}, u < 0 → u / |u| = -1 := fun hu => by rw [abs_of_neg hu, div_neg, div_self hu.ne]
  refine ⟨fun a b => ?_, fun a b => ?_⟩
  · have k := key (c := 4 * π) (T := -s.magnetization.z) (by rw [pos (by linarith), neg (by linarith)]; ring) (by field_simp)
    refine ⟨k, ?_⟩
    have hin : s.isInside p := ⟨⟨by linarith, by linarith, by linarith⟩, by linarith, by linarith, by linarith⟩
    simp only [MagPrism.magneticFluxDensity, if_pos hin, V3.map, V3.add_z]
    rw [abs_mul, abs_of_pos hmu, mul_assoc]
    rw [sub_neg_eq_add] at k
    gcongr
  · have k : |(s.magneticField p).z| ≤ |s.magnetization.z| * edgeEffect L H := by
      rcases b with b | b
      · have := key (c := 0) (T := 0) (by rw [neg (by linarith), neg (by linarith)]; ring) (by ring)
        rwa [sub_zero] at this
      · have := key (c := 0) (T := 0) (by rw [pos (by linarith), pos (by linarith)]; ring) (by ring)
        rwa [sub_zero] at this
    refine ⟨k, ?_⟩
    have hin : ¬ s.isInside p := fun hi => by
      rcases b with b | b
      · linarith [hi.2.2.2]
      · linarith [hi.1.2.2]
    simp only [MagPrism.magneticFluxDensity, if_neg hin, V3.map]
    rw [abs_mul, abs_of_pos hmu, mul_assoc]
    gcongr

/-! ### Non-vacuity -/

/-- A layer of 100 m of rock that reaches 100 km to all sides: within one per mille of the plate. -/
example : |((plate 2670 ⟨0, 0, 0⟩ (-100) 0 100000).gravitationalField ⟨0, 0, 0⟩).z - -(2 * π * G * 2670 * 100)| ≤ 1 / 1000 * (2 * π * G * 2670 * 100) := by
  have h := GravPrism.plate_near (plate 2670 ⟨0, 0, 0⟩ (-100) 0 100000) ⟨by norm_num [plate], by norm_num [plate], by norm_num [plate]⟩ ⟨0, 0, 0⟩
    (L := 100000) (H := 100) (by norm_num) (by norm_num [plate]) (by norm_num [plate]) (by norm_num [plate]) (by norm_num [plate]) (by norm_num [plate])
    (by norm_num [plate])
  simp only [plate] at h ⊢
  norm_num at h ⊢
  convert h using 2

end Verif.Prism
