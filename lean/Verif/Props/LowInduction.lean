import Verif.Lemmas.LowInduction
import Verif.Props.FdemHalfspace
import Verif.Props.ReflectionGradient
import Verif.Props.SkinEffect

/-! # At low frequencies the response is proportional to the conductivity (C133) -/

namespace Verif.RTE

open Complex Filter
open scoped Topology

/-- The depth of the top of layer `k`. -/
noncomputable def depthOf (h : ℕ → ℝ) (k : ℕ) : ℝ := ∑ i ∈ Finset.range k, h i

/-- What the layers from `k` downwards contribute to first order. -/
noncomputable def slope (c : Col) (w : ℝ → ℂ) (k : ℕ) : ℂ :=
  ∑ j ∈ Finset.Ico k c.n, c.sigma j * (w (depthOf c.h j) - w (depthOf c.h (j + 1))) + c.sigma c.n * w (depthOf c.h c.n)

/-- The admittances of the recursion, scaled so as to have a limit at frequency zero, and their derivatives. -/
theorem low_yh (c : Col) (hl : 0 < c.lamb) (hm0 : c.mu0 ≠ 0) (hmu : ∀ k ≤ c.n, c.mu k = c.mu0) (hh : ∀ k < c.n, 0 ≤ c.h k) :
    ∀ j ≤ c.n, ∃ y : ℂ → ℂ, y 0 = c.lamb ∧
      HasDerivAt y (I * c.mu0 / (2 * c.lamb) * (slope c (fun z => (Real.exp (-2 * c.lamb * z) : ℂ)) (c.n - j) *
        Real.exp (2 * c.lamb * depthOf c.h (c.n - j)))) 0 ∧
      ∀ w : ℝ, w ≠ 0 → I * w * c.mu0 * ({ c with omega := w } : Col).yh (c.n - j) = y w := by
  have hl0 : (c.lamb : ℂ) ≠ 0 := by exact_mod_cast hl.ne'
  have hm0' : (c.mu0 : ℂ) ≠ 0 := by exact_mod_cast hm0
  -- the vertical wave numbers
  have hu : ∀ k ≤ c.n, ∃ u : ℂ → ℂ, u 0 = c.lamb ∧ HasDerivAt u (I * c.mu0 / (2 * c.lamb) * c.sigma k) 0 ∧
      ∀ w : ℝ, w ≠ 0 → ({ c with omega := w } : Col).u k = u w ∧ I * w * c.mu0 * ({ c with omega := w } : Col).Y k = u w := by
    intro k hk
    have h1 : HasDerivAt (fun w : ℂ => ((c.lamb ^ 2 : ℝ) : ℂ) + w * (I * c.mu0 * c.sigma k)) (I * c.mu0 * c.sigma k) 0 := by
      have := ((hasDerivAt_id (0 : ℂ)).mul_const (I * c.mu0 * c.sigma k)).const_add ((c.lamb ^ 2 : ℝ) : ℂ)
      simpa using this
    have hsl : ((c.lamb ^ 2 : ℝ) : ℂ) + 0 * (I * c.mu0 * c.sigma k) ∈ slitPlane := by
      rw [zero_mul, add_zero]
      exact Complex.ofReal_mem_slitPlane.2 (by positivity)
    have h2 := hasDerivAt_csqrt h1 hsl
    refine ⟨_, ?_, h2.congr_deriv ?_, fun w hw => ?_⟩
    · simp only [zero_mul, add_zero, csqrt_of_sq hl]
    · rw [zero_mul, add_zero, csqrt_of_sq hl]
      norm_num
      field_simp
    · have e : ({ c with omega := w } : Col).u k = Complex.sqrt (((c.lamb ^ 2 : ℝ) : ℂ) + w * (I * c.mu0 * c.sigma k)) := by
        simp only [Col.u, uOf, k2, hmu k hk]
        congr 1
        ring
      refine ⟨e, ?_⟩
      rw [← e]
      have hw0 : (w : ℂ) ≠ 0 := by exact_mod_cast hw
      simp only [Col.Y, yOf, hmu k hk, Col.u]
      rw [mul_div_cancel₀]
      exact mul_ne_zero (mul_ne_zero I_ne_zero hw0) hm0'
  intro j
  induction j with
  | zero =>
    intro _
    obtain ⟨u, u0, du, hu⟩ := hu c.n le_rfl
    refine ⟨u, u0, du.congr_deriv ?_, fun w hw => ?_⟩
    · simp only [slope, Nat.sub_zero, Finset.Ico_self, Finset.sum_empty, zero_add]
      rw [mul_assoc (c.sigma c.n), ← Complex.ofReal_mul, ← Real.exp_add]
      simp
    · rw [Nat.sub_zero]
      have := Col.yh_n ({ c with omega := w } : Col)
      simp only at this
      rw [this]
      exact (hu w hw).2
  | succ j ih =>
    intro hj
    obtain ⟨y, y0, dy, hy⟩ := ih (by omega)
    obtain ⟨k, hk⟩ : ∃ k, k = c.n - (j + 1) := ⟨_, rfl⟩
    have hk1 : c.n - j = k + 1 := by omega
    have hkn : k < c.n := by omega
    rw [hk1] at dy hy
    rw [← hk]
    obtain ⟨u, u0, du, hu⟩ := hu k hkn.le
    have hcosh : Complex.cosh (u 0 * c.h k) ≠ 0 := by
      rw [u0]
      exact cosh_ne_zero_of_pos (by simpa using hl) (hh k hkn)
    have dt := hasDerivAt_tanh (du.mul_const (c.h k : ℂ)) hcosh
    obtain ⟨T, hT⟩ : ∃ T, T = Complex.tanh ((c.lamb : ℂ) * c.h k) := ⟨_, rfl⟩
    -- `1 + tanh` and `1 - tanh`
    have hE : (1 - T) = (Real.exp (-2 * c.lamb * c.h k) : ℂ) * (1 + T) ∧ 1 + T ≠ 0 := by
      have hc : Complex.cosh ((c.lamb : ℂ) * c.h k) ≠ 0 := by rw [← u0]; exact hcosh
      rw [hT, Complex.tanh_eq_sinh_div_cosh]
      have e1 : Complex.cosh ((c.lamb : ℂ) * c.h k) + Complex.sinh ((c.lamb : ℂ) * c.h k) = Complex.exp ((c.lamb : ℂ) * c.h k) :=
        Complex.cosh_add_sinh _
      have e2 : Complex.cosh ((c.lamb : ℂ) * c.h k) - Complex.sinh ((c.lamb : ℂ) * c.h k) = Complex.exp (-((c.lamb : ℂ) * c.h k)) :=
        Complex.cosh_sub_sinh _
      constructor
      · field_simp
        rw [e1, e2, Complex.ofReal_exp, ← Complex.exp_add]
        congr 1
        push_cast
        ring
      · intro h
        field_simp at h
        rw [e1, mul_zero] at h
        exact Complex.exp_ne_zero _ h
    obtain ⟨hE, hT1⟩ := hE
    have hd : u 0 + y 0 * Complex.tanh (u 0 * c.h k) ≠ 0 := by
      rw [u0, y0, ← hT, ← mul_one_add]
      exact mul_ne_zero hl0 hT1
    refine ⟨_, ?_, (hasDerivAt_step du dt dy hd).congr_deriv ?_, fun w hw => ?_⟩
    · simp only [u0, y0, ← hT, stepOf]
      rw [← mul_one_add, mul_div_mul_left _ _ hl0, mul_div_assoc, div_self hT1, mul_one]
    · rw [u0, y0, ← hT]
      have hs : slope c (fun z => (Real.exp (-2 * c.lamb * z) : ℂ)) k =
          c.sigma k * ((Real.exp (-2 * c.lamb * depthOf c.h k) : ℂ) - (Real.exp (-2 * c.lamb * depthOf c.h (k + 1)) : ℂ)) +
            slope c (fun z => (Real.exp (-2 * c.lamb * z) : ℂ)) (k + 1) := by
        simp only [slope]
        rw [Finset.sum_eq_sum_Ico_succ_bot hkn, add_assoc]
      have hdep : depthOf c.h (k + 1) = depthOf c.h k + c.h k := by
        simp only [depthOf, Finset.sum_range_succ]
      rw [hs]
      generalize slope c (fun z => (Real.exp (-2 * c.lamb * z) : ℂ)) (k + 1) = S
      rw [hdep]
      have ex : (Real.exp (2 * c.lamb * depthOf c.h k) : ℂ) * Real.exp (-2 * c.lamb * depthOf c.h k) = 1 := by
        rw [← Complex.ofReal_mul, ← Real.exp_add]; simp
      have ex2 : (Real.exp (-2 * c.lamb * (depthOf c.h k + c.h k)) : ℂ) =
          Real.exp (-2 * c.lamb * depthOf c.h k) * Real.exp (-2 * c.lamb * c.h k) := by
        rw [← Complex.ofReal_mul, ← Real.exp_add]; congr 2; ring
      have ex3 : (Real.exp (2 * c.lamb * (depthOf c.h k + c.h k)) : ℂ) * Real.exp (-2 * c.lamb * c.h k) =
          Real.exp (2 * c.lamb * depthOf c.h k) := by
        rw [← Complex.ofReal_mul, ← Real.exp_add]; congr 2; ring
      rw [← ex3] at ex
      rw [ex2, ← ex3]
      clear ex2 ex3 hs
      generalize (Real.exp (-2 * c.lamb * c.h k) : ℂ) = E at *
      generalize (Real.exp (2 * c.lamb * (depthOf c.h k + c.h k)) : ℂ) = P at *
      generalize (Real.exp (-2 * c.lamb * depthOf c.h k) : ℂ) = N at *
      have hD : ((c.lamb : ℂ) + c.lamb * T) * (c.lamb + c.lamb * T) ≠ 0 := by
        rw [← mul_one_add]
        exact mul_ne_zero (mul_ne_zero hl0 hT1) (mul_ne_zero hl0 hT1)
      have hA : T * (2 * T * c.lamb * c.lamb + c.lamb * c.lamb + c.lamb * c.lamb) /
          ((c.lamb + c.lamb * T) * (c.lamb + c.lamb * T)) = 1 - E := by
        rw [div_eq_iff hD]
        linear_combination (-(c.lamb : ℂ) ^ 2 * (1 + T)) * hE
      have hB : ((c.lamb : ℂ) * c.lamb * c.lamb - c.lamb * c.lamb * c.lamb) / ((c.lamb + c.lamb * T) * (c.lamb + c.lamb * T)) = 0 := by
        rw [sub_self, zero_div]
      have hC : -(T * T - 1) * c.lamb * c.lamb / ((c.lamb + c.lamb * T) * (c.lamb + c.lamb * T)) = E := by
        rw [div_eq_iff hD]
        linear_combination ((c.lamb : ℂ) ^ 2 * (1 + T)) * hE
      rw [hA, hB, hC]
      linear_combination (I * c.mu0 / (2 * c.lamb) * c.sigma k * (E - 1)) * ex
    · have hy' := hy w hw
      obtain ⟨hu1, hu2⟩ := hu w hw
      have hw0 : (w : ℂ) ≠ 0 := by exact_mod_cast hw
      have hs := Col.yh_succ ({ c with omega := w } : Col) (k := k) hkn
      rw [hs, ← stepOf_smul (mul_ne_zero (mul_ne_zero I_ne_zero hw0) hm0'), hy', hu2]
      simp only [Col.t, tanhOf, hu1]

/-- **C133.** At low frequencies the reflection coefficient is the sum of what the layers contribute: each in proportion to its own
conductivity, with the weight `exp(−2λz)` integrated over its depths. -/
theorem forward_low (c : Col) (hl : 0 < c.lamb) (hm0 : c.mu0 ≠ 0) (hmu : ∀ k ≤ c.n, c.mu k = c.mu0) (hh : ∀ k < c.n, 0 ≤ c.h k) :
    Tendsto (fun w : ℝ => forward { c with omega := w } / w) (𝓝[≠] 0)
      (𝓝 (-(I * c.mu0 / (4 * c.lamb ^ 2)) * slope c (fun z => (Real.exp (-2 * c.lamb * z) : ℂ)) 0)) := by
  have hl0 : (c.lamb : ℂ) ≠ 0 := by exact_mod_cast hl.ne'
  have hm0' : (c.mu0 : ℂ) ≠ 0 := by exact_mod_cast hm0
  obtain ⟨y, y0, dy, hy⟩ := low_yh c hl hm0 hmu hh c.n le_rfl
  rw [Nat.sub_self] at dy hy
  have hz : depthOf c.h 0 = 0 := by simp [depthOf]
  rw [hz, mul_zero, Real.exp_zero, Complex.ofReal_one, mul_one] at dy
  have hd : (c.lamb : ℂ) + y 0 ≠ 0 := by
    rw [y0, ← two_mul]
    exact mul_ne_zero two_ne_zero hl0
  have hq := ((dy.const_sub (c.lamb : ℂ)).fun_div (dy.const_add (c.lamb : ℂ)) hd)
  have hq' := (hq.comp_ofReal (z := 0))
  have ht := hq'.tendsto_slope
  rw [y0] at ht
  have e0 : ∀ w : ℝ, w ≠ 0 → (w - 0)⁻¹ • ((c.lamb - y w) / (c.lamb + y w) - (c.lamb - y ((0 : ℝ) : ℂ)) / (c.lamb + y ((0 : ℝ) : ℂ))) =
      forward { c with omega := w } / w := by
    intro w hw
    have hw0 : (w : ℂ) ≠ 0 := by exact_mod_cast hw
    have hp : I * w * c.mu0 ≠ 0 := mul_ne_zero (mul_ne_zero I_ne_zero hw0) hm0'
    rw [Complex.ofReal_zero, y0, sub_self, zero_div, sub_zero, sub_zero, forward_eq, ← hy w hw, Complex.real_smul]
    have e1 : (c.lamb : ℂ) = I * w * c.mu0 * Col.Y0 { c with omega := w } := by
      simp only [Col.Y0]
      rw [mul_div_cancel₀ _ hp]
    rw [e1, ← mul_sub, ← mul_add, mul_div_mul_left _ _ hp]
    push_cast
    field_simp
  refine (ht.congr' ?_).trans_eq ?_
  · filter_upwards [self_mem_nhdsWithin] with w hw
    rw [← e0 w hw]
    rfl
  · congr 1
    field_simp
    ring

end Verif.RTE

namespace Verif.Fdem

open Complex (I)
open Spatial Filter
open scoped Topology

/-- The secondary field of a layered earth as a function of its reflection coefficient. -/
noncomputable def LayeredDipole.fieldOf (filter : List Tap) (s : LayeredDipole) (xyz : V3 ℝ) (K : ℝ → ℂ) : V3 ℂ :=
  let d := xyz - s.location
  let C := fun t : Tap => coefficients s.orientation d.x d.y (s.offset xyz) (t.base / s.offset xyz)
  let rTE : Tap → ℂ := fun t => K (t.base / s.offset xyz) * Real.exp (-(t.base / s.offset xyz) * (xyz.z + s.location.z))
  ((s.moment / (4 * Real.pi) : ℝ) : ℂ) • (⟨(transform filter (fun t => (C t).1.x * rTE t * t.j0) + transform filter (fun t => (C t).2.x * rTE t * t.j1)) / s.offset xyz,
    (transform filter (fun t => (C t).1.y * rTE t * t.j0) + transform filter (fun t => (C t).2.y * rTE t * t.j1)) / s.offset xyz,
    (transform filter (fun t => (C t).1.z * rTE t * t.j0) + transform filter (fun t => (C t).2.z * rTE t * t.j1)) / s.offset xyz⟩ : V3 ℂ)

theorem LayeredDipole.fieldAt_secondary (filter : List Tap) (mu0 : ℝ) (s : LayeredDipole) (p : V3 ℝ) :
    s.fieldAt filter mu0 p "secondary" = s.fieldOf filter p (s.rTE mu0) := by
  simp only [LayeredDipole.fieldAt, if_neg (show ¬ ("secondary" = "total") by decide), LayeredDipole.fieldOf, LayeredDipole.offset]

theorem transform_plus (filter : List Tap) (f g : Tap → ℂ) : transform filter (fun t => f t + g t) = transform filter f + transform filter g := by
  induction filter with
  | nil => simp [transform]
  | cons x xs ih =>
    simp only [transform, List.map_cons, List.sum_cons] at ih ⊢
    rw [ih]
    ring

theorem transform_const_mul (filter : List Tap) (a : ℂ) (f : Tap → ℂ) : transform filter (fun t => a * f t) = a * transform filter f := by
  induction filter with
  | nil => simp [transform]
  | cons x xs ih =>
    simp only [transform, List.map_cons, List.sum_cons] at ih ⊢
    rw [ih]
    ring

theorem LayeredDipole.fieldOf_add (filter : List Tap) (s : LayeredDipole) (p : V3 ℝ) (K L : ℝ → ℂ) :
    s.fieldOf filter p (fun l => K l + L l) = s.fieldOf filter p K + s.fieldOf filter p L := by
  simp only [LayeredDipole.fieldOf, add_mul, mul_add, transform_plus]
  ext <;> simp only [V3.smul_x, V3.smul_y, V3.smul_z, V3.add_x, V3.add_y, V3.add_z, smul_eq_mul] <;> ring

theorem LayeredDipole.fieldOf_mul (filter : List Tap) (s : LayeredDipole) (p : V3 ℝ) (a : ℂ) (K : ℝ → ℂ) :
    s.fieldOf filter p (fun l => a * K l) = a • s.fieldOf filter p K := by
  have e : ∀ x y z w : ℂ, x * (a * y * z) * w = a * (x * (y * z) * w) := fun x y z w => by ring
  simp only [LayeredDipole.fieldOf, e, transform_const_mul]
  ext <;> simp only [V3.smul_x, V3.smul_y, V3.smul_z, smul_eq_mul] <;> ring

theorem LayeredDipole.fieldOf_sum (filter : List Tap) (s : LayeredDipole) (p : V3 ℝ) {ι : Type*} (S : Finset ι) (K : ι → ℝ → ℂ) :
    s.fieldOf filter p (fun l => ∑ j ∈ S, K j l) = ∑ j ∈ S, s.fieldOf filter p (K j) := by
  classical
  induction S using Finset.induction_on with
  | empty =>
    simp only [Finset.sum_empty]
    have := LayeredDipole.fieldOf_mul filter s p 0 0
    simpa using this
  | insert a S ha ih =>
    simp only [Finset.sum_insert ha]
    rw [LayeredDipole.fieldOf_add, ih]

theorem LayeredDipole.fieldOf_tends {ι : Type*} {l : Filter ι} (filter : List Tap) (s : LayeredDipole) (p : V3 ℝ) {K : ι → ℝ → ℂ} {L : ℝ → ℂ}
    (h : ∀ t ∈ filter, Tendsto (fun i => K i (t.base / s.offset p)) l (𝓝 (L (t.base / s.offset p)))) :
    V3.Tends (fun i => s.fieldOf filter p (K i)) l (s.fieldOf filter p L) := by
  refine ⟨?_, ?_, ?_⟩ <;> simp only [LayeredDipole.fieldOf, V3.smul_x, V3.smul_y, V3.smul_z, smul_eq_mul] <;>
    refine (Tendsto.div_const (Tendsto.add ?_ ?_) _).const_mul _ <;>
    exact tendsto_transform filter fun t ht => (((h t ht).mul_const _).const_mul _).mul_const _

/-- **C133.** At low frequencies the response of a layered earth is the sum of the responses of its layers, each proportional to the layer's
conductivity.  There is one curve `R`, the cumulative response, which depends on the positions of source and receiver only and vanishes at
depth, such that for every number of layers, all thicknesses and conductivities the secondary field divided by the frequency tends to the sum
of `σ (R(top) − R(bottom))`. -/
theorem LayeredDipole.low_induction (filter : List Tap) (hb : ∀ t ∈ filter, 0 < t.base) {mu0 : ℝ} (hm : mu0 ≠ 0) (location orientation : V3 ℝ) (moment : ℝ)
    (p : V3 ℝ) (hp : p.x ≠ location.x ∨ p.y ≠ location.y) :
    ∃ R : ℝ → V3 ℂ, V3.Tends R atTop 0 ∧ ∀ (n : ℕ) (thickness : ℕ → ℝ) (sigma : ℕ → ℂ), (∀ k < n, 0 ≤ thickness k) →
      let z : ℕ → ℝ := fun k => ∑ i ∈ Finset.range k, thickness i
      V3.Tends (fun f : ℝ => ((1 / f : ℝ) : ℂ) •
          (⟨f, n, thickness, sigma, fun _ => mu0, location, orientation, moment⟩ : LayeredDipole).fieldAt filter mu0 p "secondary") (𝓝[>] 0)
        (∑ k ∈ Finset.range n, sigma k • (R (z k) - R (z (k + 1))) + sigma n • R (z n)) := by
  set s₀ : LayeredDipole := ⟨0, 0, fun _ => 0, fun _ => 0, fun _ => mu0, location, orientation, moment⟩ with hs₀
  have hoff : 0 < s₀.offset p := by
    have : p.x - location.x ≠ 0 ∨ p.y - location.y ≠ 0 := by simpa [sub_ne_zero] using hp
    refine Real.sqrt_pos.2 ?_
    simp only [hs₀, V3.sub_x, V3.sub_y]
    rcases this with h | h <;> positivity
  have hlp : ∀ t ∈ filter, 0 < t.base / s₀.offset p := fun t ht => div_pos (hb t ht) hoff
  let K : ℝ → ℝ → ℂ := fun z l => -(I * mu0 / (4 * l ^ 2)) * (2 * Real.pi) * Real.exp (-2 * l * z)
  refine ⟨fun z => s₀.fieldOf filter p (K z), ?_, fun n th sg hth => ?_⟩
  · have h0 : s₀.fieldOf filter p (fun _ => 0) = 0 := by
      have := LayeredDipole.fieldOf_mul filter s₀ p 0 0
      simpa using this
    rw [← h0]
    refine LayeredDipole.fieldOf_tends filter s₀ p fun t ht => ?_
    have hl := hlp t ht
    generalize t.base / s₀.offset p = l at hl
    have h1 : Tendsto (fun z : ℝ => Real.exp (-2 * l * z)) atTop (𝓝 0) := by
      refine Real.tendsto_exp_atBot.comp ?_
      exact tendsto_id.const_mul_atTop_of_neg (by linarith)
    have h2 := ((Complex.continuous_ofReal.tendsto 0).comp h1).const_mul (-(I * mu0 / (4 * (l : ℂ) ^ 2)) * (2 * Real.pi))
    simpa [K] using h2
  · intro z
    have e1 : ∑ k ∈ Finset.range n, sg k • (s₀.fieldOf filter p (K (z k)) - s₀.fieldOf filter p (K (z (k + 1)))) + sg n • s₀.fieldOf filter p (K (z n)) =
        s₀.fieldOf filter p (fun l => ∑ k ∈ Finset.range n, sg k * (K (z k) l + -1 * K (z (k + 1)) l) + sg n * K (z n) l) := by
      rw [LayeredDipole.fieldOf_add, LayeredDipole.fieldOf_sum]
      congr 1
      · refine Finset.sum_congr rfl fun k _ => ?_
        rw [LayeredDipole.fieldOf_mul, LayeredDipole.fieldOf_add, LayeredDipole.fieldOf_mul]
        congr 1
        module
      · rw [LayeredDipole.fieldOf_mul]
    simp only at e1 ⊢
    rw [e1]
    have e2 : ∀ f : ℝ, ((1 / f : ℝ) : ℂ) •
          (⟨f, n, th, sg, fun _ => mu0, location, orientation, moment⟩ : LayeredDipole).fieldAt filter mu0 p "secondary" =
        s₀.fieldOf filter p (fun l => ((1 / f : ℝ) : ℂ) * (⟨f, n, th, sg, fun _ => mu0, location, orientation, moment⟩ : LayeredDipole).rTE mu0 l) := by
      intro f
      rw [LayeredDipole.fieldAt_secondary, LayeredDipole.fieldOf_mul]
      rfl
    simp only [e2]
    refine LayeredDipole.fieldOf_tends filter s₀ p fun t ht => ?_
    have hl := hlp t ht
    generalize t.base / s₀.offset p = l at hl
    have h := RTE.forward_low ⟨0, l, mu0, n, sg, fun _ => mu0, th⟩ hl hm (fun _ _ => rfl) hth
    have hw : Tendsto (fun f : ℝ => RTE.omegaOf f) (𝓝[>] 0) (𝓝[≠] 0) := by
      refine tendsto_nhdsWithin_iff.2 ⟨?_, ?_⟩
      · have hc : Continuous RTE.omegaOf := by unfold RTE.omegaOf; fun_prop
        have := hc.tendsto 0
        simp only [RTE.omegaOf, mul_zero] at this ⊢
        exact this.mono_left nhdsWithin_le_nhds
      · filter_upwards [self_mem_nhdsWithin] with f hf
        have hf : 0 < f := hf
        exact (mul_pos (mul_pos two_pos Real.pi_pos) hf).ne'
    have h2 := (h.comp hw).const_mul (2 * Real.pi : ℂ)
    refine (h2.congr' ?_).trans_eq ?_
    · filter_upwards [self_mem_nhdsWithin] with f hf
      have hf0 : (f : ℂ) ≠ 0 := by exact_mod_cast (show (0 : ℝ) < f from hf).ne'
      have hpi : (Real.pi : ℂ) ≠ 0 := by exact_mod_cast Real.pi_ne_zero
      simp only [Function.comp, LayeredDipole.rTE]
      rw [show ((RTE.omegaOf f : ℝ) : ℂ) = 2 * Real.pi * f by simp [RTE.omegaOf]]
      push_cast
      field_simp
    · congr 1
      simp only [RTE.slope, RTE.depthOf, Finset.range_eq_Ico, K, z]
      rw [mul_add, mul_add, Finset.mul_sum, Finset.mul_sum]
      congr 1
      · exact Finset.sum_congr rfl fun k _ => by ring
      · ring

/-- A wave number that tends to zero with the root of the frequency. -/
theorem tendsto_induction {kap : ℂ} (hk : kap ≠ 0) {r : ℂ} (hr : r ≠ 0) :
    Tendsto (fun f : ℝ => I * ((Real.sqrt f : ℂ) * kap) * r) (𝓝[>] 0) (𝓝[≠] 0) := by
  refine tendsto_nhdsWithin_iff.2 ⟨?_, ?_⟩
  · have hc : Continuous fun f : ℝ => I * ((Real.sqrt f : ℂ) * kap) * r := by fun_prop
    have := hc.tendsto 0
    simp only [Real.sqrt_zero, Complex.ofReal_zero, zero_mul, mul_zero] at this
    exact this.mono_left nhdsWithin_le_nhds
  · filter_upwards [self_mem_nhdsWithin] with f hf
    exact mul_ne_zero (mul_ne_zero Complex.I_ne_zero (mul_ne_zero (by exact_mod_cast (Real.sqrt_pos.2 hf).ne') hk)) hr

theorem ray_sq {mu0 : ℝ} (s : HalfDipole) {kap : ℂ}
    (hray : ∀ f : ℝ, 0 < f → ({ s with frequency := f } : HalfDipole).k mu0 = (Real.sqrt f : ℂ) * kap) :
    kap ^ 2 = -I * (2 * Real.pi) * mu0 * s.sigmaHat := by
  have h := congrArg (· ^ 2) (hray 1 one_pos)
  simp only [HalfDipole.k, csqrt_sq, Real.sqrt_one, Complex.ofReal_one, one_mul, mul_one] at h
  rw [← h]
  push_cast
  ring

theorem low_scale {kap r : ℂ} (hk : kap ≠ 0) (hr : r ≠ 0) {F : ℂ → ℂ} {L M : ℂ} (h : Tendsto (fun s => (F s - L) / s ^ 2) (𝓝[≠] 0) (𝓝 M)) :
    Tendsto (fun f : ℝ => (F (I * ((Real.sqrt f : ℂ) * kap) * r) - L) / f) (𝓝[>] 0) (𝓝 (-(kap ^ 2 * r ^ 2) * M)) := by
  refine ((h.comp (tendsto_induction hk hr)).const_mul (-(kap ^ 2 * r ^ 2))).congr' ?_
  filter_upwards [self_mem_nhdsWithin] with f hf
  have hf : 0 < f := hf
  have hf0 : (f : ℂ) ≠ 0 := by exact_mod_cast hf.ne'
  have hff : ((Real.sqrt f : ℝ) : ℂ) ^ 2 = f := by
    norm_cast
    exact Real.sq_sqrt hf.le
  simp only [Function.comp, mul_pow, hff]
  generalize F _ = X
  field_simp
  rw [Complex.I_sq]
  ring

section
variable {kap r : ℂ} (hk : kap ≠ 0) (hr : r ≠ 0)
include hk hr

theorem root_ne {f : ℝ} (hf : 0 < f) : (Real.sqrt f : ℂ) * kap ≠ 0 :=
  have := hr
  mul_ne_zero (by exact_mod_cast (Real.sqrt_pos.2 hf).ne') hk

theorem low_halfZZ : Tendsto (fun f : ℝ => (halfZZ ((Real.sqrt f : ℂ) * kap) r + 1 / r ^ 3) / f) (𝓝[>] 0) (𝓝 (kap ^ 2 / (4 * r))) := by
  have h := (low_scale hk hr (tendsto_small4 9 (-9) (-9) (-4) 0 (-1) (1 / 2) (1 / 8) (by norm_num) rfl (by norm_num) (by norm_num)
    (by norm_num))).const_mul (-2 / r ^ 3)
  refine (h.congr' ?_).trans_eq ?_
  · filter_upwards [self_mem_nhdsWithin] with f hf
    have e := halfZZ_eq (root_ne hk hr hf) hr
    simp only at e
    rw [e]
    ring
  · congr 1
    field_simp
    ring

theorem low_halfPhi : Tendsto (fun f : ℝ => (halfPhi ((Real.sqrt f : ℂ) * kap) r - 1 / r ^ 2) / f) (𝓝[>] 0) (𝓝 (-(kap ^ 2 / 4))) := by
  have h := (low_scale hk hr (tendsto_small4 3 (-3) (-3) (-1) (-1) 0 (-1 / 2) (-1 / 8) (by norm_num) rfl (by norm_num) (by norm_num)
    (by norm_num))).const_mul (-2 / r ^ 2)
  refine (h.congr' ?_).trans_eq ?_
  · filter_upwards [self_mem_nhdsWithin] with f hf
    have e := halfPhi_eq (root_ne hk hr hf) hr
    simp only at e
    rw [e]
    ring
  · congr 1
    field_simp
    ring

theorem low_halfDphi : Tendsto (fun f : ℝ => (halfDphi ((Real.sqrt f : ℂ) * kap) r + 2 / r ^ 3) / f) (𝓝[>] 0) (𝓝 0) := by
  have h := (low_scale hk hr (tendsto_small4 (-12) 12 12 5 2 1 1 0 (by norm_num) rfl (by norm_num) (by norm_num)
    (by norm_num))).const_mul (-2 / r ^ 3)
  refine (h.congr' ?_).trans_eq ?_
  · filter_upwards [self_mem_nhdsWithin] with f hf
    have e := halfDphi_eq (root_ne hk hr hf) hr
    simp only at e
    rw [e]
    ring
  · simp

end

variable (iv kv : ℕ → ℂ → ℂ)

/-- **C133.** Two coils flat on the ground: at low frequencies the ratio of the secondary to the primary field of a vertical dipole is
`iωμ₀σr²/4`, from which conductivity meters read the ground's conductivity. -/
theorem half_low_vertical {mu0 : ℝ} (hmu : 0 < mu0) (s : HalfDipole) (hs : 0 < s.sigmaHat.re) (p : V3 ℝ)
    (hr : p.x ≠ s.location.x ∨ p.y ≠ s.location.y) (ho : s.orientation.x = 0 ∧ s.orientation.y = 0) (mu : ℝ) (hmu' : mu ≠ 0) :
    let r := Real.sqrt ((p.x - s.location.x) ^ 2 + (p.y - s.location.y) ^ 2)
    let H := fun f : ℝ => ({ s with frequency := f } : HalfDipole).magneticField iv kv mu0 p "secondary"
    let S := ofReal ((⟨mu, s.moment, surface s.location, s.orientation⟩ : Static.MagDipole).magneticField (surface p))
    Tendsto (fun f => (H f).z / f) (𝓝[>] 0) (𝓝 (I * (2 * Real.pi) * mu0 * s.sigmaHat * r ^ 2 / 4 * S.z)) := by
  intro r H S
  obtain ⟨kap, hkap, hray⟩ := half_k_ray hmu s hs
  have hkap0 : kap ≠ 0 := fun h => by rw [h] at hkap; simp at hkap
  have hk2 := ray_sq s hray
  have hne : p.x - s.location.x ≠ 0 ∨ p.y - s.location.y ≠ 0 := by simpa [sub_ne_zero] using hr
  have hrp : 0 < r := offset_pos hr
  have hr0 : (r : ℂ) ≠ 0 := by exact_mod_cast hrp.ne'
  have hst := static_surface mu hmu' s.moment s.orientation s.location p hr
  have hS : S.z = ((s.moment / (4 * Real.pi) : ℝ) : ℂ) * (-s.orientation.z / r ^ 3) := by
    have := congrArg (fun v : V3 ℝ => ((v.z : ℝ) : ℂ)) hst
    simp only [V3.smul_z, smul_eq_mul] at this
    push_cast at this ⊢
    exact this
  have h := (low_halfZZ hkap0 hr0).const_mul (((s.moment / (4 * Real.pi) : ℝ) : ℂ) * s.orientation.z)
  refine (h.congr' ?_).trans_eq ?_
  · filter_upwards [self_mem_nhdsWithin] with f hf
    simp only [H, HalfDipole.magneticField, hray f hf, halfEm_secondary,
      halfEm_total iv kv _ s.orientation _ _ hne (show "total" ≠ "secondary" by decide), V3.smul_z, V3.sub_z, smul_eq_mul, ho.1, ho.2]
    simp only [Complex.ofReal_zero, zero_mul, add_zero, sub_zero, r]
    ring
  · rw [hS, hk2]
    congr 1
    field_simp

/-- **C133.** Two coils standing upright: at low frequencies the horizontal components of the secondary field of a horizontal dipole are
`iωμ₀σr²/4` times the primary field of that part of the dipole which is across the line to the receiver. -/
theorem half_low_horizontal {mu0 : ℝ} (hmu : 0 < mu0) (s : HalfDipole) (hs : 0 < s.sigmaHat.re) (p : V3 ℝ)
    (hr : p.x ≠ s.location.x ∨ p.y ≠ s.location.y) (ho : s.orientation.z = 0) (mu : ℝ) (hmu' : mu ≠ 0) :
    let d : V3 ℝ := ⟨p.x - s.location.x, p.y - s.location.y, 0⟩
    let r := d.len
    let H := fun f : ℝ => ({ s with frequency := f } : HalfDipole).magneticField iv kv mu0 p "secondary"
    let across := s.orientation - (s.orientation.dot d / r ^ 2) • d
    let S := ofReal ((⟨mu, s.moment, surface s.location, across⟩ : Static.MagDipole).magneticField (surface p))
    Tendsto (fun f => (H f).x / f) (𝓝[>] 0) (𝓝 (I * (2 * Real.pi) * mu0 * s.sigmaHat * r ^ 2 / 4 * S.x)) ∧
    Tendsto (fun f => (H f).y / f) (𝓝[>] 0) (𝓝 (I * (2 * Real.pi) * mu0 * s.sigmaHat * r ^ 2 / 4 * S.y)) := by
  intro d r H across S
  obtain ⟨kap, hkap, hray⟩ := half_k_ray hmu s hs
  have hkap0 : kap ≠ 0 := fun h => by rw [h] at hkap; simp at hkap
  have hk2 := ray_sq s hray
  have hne : p.x - s.location.x ≠ 0 ∨ p.y - s.location.y ≠ 0 := by simpa [sub_ne_zero] using hr
  have hrr : r = Real.sqrt ((p.x - s.location.x) ^ 2 + (p.y - s.location.y) ^ 2) := by simp [r, d, V3.len]
  have hrp : 0 < r := by rw [hrr]; exact offset_pos hr
  have hr0 : (r : ℂ) ≠ 0 := by exact_mod_cast hrp.ne'
  have hst := static_surface mu hmu' s.moment across s.location p hr
  simp only [← hrr] at hst
  have hsq : r ^ 2 = (p.x - s.location.x) ^ 2 + (p.y - s.location.y) ^ 2 := by rw [hrr, Real.sq_sqrt (by positivity)]
  have hsqc : (r : ℂ) ^ 2 = ((p.x : ℂ) - s.location.x) ^ 2 + ((p.y : ℂ) - s.location.y) ^ 2 := by exact_mod_cast congrArg (fun v : ℝ => (v : ℂ)) hsq
  have hac : across.x * (p.x - s.location.x) + across.y * (p.y - s.location.y) = 0 := by
    simp only [across, d, V3.dot, V3.sub_x, V3.sub_y, V3.smul_x, V3.smul_y, smul_eq_mul, mul_zero, add_zero]
    field_simp
    rw [hsq]
    ring
  rw [hac] at hst
  have hSx : S.x = ((s.moment / (4 * Real.pi) : ℝ) : ℂ) * (-across.x / r ^ 3) := by
    have := congrArg (fun v : V3 ℝ => ((v.x : ℝ) : ℂ)) hst
    simp only [V3.smul_x, smul_eq_mul, mul_zero, zero_div, zero_sub] at this
    push_cast at this ⊢
    rw [neg_div]
    exact this
  have hSy : S.y = ((s.moment / (4 * Real.pi) : ℝ) : ℂ) * (-across.y / r ^ 3) := by
    have := congrArg (fun v : V3 ℝ => ((v.y : ℝ) : ℂ)) hst
    simp only [V3.smul_y, smul_eq_mul, mul_zero, zero_div, zero_sub] at this
    push_cast at this ⊢
    rw [neg_div]
    exact this
  have h1 := low_halfPhi hkap0 hr0
  have h2 := low_halfDphi hkap0 hr0
  constructor
  · have h := ((h1.const_mul ((s.orientation.x : ℂ) * (-1 / r ^ 3) * ((p.y : ℂ) - s.location.y) ^ 2 + s.orientation.y * (1 / r ^ 3) * ((p.x : ℂ) - s.location.x) * ((p.y : ℂ) - s.location.y))).add
      (h2.const_mul ((s.orientation.x : ℂ) * (-1 / r ^ 3) * (((p.x : ℂ) - s.location.x) ^ 2 * r) - s.orientation.y * (1 / r ^ 3) * ((p.x : ℂ) - s.location.x) * ((p.y : ℂ) - s.location.y) * r))).const_mul
      ((s.moment / (4 * Real.pi) : ℝ) : ℂ)
    refine (h.congr' ?_).trans_eq ?_
    · filter_upwards [self_mem_nhdsWithin] with f hf
      have hf0 : (f : ℂ) ≠ 0 := by exact_mod_cast (show (0 : ℝ) < f from hf).ne'
      simp only [H, HalfDipole.magneticField, hray f hf, halfEm_secondary,
        halfEm_total iv kv _ s.orientation _ _ hne (show "total" ≠ "secondary" by decide), V3.smul_x, V3.sub_x, smul_eq_mul, ho, ← hrr]
      push_cast
      generalize halfPhi ((Real.sqrt f : ℂ) * kap) r = P
      generalize halfDphi ((Real.sqrt f : ℂ) * kap) r = Q
      generalize (r : ℂ) = R at *
      generalize (p.x : ℂ) - s.location.x = x at *
      generalize (p.y : ℂ) - s.location.y = y at *
      field_simp
      linear_combination (-(s.moment : ℂ) * s.orientation.x) * hsqc
    · rw [hSx, hk2]
      congr 1
      simp only [across, d, V3.dot, V3.sub_x, V3.smul_x, smul_eq_mul, mul_zero, add_zero]
      push_cast
      field_simp
      rw [hsqc]
      ring
  · have h := ((h1.const_mul ((s.orientation.y : ℂ) * (-1 / r ^ 3) * ((p.x : ℂ) - s.location.x) ^ 2 + s.orientation.x * (1 / r ^ 3) * ((p.y : ℂ) - s.location.y) * ((p.x : ℂ) - s.location.x))).add
      (h2.const_mul ((s.orientation.y : ℂ) * (-1 / r ^ 3) * (((p.y : ℂ) - s.location.y) ^ 2 * r) - s.orientation.x * (1 / r ^ 3) * ((p.y : ℂ) - s.location.y) * ((p.x : ℂ) - s.location.x) * r))).const_mul
      ((s.moment / (4 * Real.pi) : ℝ) : ℂ)
    refine (h.congr' ?_).trans_eq ?_
    · filter_upwards [self_mem_nhdsWithin] with f hf
      have hf0 : (f : ℂ) ≠ 0 := by exact_mod_cast (show (0 : ℝ) < f from hf).ne'
      simp only [H, HalfDipole.magneticField, hray f hf, halfEm_secondary,
        halfEm_total iv kv _ s.orientation _ _ hne (show "total" ≠ "secondary" by decide), V3.smul_y, V3.sub_y, smul_eq_mul, ho, ← hrr]
      push_cast
      generalize halfPhi ((Real.sqrt f : ℂ) * kap) r = P
      generalize halfDphi ((Real.sqrt f : ℂ) * kap) r = Q
      generalize (r : ℂ) = R at *
      generalize (p.y : ℂ) - s.location.y = x at *
      generalize (p.x : ℂ) - s.location.x = y at *
      field_simp
      linear_combination (-(s.moment : ℂ) * s.orientation.y) * hsqc
    · rw [hSy, hk2]
      congr 1
      simp only [across, d, V3.dot, V3.sub_y, V3.smul_y, smul_eq_mul, mul_zero, add_zero]
      push_cast
      field_simp
      rw [hsqc]
      ring

/-- **C133.** At the centre of a loop on the ground the secondary field tends to `−iωμσa²/4` times the primary field. -/
theorem loop_low {mu a : ℝ} {sigma : ℂ} (hmu : 0 < mu) (hs : 0 < sigma.re) (ha : 0 < a) (current turns : ℝ) :
    Tendsto (fun f : ℝ => loopField f sigma mu a current turns true / f) (𝓝[>] 0)
      (𝓝 (-(I * (2 * Real.pi) * mu * sigma * a ^ 2 / 4) * ((turns * current / (2 * a) : ℝ) : ℂ))) := by
  have ha0 : (a : ℂ) ≠ 0 := by exact_mod_cast ha.ne'
  obtain ⟨kap, hkap, hray⟩ := half_k_ray hmu (⟨0, sigma, 0, 0, 0⟩ : HalfDipole) hs
  have hk2 := ray_sq _ hray
  have hkap0 : kap ≠ 0 := fun h => by rw [h] at hkap; simp at hkap
  simp only [HalfDipole.k] at hray
  have h := (low_scale hkap0 ha0 (tendsto_small4 3 (-3) (-3) (-1) 0 0 (1 / 2) (-1 / 8) (by norm_num) rfl (by norm_num) (by norm_num)
    (by norm_num))).const_mul (turns * current / a : ℂ)
  refine (h.congr' ?_).trans_eq ?_
  · filter_upwards [self_mem_nhdsWithin] with f hf
    have e := (loop_linear f sigma mu a current turns true).2.2
    rw [loopField_eq ha current turns (root_ne hkap0 ha0 hf) (hray f hf)] at e
    rw [← sub_eq_iff_eq_add.2 e]
    push_cast
    ring
  · congr 1
    simp only at hk2
    rw [hk2]
    push_cast
    field_simp
    ring

/-- Two layers above a conductor. -/
example : ∃ (n : ℕ) (th : ℕ → ℝ) (sg : ℕ → ℂ), 0 < n ∧ (∀ k < n, 0 ≤ th k) ∧ sg 0 ≠ sg 1 :=
  ⟨2, fun _ => 1, fun k => k, by norm_num, fun _ _ => zero_le_one, by norm_num⟩

/-- A vertical and a horizontal dipole on a conductor. -/
example : 0 < (⟨1, 1, 0, ⟨0, 0, 1⟩, 1⟩ : HalfDipole).sigmaHat.re ∧ (⟨1, 1, 0, ⟨1, 0, 0⟩, 1⟩ : HalfDipole).orientation.z = 0 ∧
    ((1 : ℝ) ≠ (⟨1, 1, 0, ⟨0, 0, 1⟩, 1⟩ : HalfDipole).location.x) := by
  simp

end Verif.Fdem
