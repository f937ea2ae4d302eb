import Verif.Props.Reflection
import Verif.Lemmas.ReflectionGrad
import Mathlib.Analysis.SpecialFunctions.Pow.Deriv
import Mathlib.Analysis.SpecialFunctions.ExpDeriv
import Mathlib.Analysis.SpecialFunctions.Trigonometric.Deriv

/-! # C50: the gradient kernel returns the derivatives of the forward kernel -/

namespace Verif.RTE

open Complex

/-- Reflection coefficient as a function of the admittance looking down from the top of layer `k`. -/
private noncomputable def above (c : Col) (k : ℕ) (y : ℂ) : ℂ :=
  (c.Y0 - downLoop k (fun i => stepOf (c.Y i) (c.t i)) y) / (c.Y0 + downLoop k (fun i => stepOf (c.Y i) (c.t i)) y)

/-- `c'` differs from `c` in layer `k` only. -/
private structure Only (c c' : Col) (k : ℕ) : Prop where
  omega : c'.omega = c.omega
  lamb : c'.lamb = c.lamb
  mu0 : c'.mu0 = c.mu0
  n : c'.n = c.n
  sigma : ∀ i, i ≠ k → c'.sigma i = c.sigma i
  mu : ∀ i, i ≠ k → c'.mu i = c.mu i
  h : ∀ i, i ≠ k → c'.h i = c.h i

private theorem Only.Y {c c' : Col} {k : ℕ} (o : Only c c' k) {i : ℕ} (hi : i ≠ k) : c'.Y i = c.Y i := by
  rw [Col.Y, Col.Y, o.omega, o.lamb, o.sigma i hi, o.mu i hi]

private theorem Only.t {c c' : Col} {k : ℕ} (o : Only c c' k) {i : ℕ} (hi : i ≠ k) : c'.t i = c.t i := by
  rw [Col.t, Col.t, Col.u, Col.u, o.omega, o.lamb, o.sigma i hi, o.mu i hi, o.h i hi]

private theorem Only.yh {c c' : Col} {k : ℕ} (o : Only c c' k) {i : ℕ} (hi : k < i) (hn : i ≤ c.n) :
    c'.yh i = c.yh i := by
  simp only [Col.yh]
  rw [o.n, o.Y (show c.n ≠ k by omega)]
  exact downLoop_congr _ _ _ (fun j _ => by rw [o.Y (by omega), o.t (by omega)]) _

private theorem Only.forward {c c' : Col} {k : ℕ} (o : Only c c' k) (hk : k ≤ c.n) :
    forward c' = above c k (c'.yh k) := by
  have h0 : c'.Y0 = c.Y0 := by rw [Col.Y0, Col.Y0, o.omega, o.lamb, o.mu0]
  rw [forward_eq, yh_zero_split c' (show k ≤ c'.n by rw [o.n]; exact hk), h0, above]
  rw [downLoop_congr k (fun i => stepOf (c'.Y i) (c'.t i)) (fun i => stepOf (c.Y i) (c.t i))
    (fun i hi => by rw [o.Y (by omega), o.t (by omega)])]

/-! ## The pieces -/

theorem hasDerivAt_step {Y t y : ℂ → ℂ} {s Y' t' y' : ℂ} (hY : HasDerivAt Y Y' s) (ht : HasDerivAt t t' s)
    (hy : HasDerivAt y y' s) (hd : Y s + y s * t s ≠ 0) :
    HasDerivAt (fun x => stepOf (Y x) (t x) (y x))
      (t s * (2 * t s * Y s * y s + Y s * Y s + y s * y s) / ((Y s + y s * t s) * (Y s + y s * t s)) * Y' +
        (Y s * Y s * Y s - Y s * y s * y s) / ((Y s + y s * t s) * (Y s + y s * t s)) * t' +
        (-(t s * t s - 1)) * Y s * Y s / ((Y s + y s * t s) * (Y s + y s * t s)) * y') s := by
  have h := (hY.fun_mul (hy.fun_add (hY.fun_mul ht))).fun_div (hY.fun_add (hy.fun_mul ht)) hd
  refine h.congr_deriv ?_
  generalize hB : Y s + y s * t s = B at *
  field_simp
  rw [← hB]
  ring

theorem hasDerivAt_csqrt {f : ℂ → ℂ} {f' s : ℂ} (hf : HasDerivAt f f' s) (h : f s ∈ slitPlane) :
    HasDerivAt (fun x => Complex.sqrt (f x)) (f' * (0.5 / Complex.sqrt (f s))) s := by
  have h0 : f s ≠ 0 := slitPlane_ne_zero h
  have := hf.cpow_const (c := (2⁻¹ : ℂ)) h
  simp only [Complex.sqrt]
  refine (this.congr_deriv ?_)
  have : f s ^ ((2⁻¹ : ℂ) - 1) = 1 / f s ^ (2⁻¹ : ℂ) := by
    rw [show ((2⁻¹ : ℂ) - 1) = -(2⁻¹) by norm_num, Complex.cpow_neg]; ring
  rw [this]; norm_num; ring

theorem hasDerivAt_tanh {f : ℂ → ℂ} {f' s : ℂ} (hf : HasDerivAt f f' s) (h : Complex.cosh (f s) ≠ 0) :
    HasDerivAt (fun x => Complex.tanh (f x)) (f' * (1 - Complex.tanh (f s) * Complex.tanh (f s))) s := by
  simp only [Complex.tanh_eq_sinh_div_cosh]
  refine (hf.csinh.fun_div hf.ccosh h).congr_deriv ?_
  field_simp

/-! ## The gradient loop -/

/-- What the kernel needs to be differentiable: the recursion is defined and no root is on its branch cut. -/
structure Smooth (c : Col) : Prop extends Defined c where
  omega_ne : c.omega ≠ 0
  mu_ne : ∀ k ≤ c.n, c.mu k ≠ 0
  radicand : ∀ k ≤ c.n, (((c.lamb ^ 2 : ℝ) : ℂ) - k2 c.omega (c.mu k) (c.sigma k)) ∈ slitPlane

theorem Physical.smooth {c : Col} (hc : Physical c) : Smooth c :=
  ⟨physical_defined c hc, hc.omega_pos.ne',
    fun k hk e => by have := (hc.mu_pos k hk).2; rw [e] at this; simp at this, fun _ hk => radicand_mem hc hk⟩

section
variable (c : Col) (junk js jh jm : ℕ → ℂ)

/-- The running `gyh0` is the derivative with respect to the admittance at the level reached. -/
private theorem st_gyh0 (hs : Smooth c) {m : ℕ} (hm : m ≤ c.n) :
    HasDerivAt (above c m) (st c junk js jh jm m).gyh0 (c.yh m) := by
  induction m with
  | zero =>
    have h := ((hasDerivAt_id' (c.yh 0)).const_sub c.Y0).fun_div ((hasDerivAt_id' (c.yh 0)).const_add c.Y0) hs.last
    refine h.congr_deriv ?_
    change _ = -2 * c.Y0 / ((c.Y0 + yhArray c junk 0) * (c.Y0 + yhArray c junk 0))
    rw [yhArray_eq c junk (Nat.zero_le _)]
    congr 1 <;> ring
  | succ m ih =>
    have hm' : m < c.n := hm
    have h1 := ih hm'.le
    have h2 := hasDerivAt_step (hasDerivAt_const (c.yh (m + 1)) (c.Y m)) (hasDerivAt_const (c.yh (m + 1)) (c.t m))
      (hasDerivAt_id' (c.yh (m + 1))) (hs.denominator m hm')
    rw [Col.yh_succ c hm'] at h1
    have h3 := h1.comp (c.yh (m + 1)) h2
    refine h3.congr_deriv ?_
    rw [st_succ]
    simp only [gradBody]
    rw [yhArray_eq c junk hm]
    ring

end

/-- Derivative of one layer's step when its conductivity and permeability move along a curve. -/
private theorem hasDerivAt_layer {c : Col} (hs : Smooth c) (junk js jh jm : ℕ → ℂ) {k : ℕ} (hk : k < c.n)
    {S M : ℂ → ℂ} {S' M' x : ℂ} (hS : HasDerivAt S S' x) (hM : HasDerivAt M M' x) (hSx : S x = c.sigma k)
    (hMx : M x = c.mu k) :
    HasDerivAt (fun w => above c k (stepOf (yOf c.omega c.lamb (M w) (S w))
        (tanhOf (uOf c.omega c.lamb (M w) (S w)) (c.h k)) (c.yh (k + 1))))
      ((gradient c junk js jh jm).dsigma k * S' + (gradient c junk js jh jm).dmu k * M') x := by
  have hw : (c.omega : ℂ) ≠ 0 := ofReal_ne_zero.2 hs.omega_ne
  have hm := hs.mu_ne k hk.le
  have hrad := hs.radicand k hk.le
  have hu0 : c.u k ≠ 0 := by
    intro e
    have := csqrt_re_pos_of_slit hrad
    change 0 < (c.u k).re at this
    rw [e] at this; simp at this
  have hu : HasDerivAt (fun w => uOf c.omega c.lamb (M w) (S w))
      ((I * c.omega * (M' * c.sigma k + c.mu k * S')) * (0.5 / c.u k)) x := by
    have h1 : HasDerivAt (fun w => ((c.lamb ^ 2 : ℝ) : ℂ) - k2 c.omega (M w) (S w))
        (I * c.omega * (M' * c.sigma k + c.mu k * S')) x := by
      have := (((hM.const_mul (-I * c.omega)).fun_mul hS).const_sub ((c.lamb ^ 2 : ℝ) : ℂ))
      refine this.congr_deriv ?_
      rw [hSx, hMx]; ring
    have h2 := hasDerivAt_csqrt h1 (by rw [hSx, hMx]; exact hrad)
    simp only [hSx, hMx] at h2
    exact h2
  have hY : HasDerivAt (fun w => yOf c.omega c.lamb (M w) (S w))
      ((I * c.omega * (M' * c.sigma k + c.mu k * S')) * (0.5 / c.u k) / (I * c.omega * c.mu k) - c.Y k / c.mu k * M') x := by
    have hne : I * c.omega * M x ≠ 0 := by
      rw [hMx]; exact mul_ne_zero (mul_ne_zero I_ne_zero hw) hm
    refine (hu.fun_div (hM.const_mul (I * c.omega)) hne).congr_deriv ?_
    rw [hSx, hMx, Col.Y, yOf, ← Col.u]
    field_simp
  have ht : HasDerivAt (fun w => tanhOf (uOf c.omega c.lamb (M w) (S w)) (c.h k))
      ((I * c.omega * (M' * c.sigma k + c.mu k * S')) * (0.5 / c.u k) * c.h k * (1 - c.t k * c.t k)) x := by
    have h1 := hasDerivAt_tanh (hu.mul_const (c.h k : ℂ)) (by rw [hSx, hMx]; exact hs.cosh k hk)
    simp only [hSx, hMx] at h1
    exact h1
  have hden : yOf c.omega c.lamb (M x) (S x) + c.yh (k + 1) * tanhOf (uOf c.omega c.lamb (M x) (S x)) (c.h k) ≠ 0 := by
    rw [hSx, hMx]; exact hs.denominator k hk
  have h2 := hasDerivAt_step hY ht (hasDerivAt_const x (c.yh (k + 1))) hden
  have h1 := st_gyh0 c junk js jh jm hs hk.le
  have e : c.yh k = stepOf (yOf c.omega c.lamb (M x) (S x)) (tanhOf (uOf c.omega c.lamb (M x) (S x)) (c.h k))
      (c.yh (k + 1)) := by
    rw [hSx, hMx, Col.yh_succ c hk]; rfl
  rw [e] at h1
  refine (h1.comp x h2).congr_deriv ?_
  obtain ⟨g1, -, g3⟩ := gradient_lt c junk js jh jm hk
  rw [g1, g3, st_succ]
  simp only [gradBody, Function.update_self]
  rw [yhArray_eq c junk (show k + 1 ≤ c.n from hk)]
  have eY : yOf c.omega c.lamb (M x) (S x) = c.Y k := by rw [hSx, hMx]; rfl
  have et : tanhOf (uOf c.omega c.lamb (M x) (S x)) (c.h k) = c.t k := by rw [hSx, hMx]; rfl
  have hden' := hs.denominator k hk
  simp only [eY, et]
  generalize c.Y k + c.yh (k + 1) * c.t k = B at *
  generalize (st c junk js jh jm k).gyh0 = g at *
  generalize c.t k = t at *
  generalize c.yh (k + 1) = y at *
  generalize c.Y k = Y at *
  generalize c.u k = u at *
  generalize c.mu k = m at *
  generalize (c.omega : ℂ) = w at *
  norm_num
  field_simp
  ring

/-- Same for the basement. -/
private theorem hasDerivAt_basement {c : Col} (hs : Smooth c) (junk js jh jm : ℕ → ℂ)
    {S M : ℂ → ℂ} {S' M' x : ℂ} (hS : HasDerivAt S S' x) (hM : HasDerivAt M M' x) (hSx : S x = c.sigma c.n)
    (hMx : M x = c.mu c.n) :
    HasDerivAt (fun w => above c c.n (yOf c.omega c.lamb (M w) (S w)))
      ((gradient c junk js jh jm).dsigma c.n * S' + (gradient c junk js jh jm).dmu c.n * M') x := by
  have hw : (c.omega : ℂ) ≠ 0 := ofReal_ne_zero.2 hs.omega_ne
  have hm := hs.mu_ne c.n le_rfl
  have hrad := hs.radicand c.n le_rfl
  have hu0 : c.u c.n ≠ 0 := by
    intro e
    have := csqrt_re_pos_of_slit hrad
    change 0 < (c.u c.n).re at this
    rw [e] at this; simp at this
  have hu : HasDerivAt (fun w => uOf c.omega c.lamb (M w) (S w))
      ((I * c.omega * (M' * c.sigma c.n + c.mu c.n * S')) * (0.5 / c.u c.n)) x := by
    have h1 : HasDerivAt (fun w => ((c.lamb ^ 2 : ℝ) : ℂ) - k2 c.omega (M w) (S w))
        (I * c.omega * (M' * c.sigma c.n + c.mu c.n * S')) x := by
      have := (((hM.const_mul (-I * c.omega)).fun_mul hS).const_sub ((c.lamb ^ 2 : ℝ) : ℂ))
      refine this.congr_deriv ?_
      rw [hSx, hMx]; ring
    have h2 := hasDerivAt_csqrt h1 (by rw [hSx, hMx]; exact hrad)
    simp only [hSx, hMx] at h2
    exact h2
  have hY : HasDerivAt (fun w => yOf c.omega c.lamb (M w) (S w))
      ((I * c.omega * (M' * c.sigma c.n + c.mu c.n * S')) * (0.5 / c.u c.n) / (I * c.omega * c.mu c.n)
        - c.Y c.n / c.mu c.n * M') x := by
    have hne : I * c.omega * M x ≠ 0 := by
      rw [hMx]; exact mul_ne_zero (mul_ne_zero I_ne_zero hw) hm
    refine (hu.fun_div (hM.const_mul (I * c.omega)) hne).congr_deriv ?_
    rw [hSx, hMx, Col.Y, yOf, ← Col.u]
    field_simp
  have h1 := st_gyh0 c junk js jh jm hs (le_refl c.n)
  have e : c.yh c.n = yOf c.omega c.lamb (M x) (S x) := by
    rw [hSx, hMx, Col.yh_n]; rfl
  rw [e] at h1
  refine (h1.comp x hY).congr_deriv ?_
  simp only [gradient, Function.update_self]
  rw [yhArray_eq c junk le_rfl, Col.yh_n]
  change (st c junk js jh jm c.n).gyh0 * _ = (st c junk js jh jm c.n).gyh0 / _ * _ / _ * _ * _ +
    ((st c junk js jh jm c.n).gyh0 * _ + (st c junk js jh jm c.n).gyh0 / _ * _ / _ * _) * _
  generalize (st c junk js jh jm c.n).gyh0 = g at *
  generalize c.Y c.n = Y at *
  generalize c.u c.n = u at *
  generalize c.mu c.n = m at *
  generalize (c.omega : ℂ) = w at *
  norm_num
  field_simp
  ring

/-! ## C50 -/

/-- **C50.** `TE_dsigma[k]` is the derivative of the forward result with respect to `sigma[k]`. -/
theorem gradient_dsigma (c : Col) (hs : Smooth c) (junk js jh jm : ℕ → ℂ) (k : ℕ) (hk : k ≤ c.n) :
    HasDerivAt (fun s : ℂ => forward { c with sigma := Function.update c.sigma k s })
      ((gradient c junk js jh jm).dsigma k) (c.sigma k) := by
  have ho : ∀ s, Only c { c with sigma := Function.update c.sigma k s } k := fun s =>
    ⟨rfl, rfl, rfl, rfl, fun i hi => by simp [Function.update_of_ne hi], fun _ _ => rfl, fun _ _ => rfl⟩
  rcases hk.lt_or_eq with hlt | rfl
  · have h := hasDerivAt_layer hs junk js jh jm hlt (hasDerivAt_id' (c.sigma k)) (hasDerivAt_const (c.sigma k) (c.mu k))
      rfl rfl
    refine (h.congr_deriv (by ring)).congr_of_eventuallyEq (Filter.Eventually.of_forall fun s => ?_)
    change forward _ = above c k _
    rw [(ho s).forward hk, Col.yh_succ { c with sigma := Function.update c.sigma k s } hlt,
      (ho s).yh (Nat.lt_succ_self k) hlt]
    simp only [Col.Y, Col.t, Col.u, Function.update_self]
  · have h := hasDerivAt_basement hs junk js jh jm (hasDerivAt_id' (c.sigma c.n))
      (hasDerivAt_const (c.sigma c.n) (c.mu c.n)) rfl rfl
    refine (h.congr_deriv (by ring)).congr_of_eventuallyEq (Filter.Eventually.of_forall fun s => ?_)
    change forward _ = above c c.n _
    rw [(ho s).forward hk]
    have := Col.yh_n { c with sigma := Function.update c.sigma c.n s }
    change Col.yh { c with sigma := Function.update c.sigma c.n s } c.n = _ at this
    rw [this]
    simp only [Col.Y, Function.update_self]

/-- **C50.** `TE_dmu[k]` is the derivative with respect to `mu[k]`. -/
theorem gradient_dmu (c : Col) (hs : Smooth c) (junk js jh jm : ℕ → ℂ) (k : ℕ) (hk : k ≤ c.n) :
    HasDerivAt (fun m : ℂ => forward { c with mu := Function.update c.mu k m })
      ((gradient c junk js jh jm).dmu k) (c.mu k) := by
  have ho : ∀ s, Only c { c with mu := Function.update c.mu k s } k := fun s =>
    ⟨rfl, rfl, rfl, rfl, fun _ _ => rfl, fun i hi => by simp [Function.update_of_ne hi], fun _ _ => rfl⟩
  rcases hk.lt_or_eq with hlt | rfl
  · have h := hasDerivAt_layer hs junk js jh jm hlt (hasDerivAt_const (c.mu k) (c.sigma k)) (hasDerivAt_id' (c.mu k))
      rfl rfl
    refine (h.congr_deriv (by ring)).congr_of_eventuallyEq (Filter.Eventually.of_forall fun s => ?_)
    change forward _ = above c k _
    rw [(ho s).forward hk, Col.yh_succ { c with mu := Function.update c.mu k s } hlt,
      (ho s).yh (Nat.lt_succ_self k) hlt]
    simp only [Col.Y, Col.t, Col.u, Function.update_self]
  · have h := hasDerivAt_basement hs junk js jh jm (hasDerivAt_const (c.mu c.n) (c.sigma c.n))
      (hasDerivAt_id' (c.mu c.n)) rfl rfl
    refine (h.congr_deriv (by ring)).congr_of_eventuallyEq (Filter.Eventually.of_forall fun s => ?_)
    change forward _ = above c c.n _
    rw [(ho s).forward hk]
    have := Col.yh_n { c with mu := Function.update c.mu c.n s }
    change Col.yh { c with mu := Function.update c.mu c.n s } c.n = _ at this
    rw [this]
    simp only [Col.Y, Function.update_self]

/-- **C50.** `TE_dh[k]` is the derivative with respect to `thicknesses[k]`. -/
theorem gradient_dh (c : Col) (hs : Smooth c) (junk js jh jm : ℕ → ℂ) (k : ℕ) (hk : k < c.n) :
    HasDerivAt (fun d : ℝ => forward { c with h := Function.update c.h k d })
      ((gradient c junk js jh jm).dh k) (c.h k) := by
  have ho : ∀ s, Only c { c with h := Function.update c.h k s } k := fun s =>
    ⟨rfl, rfl, rfl, rfl, fun _ _ => rfl, fun _ _ => rfl, fun i hi => by simp [Function.update_of_ne hi]⟩
  have ht : HasDerivAt (fun w : ℂ => Complex.tanh (c.u k * w)) (c.u k * (1 - c.t k * c.t k)) (c.h k : ℂ) := by
    have := hasDerivAt_tanh ((hasDerivAt_id' (c.h k : ℂ)).const_mul (c.u k)) (hs.cosh k hk)
    exact this.congr_deriv (by rw [mul_one]; rfl)
  have h2 := hasDerivAt_step (hasDerivAt_const (c.h k : ℂ) (c.Y k)) ht (hasDerivAt_const (c.h k : ℂ) (c.yh (k + 1)))
    (hs.denominator k hk)
  have h1 := st_gyh0 c junk js jh jm hs hk.le
  rw [Col.yh_succ c hk] at h1
  have h3 := (h1.comp (c.h k : ℂ) h2).comp_ofReal
  obtain ⟨-, g2, -⟩ := gradient_lt c junk js jh jm hk
  refine (h3.congr_deriv ?_).congr_of_eventuallyEq (Filter.Eventually.of_forall fun d => ?_)
  · rw [g2, st_succ]
    simp only [gradBody, Function.update_self]
    rw [yhArray_eq c junk (show k + 1 ≤ c.n from hk), show Complex.tanh (c.u k * (c.h k : ℂ)) = c.t k from rfl]
    ring
  · change forward _ = above c k _
    rw [(ho d).forward hk.le, Col.yh_succ { c with h := Function.update c.h k d } hk,
      (ho d).yh (Nat.lt_succ_self k) hk]
    simp only [Col.Y, Col.t, Col.u, Function.update_self, tanhOf]

/-- **C50.** The outputs do not depend on what `np.empty` returned. -/
theorem gradient_no_junk (c : Col) (junk js jh jm junk' js' jh' jm' : ℕ → ℂ) :
    (∀ k ≤ c.n, (gradient c junk js jh jm).dsigma k = (gradient c junk' js' jh' jm').dsigma k) ∧
    (∀ k ≤ c.n, (gradient c junk js jh jm).dmu k = (gradient c junk' js' jh' jm').dmu k) ∧
    (∀ k < c.n, (gradient c junk js jh jm).dh k = (gradient c junk' js' jh' jm').dh k) := by
  have hg : ∀ m ≤ c.n, (st c junk js jh jm m).gyh0 = (st c junk' js' jh' jm' m).gyh0 := by
    intro m
    induction m with
    | zero => intro _; simp only [st, upLoop]; rw [yhArray_eq _ _ (Nat.zero_le _), yhArray_eq _ _ (Nat.zero_le _)]
    | succ m ih =>
      intro hm
      rw [st_succ, st_succ]
      simp only [gradBody]
      rw [yhArray_eq _ _ hm, yhArray_eq _ _ hm, ih (by omega)]
  have hlt : ∀ k < c.n, (gradient c junk js jh jm).dsigma k = (gradient c junk' js' jh' jm').dsigma k ∧
      (gradient c junk js jh jm).dh k = (gradient c junk' js' jh' jm').dh k ∧
      (gradient c junk js jh jm).dmu k = (gradient c junk' js' jh' jm').dmu k := by
    intro k hk
    obtain ⟨a1, a2, a3⟩ := gradient_lt c junk js jh jm hk
    obtain ⟨b1, b2, b3⟩ := gradient_lt c junk' js' jh' jm' hk
    rw [a1, a2, a3, b1, b2, b3, st_succ, st_succ]
    simp only [gradBody, Function.update_self]
    rw [yhArray_eq _ _ (show k + 1 ≤ c.n from hk), yhArray_eq _ _ (show k + 1 ≤ c.n from hk), hg k hk.le]
    exact ⟨rfl, rfl, rfl⟩
  have hn : (gradient c junk js jh jm).dsigma c.n = (gradient c junk' js' jh' jm').dsigma c.n ∧
      (gradient c junk js jh jm).dmu c.n = (gradient c junk' js' jh' jm').dmu c.n := by
    have := hg c.n le_rfl
    simp only [st] at this
    simp only [gradient, Function.update_self]
    rw [this, yhArray_eq _ _ (le_refl c.n), yhArray_eq _ _ (le_refl c.n)]
    exact ⟨rfl, rfl⟩
  refine ⟨fun k hk => ?_, fun k hk => ?_, fun k hk => (hlt k hk).2.1⟩
  · rcases hk.lt_or_eq with h | rfl
    · exact (hlt k h).1
    · exact hn.1
  · rcases hk.lt_or_eq with h | rfl
    · exact (hlt k h).2.2
    · exact hn.2

/-- Non-vacuity: a three-layer earth is smooth. -/
example : ∃ c : Col, c.n = 2 ∧ Smooth c := by
  have h : Physical ⟨1, 1, 1, 2, fun _ => 0.01, fun _ => 1, fun k => k⟩ := by
    refine ⟨by norm_num, by norm_num, fun k _ => by simp, fun k _ => by positivity, Or.inl fun k _ => ?_⟩
    norm_num [Complex.ext_iff]
  exact ⟨_, rfl, h.smooth⟩

end Verif.RTE
