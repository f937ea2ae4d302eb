import Verif.Spec.LayeredWave
import Verif.Props.Reflection
import Mathlib.Analysis.SpecialFunctions.ExpDeriv
import Mathlib.Analysis.Calculus.MeanValue
import Mathlib.Analysis.SpecialFunctions.Exp

/-! # C70: `rTE` is the reflection coefficient of Maxwell's equations -/

namespace Verif.RTE

open Complex Filter Topology LayeredWave

/-- The earth of the specification described by the arguments. -/
def Col.earth (c : Col) : Earth := ⟨c.omega, c.lamb, c.mu0, c.n, c.sigma, c.mu, c.h⟩

/-- A solution of `f' = a f` is an exponential. -/
theorem ode_exp {a : ℂ} {f : ℝ → ℂ} (hf : ∀ z, HasDerivAt f (a * f z) z) (x y : ℝ) :
    f y = f x * Complex.exp (a * (y - x : ℝ)) := by
  have h : ∀ z, HasDerivAt (fun z : ℝ => f z * Complex.exp (-a * z)) 0 z := by
    intro z
    have h1 : HasDerivAt (fun z : ℝ => Complex.exp (-a * z)) (Complex.exp (-a * z) * (-a)) z := by
      have : HasDerivAt (fun w : ℂ => Complex.exp (-a * w)) (Complex.exp (-a * z) * (-a * 1)) (z : ℂ) :=
        ((hasDerivAt_id' (z : ℂ)).const_mul (-a)).cexp
      simpa using this.comp_ofReal
    exact ((hf z).fun_mul h1).congr_deriv (by ring)
  have hc := is_const_of_deriv_eq_zero (fun z => (h z).differentiableAt) (fun z => (h z).deriv) y x
  have e1 : f y = f y * Complex.exp (-a * y) * Complex.exp (a * y) := by
    rw [mul_assoc, ← Complex.exp_add, neg_mul, neg_add_cancel, Complex.exp_zero, mul_one]
  rw [e1, hc, mul_assoc, ← Complex.exp_add]
  congr 2; push_cast; ring

/-- Propagation of a solution of `E'' = u² E` over a distance. -/
theorem ode_transfer {u : ℂ} {E D : ℝ → ℂ} (hE : ∀ z, HasDerivAt E (D z) z)
    (hD : ∀ z, HasDerivAt D (u ^ 2 * E z) z) (x y : ℝ) :
    u * E y = u * E x * Complex.cosh (u * (y - x : ℝ)) + D x * Complex.sinh (u * (y - x : ℝ)) ∧
    D y = D x * Complex.cosh (u * (y - x : ℝ)) + u * E x * Complex.sinh (u * (y - x : ℝ)) := by
  have hP := ode_exp (a := u) (f := fun z => u * E z + D z)
    (fun z => (((hE z).const_mul u).fun_add (hD z)).congr_deriv (by ring)) x y
  have hQ := ode_exp (a := -u) (f := fun z => u * E z - D z)
    (fun z => (((hE z).const_mul u).fun_sub (hD z)).congr_deriv (by ring)) x y
  rw [neg_mul] at hQ
  rw [Complex.cosh, Complex.sinh]
  constructor
  · linear_combination (1 / 2) * hP + (1 / 2) * hQ
  · linear_combination (1 / 2) * hP - (1 / 2) * hQ

theorem exp_decay {u : ℂ} (hu : 0 < u.re) (x : ℝ) :
    Tendsto (fun y : ℝ => Complex.exp (-u * (y - x : ℝ))) atTop (𝓝 0) := by
  rw [tendsto_zero_iff_norm_tendsto_zero]
  have : (fun y : ℝ => ‖Complex.exp (-u * (y - x : ℝ))‖) = fun y : ℝ => Real.exp (-(u.re * (y - x))) := by
    funext y
    rw [Complex.norm_exp]; simp
  rw [this]
  refine Real.tendsto_exp_neg_atTop_nhds_zero.comp ?_
  exact (tendsto_atTop_add_const_right atTop (-x) tendsto_id).const_mul_atTop hu

/-- A decaying solution is the downgoing one. -/
theorem ode_decay {u : ℂ} (hu : 0 < u.re) {E D : ℝ → ℂ} (hE : ∀ z, HasDerivAt E (D z) z)
    (hD : ∀ z, HasDerivAt D (u ^ 2 * E z) z) (h0 : Tendsto E atTop (𝓝 0)) (x : ℝ) : D x = -u * E x := by
  have hP : ∀ y, u * E y + D y = (u * E x + D x) * Complex.exp (u * (y - x : ℝ)) := fun y =>
    ode_exp (a := u) (f := fun z => u * E z + D z)
    (fun z => (((hE z).const_mul u).fun_add (hD z)).congr_deriv (by ring)) x y
  have hQ : ∀ y, u * E y - D y = (u * E x - D x) * Complex.exp (-u * (y - x : ℝ)) := fun y =>
    ode_exp (a := -u) (f := fun z => u * E z - D z)
    (fun z => (((hE z).const_mul u).fun_sub (hD z)).congr_deriv (by ring)) x y
  have hdec := exp_decay hu x
  -- `u E + D = 2 u E - (u E - D)` tends to zero, so the constant vanishes
  have hlim : Tendsto (fun y : ℝ => (u * E x + D x) * Complex.exp (u * (y - x : ℝ))) atTop (𝓝 0) := by
    have h1 : Tendsto (fun y : ℝ => 2 * u * E y - (u * E x - D x) * Complex.exp (-u * (y - x : ℝ))) atTop
        (𝓝 (2 * u * 0 - (u * E x - D x) * 0)) := (h0.const_mul _).sub (hdec.const_mul _)
    simp only [mul_zero, sub_zero] at h1
    refine h1.congr fun y => ?_
    rw [← hP y, ← hQ y]; ring
  have hprod := hlim.mul hdec
  have hconst : (fun y : ℝ => (u * E x + D x) * Complex.exp (u * (y - x : ℝ)) * Complex.exp (-u * (y - x : ℝ))) =
      fun _ => u * E x + D x := by
    funext y
    rw [mul_assoc, ← Complex.exp_add]; simp
  rw [hconst, mul_zero] at hprod
  have := tendsto_nhds_unique hprod tendsto_const_nhds
  linear_combination -this

theorem u_sq' (c : Col) (k : ℕ) : c.u k ^ 2 = (c.lamb : ℂ) ^ 2 + I * c.omega * c.mu k * c.sigma k := by
  rw [Col.u, u_sq]; push_cast; ring

private theorem mu_ne {c : Col} (hc : Physical c) {k : ℕ} (hk : k ≤ c.n) : c.mu k ≠ 0 := by
  intro e; have := (hc.mu_pos k hk).2; rw [e] at this; simp at this

private theorem u_eq {c : Col} (hc : Physical c) {k : ℕ} (hk : k ≤ c.n) :
    c.u k = I * c.omega * c.mu k * c.Y k := by
  have hw : (c.omega : ℂ) ≠ 0 := ofReal_ne_zero.2 hc.omega_pos.ne'
  have := mu_ne hc hk
  rw [Col.Y, yOf, ← Col.u]
  field_simp

private theorem u_ne {c : Col} (hc : Physical c) {k : ℕ} (hk : k ≤ c.n) : c.u k ≠ 0 := by
  intro e; have := u_re_pos hc hk; rw [e] at this; simp at this

/-- **C70.** Any field that solves the layered problem has the amplitude returned by the code. -/
theorem reflection_unique (c : Col) (hc : Physical c) (r : ℂ) (hr : IsReflection c.earth r) : r = forward c := by
  obtain ⟨E, D, hE, hD, hEc, hDc, hdec, hE0, hD0⟩ := hr
  change ∀ k ≤ c.n, _ at hE
  change ∀ k ≤ c.n, _ at hD
  change ∀ k < c.n, _ at hEc
  change ∀ k < c.n, _ at hDc
  have hd := physical_defined c hc
  have hw : (c.omega : ℂ) ≠ 0 := ofReal_ne_zero.2 hc.omega_pos.ne'
  have hm0 : (c.mu0 : ℂ) ≠ 0 := ofReal_ne_zero.2 hc.mu0_pos.ne'
  have hD' : ∀ k ≤ c.n, ∀ z, HasDerivAt (D k) (c.u k ^ 2 * E k z) z := by
    intro k hk z; rw [u_sq']; exact hD k hk z
  have key : ∀ m, ∀ k, c.n - k = m → k ≤ c.n →
      -D k (c.earth.top k) = I * c.omega * c.mu k * c.yh k * E k (c.earth.top k) := by
    intro m
    induction m with
    | zero =>
      intro k h1 h2
      have : k = c.n := by omega
      subst this
      rw [Col.yh_n, ode_decay (u_re_pos hc le_rfl) (hE _ le_rfl) (hD' _ le_rfl) hdec, ← u_eq hc le_rfl]; ring
    | succ m ih =>
      intro k h1 h2
      have hk : k < c.n := by omega
      have hy := ih (k + 1) (by omega) hk
      have hmk := mu_ne hc h2
      have hmk1 := mu_ne hc (show k + 1 ≤ c.n from hk)
      have e1 := hEc k hk
      have e2 : D k (c.earth.top (k + 1)) / c.mu k = D (k + 1) (c.earth.top (k + 1)) / c.mu (k + 1) := hDc k hk
      have e3 : -D k (c.earth.top (k + 1)) = I * c.omega * c.mu k * c.yh (k + 1) * E k (c.earth.top (k + 1)) := by
        rw [e1]
        field_simp at e2
        have : c.mu (k + 1) * -D k (c.earth.top (k + 1)) = c.mu (k + 1) *
            (I * c.omega * c.mu k * c.yh (k + 1) * E (k + 1) (c.earth.top (k + 1))) := by
          linear_combination c.mu k * hy - e2
        exact mul_left_cancel₀ hmk1 this
      obtain ⟨t1, t2⟩ := ode_transfer (hE k h2) (hD' k h2) (c.earth.top (k + 1)) (c.earth.top k)
      have hdist : c.earth.top k - c.earth.top (k + 1) = -c.h k := by
        change c.earth.top k - (c.earth.top k + c.h k) = _; ring
      rw [hdist] at t1 t2
      have hneg : c.u k * ((-c.h k : ℝ) : ℂ) = -(c.u k * c.h k) := by push_cast; ring
      rw [hneg, Complex.cosh_neg, Complex.sinh_neg] at t1 t2
      have hch := hd.cosh k hk
      have hden := hd.denominator k hk
      have hY := hd.admittance k h2
      have ht : c.t k = Complex.sinh (c.u k * c.h k) / Complex.cosh (c.u k * c.h k) := by
        rw [Col.t, tanhOf, Complex.tanh_eq_sinh_div_cosh]
      have hsinh : Complex.sinh (c.u k * c.h k) = c.t k * Complex.cosh (c.u k * c.h k) := by
        rw [ht]; field_simp
      rw [hsinh] at t1 t2
      rw [Col.yh_succ c hk, stepOf]
      generalize Complex.cosh (c.u k * c.h k) = C at *
      generalize c.t k = t at *
      rw [u_eq hc h2] at t1 t2
      generalize D k (c.earth.top (k + 1)) = d at *
      generalize E k (c.earth.top (k + 1)) = e at *
      have hd1 : d = -(I * c.omega * c.mu k * c.yh (k + 1) * e) := by linear_combination -e3
      rw [hd1] at t1 t2
      have hEk : E k (c.earth.top k) = (c.Y k + c.yh (k + 1) * t) * (e * C / c.Y k) := by
        have hn : I * c.omega * c.mu k ≠ 0 := mul_ne_zero (mul_ne_zero I_ne_zero hw) hmk
        have : (I * c.omega * c.mu k) * (c.Y k * E k (c.earth.top k)) =
            (I * c.omega * c.mu k) * ((c.Y k + c.yh (k + 1) * t) * (e * C)) := by
          linear_combination t1
        have := mul_left_cancel₀ hn this
        field_simp
        linear_combination this
      rw [hEk, t2]
      generalize c.Y k + c.yh (k + 1) * t = B at *
      field_simp
      ring
  have h0 := key c.n 0 (by omega) (Nat.zero_le _)
  have hm := mu_ne hc (Nat.zero_le c.n)
  change -D 0 0 = I * c.omega * c.mu 0 * c.yh 0 * E 0 0 at h0
  change D 0 0 / c.mu 0 = (-c.lamb + c.lamb * r) / c.mu0 at hD0
  rw [hE0] at h0
  have hD00 : D 0 0 = -(I * c.omega * c.mu 0 * c.yh 0 * (1 + r)) := by linear_combination -h0
  rw [hD00] at hD0
  have hlast := hd.last
  rw [forward_eq, eq_div_iff hlast]
  have hY0 : c.Y0 * (I * c.omega * c.mu0) = c.lamb := by
    rw [Col.Y0]; field_simp
  have hq : c.yh 0 * (1 + r) = c.Y0 * (1 - r) := by
    have hn : I * c.omega * c.mu0 ≠ 0 := mul_ne_zero (mul_ne_zero I_ne_zero hw) hm0
    apply mul_left_cancel₀ hn
    field_simp at hD0
    linear_combination -hD0 - (1 - r) * hY0
  linear_combination hq

/-- Amplitudes `(u E, E')` at the top of each layer, propagated down from the surface. -/
private noncomputable def amp (c : Col) : ℕ → ℂ × ℂ
  | 0 => (1 + forward c, -(I * c.omega * c.mu 0 * c.yh 0 * (1 + forward c)))
  | k + 1 =>
    let e := (amp c k).1 * Complex.cosh (c.u k * c.h k) + (amp c k).2 / c.u k * Complex.sinh (c.u k * c.h k)
    let d := (amp c k).2 * Complex.cosh (c.u k * c.h k) + c.u k * (amp c k).1 * Complex.sinh (c.u k * c.h k)
    (e, d * c.mu (k + 1) / c.mu k)

/-- **C70.** There is a field that solves the layered problem with the amplitude returned by the code. -/
theorem reflection_exists (c : Col) (hc : Physical c) : IsReflection c.earth (forward c) := by
  have hd := physical_defined c hc
  have hw : (c.omega : ℂ) ≠ 0 := ofReal_ne_zero.2 hc.omega_pos.ne'
  have hm0 : (c.mu0 : ℂ) ≠ 0 := ofReal_ne_zero.2 hc.mu0_pos.ne'
  -- the admittance relation at every level
  have key : ∀ k ≤ c.n, -(amp c k).2 = I * c.omega * c.mu k * c.yh k * (amp c k).1 := by
    intro k
    induction k with
    | zero => intro _; simp [amp]
    | succ k ih =>
      intro hk
      have hk' : k < c.n := hk
      have h := ih hk'.le
      have hmk := mu_ne hc hk'.le
      have hY := hd.admittance k hk'.le
      have hden := hd.denominator k hk'
      have hch := hd.cosh k hk'
      have hcs := Complex.cosh_sq_sub_sinh_sq (c.u k * c.h k)
      have ht : c.t k = Complex.sinh (c.u k * c.h k) / Complex.cosh (c.u k * c.h k) := by
        rw [Col.t, tanhOf, Complex.tanh_eq_sinh_div_cosh]
      have hd2 : (amp c k).2 = -(I * c.omega * c.mu k * c.yh k * (amp c k).1) := by linear_combination -h
      simp only [amp]
      rw [hd2, Col.yh_succ c hk', stepOf]
      rw [ht] at hden ⊢
      generalize Complex.cosh (c.u k * c.h k) = C at *
      generalize Complex.sinh (c.u k * c.h k) = S at *
      rw [u_eq hc hk'.le]
      have hq : I * c.omega * c.mu k ≠ 0 := mul_ne_zero (mul_ne_zero I_ne_zero hw) hmk
      have hden' : c.Y k * C + c.yh (k + 1) * S ≠ 0 := by
        intro e; apply hden; field_simp; linear_combination e
      have e1 : c.Y k + c.yh (k + 1) * (S / C) = (c.Y k * C + c.yh (k + 1) * S) / C := by field_simp
      rw [e1]
      have e2 : c.yh (k + 1) + c.Y k * (S / C) = (c.yh (k + 1) * C + c.Y k * S) / C := by field_simp
      rw [e2]
      have e3 : I * c.omega * c.mu (k + 1) = I * c.omega * c.mu k * (c.mu (k + 1) / c.mu k) := by field_simp
      rw [e3]
      generalize I * c.omega * c.mu k = q at *
      generalize hB : c.Y k * C + c.yh (k + 1) * S = B at *
      generalize c.yh (k + 1) = y at *
      field_simp
      rw [← hB]
      ring
  have hu2 : ∀ k, c.u k ^ 2 = (c.lamb : ℂ) ^ 2 + I * c.omega * c.mu k * c.sigma k := u_sq' c
  have hcosh : ∀ (u : ℂ) (a z : ℝ), HasDerivAt (fun z : ℝ => Complex.cosh (u * (z - a : ℝ)))
      (u * Complex.sinh (u * (z - a : ℝ))) z := by
    intro u a z
    have : HasDerivAt (fun w : ℂ => Complex.cosh (u * (w - a))) (Complex.sinh (u * (z - a)) * (u * 1)) (z : ℂ) :=
      (((hasDerivAt_id' (z : ℂ)).sub_const (a : ℂ)).const_mul u).ccosh
    have h := this.comp_ofReal
    push_cast
    exact h.congr_deriv (by ring)
  have hsinh : ∀ (u : ℂ) (a z : ℝ), HasDerivAt (fun z : ℝ => Complex.sinh (u * (z - a : ℝ)))
      (u * Complex.cosh (u * (z - a : ℝ))) z := by
    intro u a z
    have : HasDerivAt (fun w : ℂ => Complex.sinh (u * (w - a))) (Complex.cosh (u * (z - a)) * (u * 1)) (z : ℂ) :=
      (((hasDerivAt_id' (z : ℂ)).sub_const (a : ℂ)).const_mul u).csinh
    have h := this.comp_ofReal
    push_cast
    exact h.congr_deriv (by ring)
  refine ⟨fun k z => (amp c k).1 * Complex.cosh (c.u k * (z - c.earth.top k : ℝ)) +
      (amp c k).2 / c.u k * Complex.sinh (c.u k * (z - c.earth.top k : ℝ)),
    fun k z => (amp c k).2 * Complex.cosh (c.u k * (z - c.earth.top k : ℝ)) +
      c.u k * (amp c k).1 * Complex.sinh (c.u k * (z - c.earth.top k : ℝ)), ?_, ?_, ?_, ?_, ?_, ?_, ?_⟩
  · intro k hk z
    have := u_ne hc hk
    refine (((hcosh _ _ z).const_mul _).fun_add ((hsinh _ _ z).const_mul _)).congr_deriv ?_
    field_simp
    ring
  · intro k hk z
    have := u_ne hc hk
    refine (((hcosh _ _ z).const_mul _).fun_add ((hsinh _ _ z).const_mul _)).congr_deriv ?_
    change _ = ((c.lamb : ℂ) ^ 2 + I * c.omega * c.mu k * c.sigma k) * _
    rw [← hu2]
    field_simp
    ring
  · intro k hk
    have e : c.earth.top (k + 1) - c.earth.top k = c.h k := by
      change c.earth.top k + c.h k - c.earth.top k = _; ring
    simp only [e, sub_self, ofReal_zero, mul_zero, Complex.cosh_zero, Complex.sinh_zero, mul_one, add_zero]
    simp only [amp]
  · intro k hk
    have e : c.earth.top (k + 1) - c.earth.top k = c.h k := by
      change c.earth.top k + c.h k - c.earth.top k = _; ring
    have h1 := mu_ne hc (show k ≤ c.n from le_of_lt hk)
    have h2 := mu_ne hc (show k + 1 ≤ c.n from hk)
    simp only [e, sub_self, ofReal_zero, mul_zero, Complex.cosh_zero, Complex.sinh_zero, mul_one, add_zero]
    simp only [amp]
    change _ / c.mu k = _ / c.mu (k + 1)
    field_simp
  · have hn := key c.n le_rfl
    have hu := u_ne hc (le_refl c.n)
    rw [Col.yh_n, ← u_eq hc le_rfl] at hn
    have hn' : (amp c c.n).2 / c.u c.n = -(amp c c.n).1 := by
      field_simp; linear_combination -hn
    have : (fun z : ℝ => (amp c c.n).1 * Complex.cosh (c.u c.n * (z - c.earth.top c.n : ℝ)) +
        (amp c c.n).2 / c.u c.n * Complex.sinh (c.u c.n * (z - c.earth.top c.n : ℝ))) =
        fun z : ℝ => (amp c c.n).1 * Complex.exp (-c.u c.n * (z - c.earth.top c.n : ℝ)) := by
      funext z
      rw [hn', neg_mul (c.u c.n), ← Complex.cosh_sub_sinh]; ring
    change Tendsto (fun z : ℝ => (amp c c.n).1 * Complex.cosh (c.u c.n * (z - c.earth.top c.n : ℝ)) +
        (amp c c.n).2 / c.u c.n * Complex.sinh (c.u c.n * (z - c.earth.top c.n : ℝ))) atTop (𝓝 0)
    rw [this]
    simpa using (exp_decay (u_re_pos hc le_rfl) (c.earth.top c.n)).const_mul (amp c c.n).1
  · simp [Earth.top, amp]
  · have hlast := hd.last
    have hm := mu_ne hc (Nat.zero_le c.n)
    change (_ : ℂ) / c.mu 0 = (-c.lamb + c.lamb * forward c) / c.mu0
    simp only [Earth.top, sub_self, ofReal_zero, mul_zero, Complex.cosh_zero, Complex.sinh_zero, mul_one, add_zero]
    simp only [amp]
    have hY0 : (c.lamb : ℂ) = c.Y0 * (I * c.omega * c.mu0) := by
      rw [Col.Y0]; field_simp
    rw [forward_eq, hY0]
    field_simp
    ring

/-- **C70.** Both directions. -/
theorem reflection_iff (c : Col) (hc : Physical c) (r : ℂ) : IsReflection c.earth r ↔ r = forward c :=
  ⟨reflection_unique c hc r, fun h => h ▸ reflection_exists c hc⟩

end Verif.RTE
