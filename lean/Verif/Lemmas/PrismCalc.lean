import Verif.Model.PrismKernels
import Verif.Lemmas.Grad
import Mathlib.Analysis.SpecialFunctions.Log.Deriv
import Mathlib.Analysis.SpecialFunctions.Trigonometric.ArctanDeriv

/-! # Derivatives of the prism kernels (helper lemmas) -/

namespace Verif.Prism

open Real

/-- All directional derivatives of a function of three node coordinates. -/
def KGrad (f : ℝ → ℝ → ℝ → ℝ) (gx gy gz x y z : ℝ) : Prop :=
  ∀ a b c : ℝ, HasDerivAt (fun t : ℝ => f (x + t * a) (y + t * b) (z + t * c))
    (a * gx + b * gy + c * gz) 0

theorem KGrad.congr_deriv {f : ℝ → ℝ → ℝ → ℝ} {gx gy gz gx' gy' gz' x y z : ℝ}
    (h : KGrad f gx gy gz x y z) (hx : gx = gx') (hy : gy = gy') (hz : gz = gz') :
    KGrad f gx' gy' gz' x y z := by subst hx hy hz; exact h

theorem KGrad.add {f g : ℝ → ℝ → ℝ → ℝ} {a b c a' b' c' x y z : ℝ} (hf : KGrad f a b c x y z)
    (hg : KGrad g a' b' c' x y z) :
    KGrad (fun x y z => f x y z + g x y z) (a + a') (b + b') (c + c') x y z := fun u v w =>
  ((hf u v w).add (hg u v w)).congr_deriv (by ring)

theorem KGrad.sub {f g : ℝ → ℝ → ℝ → ℝ} {a b c a' b' c' x y z : ℝ} (hf : KGrad f a b c x y z)
    (hg : KGrad g a' b' c' x y z) :
    KGrad (fun x y z => f x y z - g x y z) (a - a') (b - b') (c - c') x y z := fun u v w =>
  ((hf u v w).sub (hg u v w)).congr_deriv (by ring)

theorem KGrad.neg {f : ℝ → ℝ → ℝ → ℝ} {a b c x y z : ℝ} (hf : KGrad f a b c x y z) :
    KGrad (fun x y z => - f x y z) (-a) (-b) (-c) x y z := fun u v w =>
  ((hf u v w).neg).congr_deriv (by ring)

theorem KGrad.mul {f g : ℝ → ℝ → ℝ → ℝ} {a b c a' b' c' x y z : ℝ} (hf : KGrad f a b c x y z)
    (hg : KGrad g a' b' c' x y z) :
    KGrad (fun x y z => f x y z * g x y z) (a * g x y z + f x y z * a')
      (b * g x y z + f x y z * b') (c * g x y z + f x y z * c') x y z := fun u v w =>
  ((hf u v w).mul (hg u v w)).congr_deriv (by simp; ring)

theorem kgrad_x (x y z : ℝ) : KGrad (fun x _ _ => x) 1 0 0 x y z := fun a b c => by
  simpa using ((hasDerivAt_id (0 : ℝ)).mul_const a).const_add x

theorem kgrad_y (x y z : ℝ) : KGrad (fun _ y _ => y) 0 1 0 x y z := fun a b c => by
  simpa using ((hasDerivAt_id (0 : ℝ)).mul_const b).const_add y

theorem kgrad_z (x y z : ℝ) : KGrad (fun _ _ z => z) 0 0 1 x y z := fun a b c => by
  simpa using ((hasDerivAt_id (0 : ℝ)).mul_const c).const_add z

theorem kgrad_const (k x y z : ℝ) : KGrad (fun _ _ _ => k) 0 0 0 x y z := fun a b c => by
  simpa using hasDerivAt_const (0 : ℝ) k

theorem KGrad.div {f g : ℝ → ℝ → ℝ → ℝ} {a b c a' b' c' x y z : ℝ} (hf : KGrad f a b c x y z)
    (hg : KGrad g a' b' c' x y z) (h : g x y z ≠ 0) :
    KGrad (fun x y z => f x y z / g x y z) ((a * g x y z - f x y z * a') / g x y z ^ 2)
      ((b * g x y z - f x y z * b') / g x y z ^ 2)
      ((c * g x y z - f x y z * c') / g x y z ^ 2) x y z := fun u v w =>
  ((hf u v w).div (hg u v w) (by simpa using h)).congr_deriv (by simp; ring)

theorem KGrad.comp {f : ℝ → ℝ → ℝ → ℝ} {a b c x y z : ℝ} {g : ℝ → ℝ} {g' : ℝ}
    (hg : HasDerivAt g g' (f x y z)) (hf : KGrad f a b c x y z) :
    KGrad (fun x y z => g (f x y z)) (g' * a) (g' * b) (g' * c) x y z := fun u v w =>
  (HasDerivAt.comp_of_eq (h := fun t : ℝ => f (x + t * u) (y + t * v) (z + t * w)) (0 : ℝ) hg
    (hf u v w) (by simp)).congr_deriv (by ring)

/-- Cyclic relabelling of the arguments. -/
theorem KGrad.cyc {f : ℝ → ℝ → ℝ → ℝ} {gx gy gz x y z : ℝ} (h : KGrad f gx gy gz y z x) :
    KGrad (fun x y z => f y z x) gz gx gy x y z := fun a b c =>
  (h b c a).congr_deriv (by ring)

/-- Exchange of the first two arguments. -/
theorem KGrad.swap {f : ℝ → ℝ → ℝ → ℝ} {gx gy gz x y z : ℝ} (h : KGrad f gx gy gz y x z) :
    KGrad (fun x y z => f y x z) gy gx gz x y z := fun a b c =>
  (h b a c).congr_deriv (by ring)

theorem KGrad.congr_fun {f g : ℝ → ℝ → ℝ → ℝ} {gx gy gz x y z : ℝ} (h : KGrad f gx gy gz x y z)
    (hfg : ∀ x y z, x ≠ 0 → y ≠ 0 → z ≠ 0 → g x y z = f x y z) (hx : x ≠ 0) (hy : y ≠ 0) (hz : z ≠ 0) :
    KGrad g gx gy gz x y z := fun a b c => by
  refine (h a b c).congr_of_eventuallyEq ?_
  have ev : ∀ u a : ℝ, u ≠ 0 → ∀ᶠ t : ℝ in nhds 0, u + t * a ≠ 0 := by
    intro u a hu
    have hc : ContinuousAt (fun t : ℝ => u + t * a) 0 := by fun_prop
    exact hc.eventually_ne (by simpa using hu)
  filter_upwards [ev x a hx, ev y b hy, ev z c hz] with t h1 h2 h3
  exact hfg _ _ _ h1 h2 h3

/-- The distance. -/
noncomputable def rr (x y z : ℝ) : ℝ := √(x * x + y * y + z * z)

theorem rr_sq (x y z : ℝ) : rr x y z ^ 2 = x ^ 2 + y ^ 2 + z ^ 2 := by
  have h1 := mul_self_nonneg x
  have h2 := mul_self_nonneg y
  have h3 := mul_self_nonneg z
  unfold rr; rw [sq_sqrt (by linarith)]; ring

theorem rr_cyc (x y z : ℝ) : rr y z x = rr x y z := by unfold rr; congr 1; ring

theorem rr_swap (x y z : ℝ) : rr y x z = rr x y z := by unfold rr; congr 1; ring

theorem rr_pos {x y z : ℝ} (h : x ≠ 0) : 0 < rr x y z := by
  have h1 := mul_self_pos.2 h
  have h2 := mul_self_nonneg y
  have h3 := mul_self_nonneg z
  exact sqrt_pos.2 (by linarith)

theorem rr_nonneg (x y z : ℝ) : 0 ≤ rr x y z := sqrt_nonneg _

/-- `x + r > 0` unless the node is on the negative `x` axis. -/
theorem add_rr_pos {x y z : ℝ} (h : y ≠ 0) : 0 < x + rr x y z := by
  have h1 : |x| < rr x y z := by
    apply abs_lt_of_sq_lt_sq _ (rr_nonneg _ _ _)
    rw [rr_sq]
    have := sq_nonneg z
    have : 0 < y ^ 2 := by positivity
    linarith
  linarith [neg_abs_le x]

theorem kgrad_rr {x y z : ℝ} (h : rr x y z ≠ 0) :
    KGrad rr (x / rr x y z) (y / rr x y z) (z / rr x y z) x y z := by
  have h0 : x * x + y * y + z * z ≠ 0 := by
    intro e; apply h; unfold rr; rw [e, sqrt_zero]
  have hs := (hasDerivAt_id (x * x + y * y + z * z)).sqrt h0
  have hp := (((kgrad_x x y z).mul (kgrad_x x y z)).add ((kgrad_y x y z).mul (kgrad_y x y z))).add
    ((kgrad_z x y z).mul (kgrad_z x y z))
  have := KGrad.comp (f := fun x y z => x * x + y * y + z * z) hs hp
  refine KGrad.congr_deriv this ?_ ?_ ?_ <;>
  · simp only [id]; change _ = _ / √_
    have h' : √(x * x + y * y + z * z) ≠ 0 := h
    field_simp; ring

/-- Gradient of `log (x + r)`. -/
theorem kgrad_log_x {x y z : ℝ} (hy : y ≠ 0) (h : 0 < x + rr x y z) (hr : rr x y z ≠ 0) :
    KGrad (fun x y z => log (x + rr x y z)) (1 / rr x y z)
      (y * (rr x y z - x) / (rr x y z * (y * y + z * z)))
      (z * (rr x y z - x) / (rr x y z * (y * y + z * z))) x y z := by
  have h1 := (kgrad_x x y z).add (kgrad_rr hr)
  have h2 := KGrad.comp (f := fun x y z => x + rr x y z) (hasDerivAt_log h.ne') h1
  have hsq := rr_sq x y z
  have hy2 := mul_self_pos.2 hy
  have hz2 := mul_self_nonneg z
  have hyz : y * y + z * z ≠ 0 := by linarith
  refine KGrad.congr_deriv h2 ?_ ?_ ?_
  · field_simp; ring
  · field_simp; linear_combination (-y) * hsq
  · field_simp; linear_combination (-z) * hsq

/-- Gradient of `arctan (x y / (z r))`. -/
theorem kgrad_atan {x y z : ℝ} (hz : z ≠ 0) :
    KGrad (fun x y z => arctan (x * y / (z * rr x y z)))
      (y * z / (rr x y z * (x * x + z * z))) (x * z / (rr x y z * (y * y + z * z)))
      (-(x * y) / rr x y z * (1 / (x * x + z * z) + 1 / (y * y + z * z))) x y z := by
  have hr : rr x y z ≠ 0 := by rw [← rr_cyc, ← rr_cyc]; exact (rr_pos hz).ne'
  have h1 := (((kgrad_x x y z).mul (kgrad_y x y z)).div ((kgrad_z x y z).mul (kgrad_rr hr))
    (mul_ne_zero hz hr))
  have h2 := KGrad.comp (f := fun x y z => x * y / (z * rr x y z)) (hasDerivAt_arctan _) h1
  have hz2 := mul_self_pos.2 hz
  have hx2 := mul_self_nonneg x
  have hy2 := mul_self_nonneg y
  have hxz : x * x + z * z ≠ 0 := by linarith
  have hyz : y * y + z * z ≠ 0 := by linarith
  have hsq := rr_sq x y z
  have e : 1 + (x * y / (z * rr x y z)) ^ 2 =
      (x * x + z * z) * (y * y + z * z) / (z * rr x y z) ^ 2 := by
    field_simp
    rw [hsq]; ring
  refine KGrad.congr_deriv h2 ?_ ?_ ?_
  · rw [e]; field_simp; rw [hsq]; ring
  · rw [e]; field_simp; rw [hsq]; ring
  · rw [e]; field_simp; rw [hsq]; ring

end Verif.Prism
