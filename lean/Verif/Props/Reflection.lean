import Verif.Lemmas.Reflection

/-! # C48, C49, C69: layered-earth reflection coefficients -/

namespace Verif.RTE

open Complex

/-! ## Where the recursion is defined -/

/-- No division by zero anywhere in the recursion, and no infinite hyperbolic tangent. -/
structure Defined (c : Col) : Prop where
  admittance : ∀ k ≤ c.n, c.Y k ≠ 0
  cosh : ∀ k < c.n, Complex.cosh (c.u k * c.h k) ≠ 0
  denominator : ∀ k < c.n, c.Y k + c.yh (k + 1) * c.t k ≠ 0
  last : c.Y0 + c.yh 0 ≠ 0

/-- Ordinary earth models: positive frequency, real positive permeabilities, non-negative thicknesses, and either a
conducting earth (possibly with a complex conductivity), or non-negative conductivities without dielectric part and a
positive wavenumber. -/
structure Physical (c : Col) : Prop where
  omega_pos : 0 < c.omega
  mu0_pos : 0 < c.mu0
  mu_pos : ∀ k ≤ c.n, (c.mu k).im = 0 ∧ 0 < (c.mu k).re
  h_nonneg : ∀ k < c.n, 0 ≤ c.h k
  sigma : (∀ k ≤ c.n, 0 < (c.sigma k).re) ∨
    (0 < c.lamb ∧ ∀ k ≤ c.n, 0 ≤ (c.sigma k).re ∧ (c.sigma k).im ≤ 0)

theorem u_sq (omega lamb : ℝ) (mu sigma : ℂ) :
    uOf omega lamb mu sigma ^ 2 = (lamb ^ 2 : ℝ) + I * omega * mu * sigma := by
  rw [uOf, csqrt_sq, k2]; ring

/-- The radicand is off the branch cut. -/
theorem radicand_mem {c : Col} (hc : Physical c) {k : ℕ} (hk : k ≤ c.n) :
    (((c.lamb ^ 2 : ℝ) : ℂ) - k2 c.omega (c.mu k) (c.sigma k)) ∈ slitPlane := by
  obtain ⟨m0, mp⟩ := hc.mu_pos k hk
  have hmu : c.mu k = ((c.mu k).re : ℂ) := by apply Complex.ext <;> simp [m0]
  have e : (((c.lamb ^ 2 : ℝ) : ℂ) - k2 c.omega (c.mu k) (c.sigma k)) =
      ((c.lamb ^ 2 : ℝ) : ℂ) + ((c.omega * (c.mu k).re : ℝ) : ℂ) * (I * c.sigma k) := by
    rw [k2, hmu]; push_cast; simp only [ofReal_re]; ring
  rw [e, mem_slitPlane_iff]
  have hp : 0 < c.omega * (c.mu k).re := mul_pos hc.omega_pos mp
  have h1 : (((c.lamb ^ 2 : ℝ) : ℂ) + ((c.omega * (c.mu k).re : ℝ) : ℂ) * (I * c.sigma k)).re =
      c.lamb ^ 2 - c.omega * (c.mu k).re * (c.sigma k).im := by
    rw [add_re, re_ofReal_mul, ofReal_re]; simp; ring
  have h2 : (((c.lamb ^ 2 : ℝ) : ℂ) + ((c.omega * (c.mu k).re : ℝ) : ℂ) * (I * c.sigma k)).im =
      c.omega * (c.mu k).re * (c.sigma k).re := by
    rw [add_im, im_ofReal_mul, ofReal_im]; simp
  rw [h1, h2]
  rcases hc.sigma with hs | ⟨hl, hs⟩
  · exact Or.inr (mul_pos hp (hs k hk)).ne'
  · left
    have := mul_nonneg hp.le (neg_nonneg.2 (hs k hk).2)
    nlinarith [pow_pos hl 2]

theorem csqrt_re_pos_of_slit {z : ℂ} (h : z ∈ slitPlane) : 0 < (Complex.sqrt z).re := by
  by_cases hi : z.im = 0
  · rw [csqrt_re]
    apply Real.sqrt_pos.2
    rcases mem_slitPlane_iff.1 h with h | h
    · have := norm_nonneg z; linarith
    · exact absurd hi h
  · exact csqrt_re_pos hi

theorem u_re_pos {c : Col} (hc : Physical c) {k : ℕ} (hk : k ≤ c.n) : 0 < (c.u k).re :=
  csqrt_re_pos_of_slit (radicand_mem hc hk)

theorem layer {c : Col} (hc : Physical c) {k : ℕ} (hk : k < c.n) (y : ℂ) :
    ∃ P E : ℂ, y.re ≤ P.re ∧ ((c.sigma k).im ≤ 0 → P.im ≤ y.im) ∧ (E = 0 → P = 0) ∧
      (c.Y k + y * c.t k = c.Y k * E / Complex.cosh (c.u k * c.h k)) ∧ Complex.cosh (c.u k * c.h k) ≠ 0 ∧
      c.Y k ≠ 0 ∧ (E ≠ 0 → stepOf (c.Y k) (c.t k) y = P / (normSq E : ℝ)) := by
  obtain ⟨m0, mp⟩ := hc.mu_pos k hk.le
  have hmu : c.mu k = ((c.mu k).re : ℂ) := by apply Complex.ext <;> simp [m0]
  have hs : 0 ≤ (c.sigma k).re := by
    rcases hc.sigma with hs | ⟨-, hs⟩
    · exact (hs k hk.le).le
    · exact (hs k hk.le).1
  have h2 : c.u k ^ 2 = (c.lamb ^ 2 : ℝ) + I * c.omega * ((c.mu k).re : ℝ) * c.sigma k := by
    rw [← hmu]; exact u_sq _ _ _ _
  have := power_bounds (lamb := c.lamb) hc.omega_pos mp (hc.h_nonneg k hk) h2 (u_re_pos hc hk.le) hs y
  rw [← hmu] at this
  exact this

/-- What the admittance of an ordinary earth looks like at every level. -/
theorem yh_sector {c : Col} (hc : Physical c) {k : ℕ} (hk : k ≤ c.n) :
    ((∀ j ≤ c.n, 0 < (c.sigma j).re) → 0 < (c.yh k).re) ∧
    ((∀ j ≤ c.n, (c.sigma j).im ≤ 0) → 0 ≤ (c.yh k).re ∧ (c.yh k).im < 0) := by
  induction hj : c.n - k generalizing k with
  | zero =>
    have : k = c.n := by omega
    subst this
    rw [Col.yh_n]
    obtain ⟨m0, mp⟩ := hc.mu_pos c.n hk
    have hmu : c.mu c.n = ((c.mu c.n).re : ℂ) := by apply Complex.ext <;> simp [m0]
    have hp : 0 < c.omega * (c.mu c.n).re := mul_pos hc.omega_pos mp
    have hu := u_re_pos hc hk
    have e : c.Y c.n = c.u c.n * (-I) / ((c.omega * (c.mu c.n).re : ℝ) : ℂ) := by
      have hw' : (c.omega : ℂ) ≠ 0 := ofReal_ne_zero.2 hc.omega_pos.ne'
      have hm' : ((c.mu c.n).re : ℂ) ≠ 0 := ofReal_ne_zero.2 mp.ne'
      rw [Col.Y, yOf, hmu]
      simp only [ofReal_re]
      rw [show uOf c.omega c.lamb ((c.mu c.n).re : ℂ) (c.sigma c.n) = c.u c.n by rw [Col.u, ← hmu]]
      push_cast
      field_simp
      linear_combination (c.u c.n) * I_sq
    have er : (c.Y c.n).re = (c.u c.n).im / (c.omega * (c.mu c.n).re) := by
      rw [e, div_ofReal_re]; simp
    have ei : (c.Y c.n).im = -(c.u c.n).re / (c.omega * (c.mu c.n).re) := by
      rw [e, div_ofReal_im]; simp
    have h2 : c.u c.n ^ 2 = (c.lamb ^ 2 : ℝ) + I * c.omega * ((c.mu c.n).re : ℝ) * c.sigma c.n := by
      rw [← hmu]; exact u_sq _ _ _ _
    have him : 2 * (c.u c.n).re * (c.u c.n).im = c.omega * (c.mu c.n).re * (c.sigma c.n).re := by
      have := congrArg Complex.im h2
      rw [show ((c.lamb ^ 2 : ℝ) : ℂ) + I * c.omega * ((c.mu c.n).re : ℝ) * c.sigma c.n =
        ((c.lamb ^ 2 : ℝ) : ℂ) + ((c.omega * (c.mu c.n).re : ℝ) : ℂ) * (I * c.sigma c.n) by push_cast; ring,
        add_im, im_ofReal_mul, ofReal_im] at this
      simp [pow_two, mul_im] at this
      linarith
    refine ⟨fun h => ?_, fun h => ⟨?_, ?_⟩⟩
    · rw [er]
      apply div_pos _ hp
      have := mul_pos hp (h c.n hk)
      rw [← him] at this
      by_contra hn
      have := mul_nonneg (mul_pos two_pos hu).le (neg_nonneg.2 (not_lt.1 hn))
      linarith
    · rw [er]
      apply div_nonneg _ hp.le
      have hs : 0 ≤ (c.sigma c.n).re := by
        rcases hc.sigma with hs | ⟨-, hs⟩
        · exact (hs _ hk).le
        · exact (hs _ hk).1
      have := mul_nonneg hp.le hs
      rw [← him] at this
      by_contra hn
      have := mul_pos (mul_pos two_pos hu) (neg_pos.2 (not_le.1 hn))
      linarith
    · rw [ei, neg_div]
      exact neg_neg_of_pos (div_pos hu hp)
  | succ m ih =>
    have hk' : k < c.n := by omega
    obtain ⟨ih1, ih2⟩ := ih (k := k + 1) hk' (by omega)
    obtain ⟨P, E, hre, him, hE, -, -, -, hst⟩ := layer hc hk' (c.yh (k + 1))
    rw [Col.yh_succ c hk']
    refine ⟨fun h => ?_, fun h => ?_⟩
    · have hP : 0 < P.re := lt_of_lt_of_le (ih1 h) hre
      have hE0 : E ≠ 0 := fun e => by rw [hE e] at hP; simp at hP
      rw [hst hE0, div_ofReal_re]
      exact div_pos hP (normSq_pos.2 hE0)
    · obtain ⟨h1, h2⟩ := ih2 h
      have hP : P.im < 0 := lt_of_le_of_lt (him (h k hk)) h2
      have hE0 : E ≠ 0 := fun e => by rw [hE e] at hP; simp at hP
      rw [hst hE0, div_ofReal_re, div_ofReal_im]
      exact ⟨div_nonneg (h1.trans hre) (normSq_nonneg _), div_neg_of_neg_of_pos hP (normSq_pos.2 hE0)⟩

theorem Y0_eq (c : Col) : c.Y0 = -I * ((c.lamb / (c.omega * c.mu0) : ℝ) : ℂ) := by
  rw [Col.Y0]
  rw [show (I * c.omega * c.mu0 : ℂ) = I * (c.omega * c.mu0) by ring, div_mul_eq_div_div_swap, div_I]
  push_cast; ring

/-- **C69.** On every ordinary earth model, of any number of layers, the recursion never divides by zero. -/
theorem physical_defined (c : Col) (hc : Physical c) : Defined c := by
  have hy : ∀ k ≤ c.n, c.yh k ≠ 0 := by
    intro k hk e
    obtain ⟨h1, h2⟩ := yh_sector hc hk
    rcases hc.sigma with hs | ⟨-, hs⟩
    · have := h1 hs; rw [e] at this; simp at this
    · have := (h2 fun j hj => (hs j hj).2).2; rw [e] at this; simp at this
  refine ⟨fun k hk => ?_, fun k hk => ?_, fun k hk => ?_, ?_⟩
  · rcases hk.eq_or_lt with rfl | hk
    · rw [← Col.yh_n]; exact hy _ le_rfl
    · exact (layer hc hk 0).choose_spec.choose_spec.2.2.2.2.2.1
  · exact (layer hc hk 0).choose_spec.choose_spec.2.2.2.2.1
  · obtain ⟨P, E, hre, him, hE, hd, hch, hY, hst⟩ := layer hc hk (c.yh (k + 1))
    rw [hd]
    have hE0 : E ≠ 0 := by
      intro e
      obtain ⟨h1, h2⟩ := yh_sector hc (k := k + 1) hk
      rw [hE e] at hre him
      rcases hc.sigma with hs | ⟨-, hs⟩
      · have := h1 hs; simp at hre; linarith
      · have := (h2 fun j hj => (hs j hj).2).2
        have := him (hs k hk.le).2
        simp at this; linarith
    exact div_ne_zero (mul_ne_zero hY hE0) hch
  · intro e
    obtain ⟨h1, h2⟩ := yh_sector hc (k := 0) (Nat.zero_le _)
    rw [Y0_eq] at e
    have er := congrArg Complex.re e
    have ei := congrArg Complex.im e
    simp [-ofReal_div, -ofReal_mul] at er ei
    rcases hc.sigma with hs | ⟨hl, hs⟩
    · have := h1 hs; linarith
    · have := (h2 fun j hj => (hs j hj).2).2
      have h3 : 0 < c.lamb / (c.omega * c.mu0) := div_pos hl (mul_pos hc.omega_pos hc.mu0_pos)
      linarith

/-- **C69.** Passivity: without a dielectric part, no wave is amplified: `|rTE| ≤ 1`. -/
theorem forward_passive (c : Col) (hc : Physical c) (hl : 0 ≤ c.lamb) (hs : ∀ k ≤ c.n, (c.sigma k).im ≤ 0) :
    ‖forward c‖ ≤ 1 := by
  have hd := (physical_defined c hc).last
  obtain ⟨-, h2⟩ := yh_sector hc (k := 0) (Nat.zero_le _)
  obtain ⟨-, hi⟩ := h2 hs
  rw [forward_eq, norm_div, div_le_one (norm_pos_iff.2 hd)]
  have h3 : 0 ≤ c.lamb / (c.omega * c.mu0) := div_nonneg hl (mul_pos hc.omega_pos hc.mu0_pos).le
  have key : normSq (c.Y0 - c.yh 0) ≤ normSq (c.Y0 + c.yh 0) := by
    rw [Y0_eq, normSq_apply, normSq_apply]
    simp [-ofReal_div, -ofReal_mul]
    nlinarith [mul_nonneg h3 (neg_pos.2 hi).le]
  rw [← Complex.sq_norm, ← Complex.sq_norm] at key
  exact le_of_sq_le_sq key (norm_nonneg _)

/-! ## C48: splitting layers -/

/-- The array with `x` inserted before position `j`. -/
def insertAt {α : Type*} (j : ℕ) (x : α) (f : ℕ → α) (k : ℕ) : α :=
  if k < j then f k else if k = j then x else f (k - 1)

/-- The column with one more layer. -/
def Col.insert (c : Col) (j : ℕ) (s m : ℂ) (d : ℝ) : Col :=
  { c with
    n := c.n + 1
    sigma := insertAt j s c.sigma
    mu := insertAt j m c.mu
    h := insertAt j d c.h }

section
variable (c : Col) (j : ℕ) (s m : ℂ) (d : ℝ)

theorem insert_Y : (c.insert j s m d).Y = insertAt j (yOf c.omega c.lamb m s) c.Y := by
  funext k; simp only [Col.insert, Col.Y, insertAt]; split_ifs <;> rfl

theorem insert_t : (c.insert j s m d).t = insertAt j (tanhOf (uOf c.omega c.lamb m s) d) c.t := by
  funext k; simp only [Col.insert, Col.t, Col.u, insertAt]; split_ifs <;> rfl

/-- The loop over the longer stack: layers below, the new layer, layers above. -/
theorem insert_yh_zero (hj : j ≤ c.n) :
    (c.insert j s m d).yh 0 = downLoop j (fun k => stepOf (c.Y k) (c.t k))
      (stepOf (yOf c.omega c.lamb m s) (tanhOf (uOf c.omega c.lamb m s) d) (c.yh j)) := by
  rw [Col.yh_zero]
  obtain ⟨r, hr⟩ : ∃ r, c.n = j + r := ⟨c.n - j, by omega⟩
  have hn : (c.insert j s m d).n = j + (r + 1) := by show c.n + 1 = _; omega
  rw [hn, downLoop_add, downLoop_succ_low]
  have hlast : (c.insert j s m d).Y (j + (r + 1)) = c.Y c.n := by
    rw [insert_Y, insertAt, if_neg (by omega), if_neg (by omega)]; congr 1; omega
  rw [hlast]
  have h1 : downLoop r (fun i => stepOf ((c.insert j s m d).Y (j + (i + 1))) ((c.insert j s m d).t (j + (i + 1))))
      (c.Y c.n) = c.yh j := by
    rw [Col.yh, show c.n - j = r by omega]
    refine downLoop_congr _ _ _ (fun i _ => ?_) _
    rw [insert_Y, insert_t]
    simp only [insertAt]
    rw [if_neg (by omega), if_neg (by omega), if_neg (by omega), if_neg (by omega)]
    rfl
  rw [h1]
  have h2 : stepOf ((c.insert j s m d).Y (j + 0)) ((c.insert j s m d).t (j + 0)) =
      stepOf (yOf c.omega c.lamb m s) (tanhOf (uOf c.omega c.lamb m s) d) := by
    rw [insert_Y, insert_t]; simp [insertAt]
  rw [h2]
  refine downLoop_congr _ _ _ (fun k hk => ?_) _
  rw [insert_Y, insert_t]; simp [insertAt, hk]

end

theorem yh_zero_split (c : Col) {j : ℕ} (hj : j ≤ c.n) :
    c.yh 0 = downLoop j (fun k => stepOf (c.Y k) (c.t k)) (c.yh j) := by
  obtain ⟨r, hr⟩ : ∃ r, c.n = j + r := ⟨c.n - j, by omega⟩
  rw [Col.yh_zero, hr, downLoop_add, Col.yh, hr]
  simp

private theorem forward_of_yh {c c' : Col} (h0 : c'.Y0 = c.Y0) (h : c'.yh 0 = c.yh 0) : forward c' = forward c := by
  rw [forward_eq, forward_eq, h0, h]

/-- **C48.** Inserting a layer of zero thickness anywhere above the basement, whatever its properties, changes
nothing. -/
theorem forward_insert_zero (c : Col) (j : ℕ) (hj : j ≤ c.n) (s m : ℂ)
    (hY : yOf c.omega c.lamb m s ≠ 0) : forward (c.insert j s m 0) = forward c := by
  refine forward_of_yh rfl ?_
  rw [insert_yh_zero c j s m 0 hj, stepOf_zero hY, ← yh_zero_split c hj]

/-- **C48.** Replacing layer `j` of thickness `h1 + h2` by two layers of thicknesses `h1` and `h2` with the same properties
changes nothing. -/
theorem forward_split (c : Col) (j : ℕ) (hj : j < c.n) (h1 h2 : ℝ) (hh : c.h j = h1 + h2)
    (hd : Defined c)
    (hd' : Defined ({ c with h := Function.update c.h j h2 }.insert j (c.sigma j) (c.mu j) h1)) :
    forward ({ c with h := Function.update c.h j h2 }.insert j (c.sigma j) (c.mu j) h1) = forward c := by
  set b : Col := { c with h := Function.update c.h j h2 } with hb
  refine forward_of_yh rfl ?_
  have hbY : b.Y = c.Y := rfl
  have hbyh : ∀ k, j < k → k ≤ c.n → b.yh k = c.yh k := by
    intro k hk hkn
    simp only [Col.yh]
    refine downLoop_congr _ _ _ (fun i _ => ?_) _
    rw [hbY]
    congr 1
    simp only [Col.t, Col.u, hb]
    rw [Function.update_of_ne (by omega)]
  have hbt : ∀ k, k ≠ j → b.t k = c.t k := by
    intro k hk
    simp only [Col.t, Col.u, hb]
    rw [Function.update_of_ne hk]
  have hbtj : b.t j = tanhOf (c.u j) h2 := by
    simp only [Col.t, hb, Function.update_self]; rfl
  have hbj : b.yh j = stepOf (c.Y j) (tanhOf (c.u j) h2) (c.yh (j + 1)) := by
    rw [Col.yh_succ b (show j < b.n from hj), hbtj, hbyh (j + 1) (by omega) hj, hbY]
  have hYins : (b.insert j (c.sigma j) (c.mu j) h1).Y = insertAt j (c.Y j) c.Y := insert_Y b j _ _ _
  have htins : (b.insert j (c.sigma j) (c.mu j) h1).t = insertAt j (tanhOf (c.u j) h1) b.t := insert_t b j _ _ _
  have hnins : (b.insert j (c.sigma j) (c.mu j) h1).n = c.n + 1 := rfl
  -- levels of the split stack
  have hyins : ∀ k, j ≤ k → k ≤ c.n → (b.insert j (c.sigma j) (c.mu j) h1).yh (k + 1) = b.yh k := by
    intro k hk hkn
    simp only [Col.yh, hnins, show b.n = c.n from rfl]
    rw [show c.n + 1 - (k + 1) = c.n - k by omega]
    have : (b.insert j (c.sigma j) (c.mu j) h1).Y (c.n + 1) = b.Y c.n := by
      rw [hYins, insertAt, if_neg (by omega), if_neg (by omega)]; rfl
    rw [this]
    refine downLoop_congr _ _ _ (fun i _ => ?_) _
    rw [hYins, htins]
    simp only [insertAt]
    rw [if_neg (by omega), if_neg (by omega), if_neg (by omega), if_neg (by omega),
      show k + 1 + i - 1 = k + i by omega]
    rfl
  have d1 := hd'.denominator j (by rw [hnins]; omega)
  have d2 := hd'.denominator (j + 1) (by rw [hnins]; omega)
  have c1 := hd'.cosh j (by rw [hnins]; omega)
  have c2 := hd'.cosh (j + 1) (by rw [hnins]; omega)
  have c12 := hd.cosh j hj
  have hY := hd.admittance j hj.le
  have hu1 : (b.insert j (c.sigma j) (c.mu j) h1).u j = c.u j := by
    simp [Col.u, Col.insert, insertAt, hb]
  have hu2 : (b.insert j (c.sigma j) (c.mu j) h1).u (j + 1) = c.u j := by
    simp [Col.u, Col.insert, insertAt, hb]
  have hh1 : (b.insert j (c.sigma j) (c.mu j) h1).h j = h1 := by
    simp [Col.insert, insertAt]
  have hh2 : (b.insert j (c.sigma j) (c.mu j) h1).h (j + 1) = h2 := by
    simp [Col.insert, insertAt, hb]
  rw [hu1, hh1] at c1
  rw [hu2, hh2] at c2
  rw [hh] at c12
  have hYj : (b.insert j (c.sigma j) (c.mu j) h1).Y j = c.Y j := by rw [hYins]; simp [insertAt]
  have hYj1 : (b.insert j (c.sigma j) (c.mu j) h1).Y (j + 1) = c.Y j := by rw [hYins]; simp [insertAt]
  have htj : (b.insert j (c.sigma j) (c.mu j) h1).t j = tanhOf (c.u j) h1 := by rw [htins]; simp [insertAt]
  have htj1 : (b.insert j (c.sigma j) (c.mu j) h1).t (j + 1) = tanhOf (c.u j) h2 := by
    rw [htins]; simp [insertAt, hbtj]
  rw [hYj, htj, hyins j le_rfl hj.le, hbj] at d1
  rw [hYj1, htj1, hyins (j + 1) (by omega) hj, hbyh (j + 1) (by omega) hj] at d2
  have key := stepOf_add hY c1 c2 c12 d2 d1
  rw [insert_yh_zero b j (c.sigma j) (c.mu j) h1 hj.le, hbj]
  · have e1 : stepOf (yOf b.omega b.lamb (c.mu j) (c.sigma j)) (tanhOf (uOf b.omega b.lamb (c.mu j) (c.sigma j)) h1)
        (stepOf (c.Y j) (tanhOf (c.u j) h2) (c.yh (j + 1))) = c.yh j := by
      rw [Col.yh_succ c hj]
      change stepOf (c.Y j) (tanhOf (c.u j) h1) _ = _
      rw [key, ← hh]; rfl
    rw [e1, yh_zero_split c hj.le]
    exact downLoop_congr _ _ _ (fun k hk => by rw [hbY, hbt k (by omega)]) _

/-- **C48.** Splitting the basement by an interface at any depth changes nothing. -/
theorem forward_split_basement (c : Col) (d : ℝ)
    (hd' : Defined (c.insert c.n (c.sigma c.n) (c.mu c.n) d)) :
    forward (c.insert c.n (c.sigma c.n) (c.mu c.n) d) = forward c := by
  refine forward_of_yh rfl ?_
  have hd := hd'.denominator c.n (Nat.lt_succ_self _)
  have h1 : (c.insert c.n (c.sigma c.n) (c.mu c.n) d).yh (c.n + 1) = c.Y c.n := by
    have := Col.yh_n (c.insert c.n (c.sigma c.n) (c.mu c.n) d)
    rw [show (c.insert c.n (c.sigma c.n) (c.mu c.n) d).n = c.n + 1 from rfl] at this
    rw [this, insert_Y]; simp [insertAt]
  have h2 : (c.insert c.n (c.sigma c.n) (c.mu c.n) d).Y c.n = c.Y c.n := by
    rw [insert_Y]; simp [insertAt]; rfl
  have h3 : (c.insert c.n (c.sigma c.n) (c.mu c.n) d).t c.n = tanhOf (c.u c.n) d := by
    rw [insert_t]; simp [insertAt]; rfl
  rw [h1, h2, h3] at hd
  rw [insert_yh_zero c c.n (c.sigma c.n) (c.mu c.n) d le_rfl, Col.yh_n]
  · change downLoop c.n _ (stepOf (c.Y c.n) (tanhOf (c.u c.n) d) (c.Y c.n)) = _
    rw [stepOf_self hd, Col.yh_zero]

/-! ## C49: uniform stacks -/

/-- **C49.** A stack of equal layers reflects like a halfspace, whatever the number and the thicknesses of the layers. -/
theorem forward_uniform (c : Col) (s m : ℂ) (hs : ∀ k ≤ c.n, c.sigma k = s) (hm : ∀ k ≤ c.n, c.mu k = m)
    (hd : Defined c) :
    forward c = forward { c with n := 0, sigma := fun _ => s, mu := fun _ => m } := by
  have hY : ∀ k ≤ c.n, c.Y k = yOf c.omega c.lamb m s := fun k hk => by rw [Col.Y, hs k hk, hm k hk]
  have key : ∀ r, ∀ k, c.n - k = r → k ≤ c.n → c.yh k = yOf c.omega c.lamb m s := by
    intro r
    induction r with
    | zero =>
      intro k h1 h2
      have : k = c.n := by omega
      rw [this, Col.yh_n, hY _ le_rfl]
    | succ r ih =>
      intro k h1 h2
      have hk : k < c.n := by omega
      have hy := ih (k + 1) (by omega) hk
      have hden := hd.denominator k hk
      rw [hy, hY k h2] at hden
      rw [Col.yh_succ c hk, hy, hY k h2, stepOf_self hden]
  refine forward_of_yh rfl ?_
  rw [key _ 0 rfl (Nat.zero_le _)]
  rfl

/-- **C49.** Air reflects nothing: zero conductivity and the free-space permeability, at any positive wavenumber. -/
theorem forward_air (c : Col) (hw : 0 < c.omega) (hl : 0 < c.lamb) (hm0 : 0 < c.mu0)
    (hs : ∀ k ≤ c.n, c.sigma k = 0) (hm : ∀ k ≤ c.n, c.mu k = c.mu0) (hh : ∀ k < c.n, 0 ≤ c.h k) :
    forward c = 0 := by
  have hp : Physical c := ⟨hw, hm0, fun k hk => by rw [hm k hk]; simp [hm0], hh,
    Or.inr ⟨hl, fun k hk => by rw [hs k hk]; simp⟩⟩
  rw [forward_uniform c 0 c.mu0 hs hm (physical_defined c hp), forward]
  have : yOf c.omega c.lamb c.mu0 0 = c.Y0 := by
    rw [yOf, Col.Y0]
    congr 1
    rw [uOf, k2, mul_zero, sub_zero]
    apply sq_root_unique (by rw [csqrt_sq]; push_cast; rfl)
    · apply csqrt_re_pos_of_slit
      rw [mem_slitPlane_iff]; left; rw [ofReal_re]; positivity
    · simpa using hl.le
  simp only [downLoop, Col.Y, Col.Y0]
  rw [this, Col.Y0, sub_self, zero_div]

/-- **C48.** On ordinary earth models, with all hypotheses discharged. -/
theorem forward_split_physical (c : Col) (hc : Physical c) (j : ℕ) (hj : j < c.n) (h1 h2 : ℝ)
    (p1 : 0 ≤ h1) (p2 : 0 ≤ h2) (hh : c.h j = h1 + h2) :
    forward ({ c with h := Function.update c.h j h2 }.insert j (c.sigma j) (c.mu j) h1) = forward c := by
  refine forward_split c j hj h1 h2 hh (physical_defined c hc) (physical_defined _ ?_)
  refine ⟨hc.omega_pos, hc.mu0_pos, fun k hk => ?_, fun k hk => ?_, ?_⟩
  · change k ≤ c.n + 1 at hk
    simp only [Col.insert, insertAt]
    split_ifs with a b
    · exact hc.mu_pos k (by omega)
    · exact hc.mu_pos j (by omega)
    · exact hc.mu_pos (k - 1) (by omega)
  · change k < c.n + 1 at hk
    simp only [Col.insert, insertAt]
    split_ifs with a b
    · rw [Function.update_of_ne (by omega)]; exact hc.h_nonneg k (by omega)
    · exact p1
    · rcases eq_or_ne (k - 1) j with e | e
      · rw [e, Function.update_self]; exact p2
      · rw [Function.update_of_ne e]; exact hc.h_nonneg _ (by omega)
  · rcases hc.sigma with hs | ⟨hl, hs⟩
    · left
      intro k hk
      change k ≤ c.n + 1 at hk
      simp only [Col.insert, insertAt]
      split_ifs with a b
      · exact hs k (by omega)
      · exact hs j (by omega)
      · exact hs (k - 1) (by omega)
    · right
      refine ⟨hl, fun k hk => ?_⟩
      change k ≤ c.n + 1 at hk
      simp only [Col.insert, insertAt]
      split_ifs with a b
      · exact hs k (by omega)
      · exact hs j (by omega)
      · exact hs (k - 1) (by omega)

/-- Non-vacuity: a three-layer earth. -/
example : ∃ c : Col, c.n = 2 ∧ Physical c ∧ Defined c := by
  have h : Physical ⟨1, 1, 1, 2, fun _ => 0.01, fun _ => 1, fun k => k⟩ := by
    refine ⟨by norm_num, by norm_num, fun k _ => by simp, fun k _ => by positivity, Or.inl fun k _ => ?_⟩
    norm_num [Complex.ext_iff]
  exact ⟨_, rfl, h, physical_defined _ h⟩

end Verif.RTE
