import Verif.Props.RoundingPrism
import Verif.Lemmas.RoundedSums
import Mathlib.Analysis.SpecialFunctions.Trigonometric.ArctanDeriv
import Mathlib.Analysis.Calculus.Deriv.MeanValue

/-! # C116: the diagonal of the gradient tensor of a prism is accurate compared with `4 π G rho` -/

namespace Verif

theorem arctan_ge {a : ℝ} (ha : 0 ≤ a) : a / (1 + a ^ 2) ≤ Real.arctan a := by
  have hd : ∀ x : ℝ, HasDerivAt (fun x : ℝ => Real.arctan x - x / (1 + x ^ 2)) (1 / (1 + x ^ 2) - (1 * (1 + x ^ 2) - x * (2 * x)) / (1 + x ^ 2) ^ 2) x := fun x => by
    have h1 : HasDerivAt (fun x : ℝ => 1 + x ^ 2) (2 * x) x := by simpa using (hasDerivAt_pow 2 x).const_add 1
    exact (Real.hasDerivAt_arctan x).sub ((hasDerivAt_id x).div h1 (by positivity))
  have hm : MonotoneOn (fun x : ℝ => Real.arctan x - x / (1 + x ^ 2)) (Set.Ici 0) := by
    refine monotoneOn_of_deriv_nonneg (convex_Ici 0) (fun x _ => (hd x).continuousAt.continuousWithinAt) (fun x _ => (hd x).differentiableAt.differentiableWithinAt)
      fun x _ => ?_
    rw [(hd x).deriv, sub_nonneg, div_le_div_iff₀ (by positivity) (by positivity)]
    nlinarith [sq_nonneg x, sq_nonneg (x ^ 2)]
  have := hm (Set.mem_Ici.2 le_rfl) ha ha
  simp at this
  linarith

/-- The arctangent is concave: it grows by at most the factor by which its argument grows. -/
theorem arctan_mul_le {a t : ℝ} (ha : 0 ≤ a) (ht : 1 ≤ t) : Real.arctan (a * t) ≤ Real.arctan a * t := by
  have hd : ∀ s : ℝ, HasDerivAt (fun s : ℝ => Real.arctan a * s - Real.arctan (a * s)) (Real.arctan a * 1 - 1 / (1 + (a * s) ^ 2) * (a * 1)) s := fun s =>
    ((hasDerivAt_id s).const_mul _).sub ((Real.hasDerivAt_arctan (a * s)).comp s ((hasDerivAt_id s).const_mul a))
  have hm : MonotoneOn (fun s : ℝ => Real.arctan a * s - Real.arctan (a * s)) (Set.Ici 1) := by
    refine monotoneOn_of_deriv_nonneg (convex_Ici 1) (fun x _ => (hd x).continuousAt.continuousWithinAt) (fun x _ => (hd x).differentiableAt.differentiableWithinAt)
      fun x hx => ?_
    rw [interior_Ici] at hx
    have hx : 1 < x := hx
    rw [(hd x).deriv, mul_one, mul_one, sub_nonneg]
    refine le_trans ?_ (arctan_ge ha)
    rw [one_div, inv_mul_eq_div]
    refine div_le_div_of_nonneg_left ha (by positivity) ?_
    have : a ≤ a * x := le_mul_of_one_le_right ha hx.le
    nlinarith
  have := hm (Set.mem_Ici.2 le_rfl) ht ht
  simp at this
  linarith

namespace Near

variable {u n x y : ℝ}

theorem arctan_pos (hu1 : u < 1) (hx : 0 ≤ x) (h : Near u n x y) (hn : 0 ≤ n) (hu : 0 ≤ u) : Near u n (Real.arctan x) (Real.arctan y) := by
  have hq : (0 : ℝ) < 1 - u := by linarith
  obtain ⟨t, h1, h2, rfl⟩ := h
  have ht := factor_pos hu1 h1
  rcases hx.eq_or_lt with h0 | h0
  · rw [← h0, zero_mul, Real.arctan_zero]
    exact ⟨t, h1, h2, by ring⟩
  have hA : 0 < Real.arctan x := Real.arctan_pos.2 h0
  refine ⟨Real.arctan (x * t) / Real.arctan x, ?_, ?_, by field_simp⟩
  · rw [le_div_iff₀ hA]
    have hle : (1 - u) ^ n ≤ 1 := Real.rpow_le_one hq.le (by linarith) hn
    rcases le_total t 1 with h3 | h3
    · have := arctan_mul_le (a := x * t) (t := 1 / t) (by positivity) (by rw [le_div_iff₀ ht]; linarith)
      rw [show x * t * (1 / t) = x by field_simp] at this
      calc (1 - u) ^ n * Real.arctan x ≤ t * Real.arctan x := mul_le_mul_of_nonneg_right h1 hA.le
        _ ≤ t * (Real.arctan (x * t) * (1 / t)) := mul_le_mul_of_nonneg_left this ht.le
        _ = _ := by field_simp
    · have := Real.arctan_strictMono.monotone (show x ≤ x * t from le_mul_of_one_le_right hx h3)
      nlinarith
  · rw [div_le_iff₀ hA]
    have hge : 1 ≤ (1 - u) ^ (-n) := by
      rw [Real.rpow_neg hq.le]
      exact one_le_inv_iff₀.2 ⟨Real.rpow_pos_of_pos hq _, Real.rpow_le_one hq.le (by linarith) hn⟩
    rcases le_total t 1 with h3 | h3
    · have := Real.arctan_strictMono.monotone (show x * t ≤ x from mul_le_of_le_one_right hx h3)
      nlinarith
    · have := arctan_mul_le hx h3
      nlinarith

theorem arctan (hu : 0 ≤ u) (hu1 : u < 1) (hn : 0 ≤ n) (h : Near u n x y) : Near u n (Real.arctan x) (Real.arctan y) := by
  rcases le_total 0 x with hx | hx
  · exact arctan_pos hu1 hx h hn hu
  · have := (arctan_pos hu1 (neg_nonneg.2 hx) h.neg hn hu).neg
    rwa [Real.arctan_neg, Real.arctan_neg, neg_neg, neg_neg] at this

end Near

/-- `y` is the sum of the numbers in `l`, each with a factor of `n` roundings. -/
def Mixed (u n : ℝ) : List ℝ → ℝ → Prop
  | [], y => y = 0
  | x :: l, y => ∃ t y', Fac u n t ∧ Mixed u n l y' ∧ y = x * t + y'

namespace Mixed

variable {u n : ℝ} {l : List ℝ} {y : ℝ}

theorem scale (hu1 : u < 1) {m d : ℝ} (hd : Fac u m d) : ∀ {l : List ℝ} {y : ℝ}, Mixed u n l y → Mixed u (n + m) l (y * d)
  | [], y, h => by rw [show y = 0 from h, zero_mul]; rfl
  | x :: l, y, ⟨t, y', ht, h', e⟩ => ⟨t * d, y' * d, ht.mul hu1 hd, scale hu1 hd h', by rw [e]; ring⟩

theorem of_near {x y : ℝ} (h : Near u n x y) : Mixed u n [x] y := by
  obtain ⟨t, ht, rfl⟩ := h.fac
  exact ⟨t, 0, ht, rfl, by ring⟩

theorem mono (hu : 0 ≤ u) (hu1 : u < 1) {m : ℝ} (hnm : n ≤ m) : ∀ {l : List ℝ} {y : ℝ}, Mixed u n l y → Mixed u m l y
  | [], _, h => h
  | _ :: _, _, ⟨t, y', ht, h', e⟩ => ⟨t, y', ht.mono hu hu1 hnm, mono hu hu1 hnm h', e⟩

variable (F : Arith u)

theorem add (hu : 0 ≤ u) (hu1 : u < 1) {m x x' : ℝ} (h : Mixed u n l y) (hx : Near u m x x') (hmn : m ≤ n) : Mixed u (n + 1) (x :: l) (F.add y x') := by
  obtain ⟨t, ht, rfl⟩ := hx.fac
  obtain ⟨d, hd, e⟩ := Fac.of_err hu hu1 (F.add_err y (x * t))
  exact ⟨t * d, y * d, (ht.mono hu hu1 hmn).mul hu1 hd, h.scale hu1 hd, by rw [e]; ring⟩

theorem sub (hu : 0 ≤ u) (hu1 : u < 1) {m x x' : ℝ} (h : Mixed u n l y) (hx : Near u m x x') (hmn : m ≤ n) : Mixed u (n + 1) (-x :: l) (F.sub y x') := by
  obtain ⟨t, ht, rfl⟩ := hx.fac
  obtain ⟨d, hd, e⟩ := Fac.of_err hu hu1 (F.sub_err y (x * t))
  exact ⟨t * d, y * d, (ht.mono hu hu1 hmn).mul hu1 hd, h.scale hu1 hd, by rw [e]; ring⟩

theorem close (hu : 0 ≤ u) (hn : 1 ≤ n) (hnu : n * u < 1) : ∀ {l : List ℝ} {y : ℝ}, Mixed u n l y →
    |y - l.sum| ≤ n * u / (1 - n * u) * (l.map abs).sum
  | [], y, h => by rw [show y = 0 from h]; simp
  | x :: l, y, ⟨t, y', ht, h', e⟩ => by
    have h1 := close hu hn hnu h'
    have h2 := ht.close hu hn hnu
    rw [List.sum_cons, List.map_cons, List.sum_cons, e, show x * t + y' - (x + l.sum) = x * (t - 1) + (y' - l.sum) by ring, mul_add]
    refine (abs_add_le _ _).trans (add_le_add ?_ h1)
    rw [abs_mul, mul_comm]
    exact mul_le_mul_of_nonneg_right h2 (abs_nonneg _)

end Mixed

namespace Rounded

open Prism

variable {u : ℝ} (F : ArithLog u) (hu : 0 ≤ u)

include hu

/-- One node. -/
theorem near_fzz (hu1 : u < 1) {x y z x' y' z' : ℝ} (hx : Near u 1 x x') (hy : Near u 1 y y') (hz : Near u 1 z z') :
    Near u (21 / 2) (Py.prismFzz x y z) (prismFzz F x' y' z') := by
  simp only [Py.prismFzz, prismFzz]
  by_cases h : z = 0
  · have h' : z' = 0 := by
      obtain ⟨t, -, -, e⟩ := hz
      rw [e, h, zero_mul]
    rw [if_neg (not_not.2 h), if_neg (not_not.2 h')]
    exact (Near.refl 0).mono hu hu1 (by norm_num)
  rw [if_pos h, if_pos (hz.ne_zero hu1 h)]
  have hxx := F.near_mul hu hu1 hx hx
  have hyy := F.near_mul hu hu1 hy hy
  have hzz := F.near_mul hu hu1 hz hz
  have s1 := F.near_add hu hu1 (mul_self_nonneg x) (mul_self_nonneg y) hxx hyy
  have s2 := F.near_add hu hu1 (add_nonneg (mul_self_nonneg x) (mul_self_nonneg y)) (mul_self_nonneg z) s1 (hzz.mono hu hu1 (by norm_num))
  have hpos : 0 < x * x + y * y + z * z := by
    have := mul_self_pos.2 h
    nlinarith [mul_self_nonneg x, mul_self_nonneg y]
  have hr := F.near_sqrt hu hu1 hpos.le s2
  have hd := F.near_div hu hu1 (F.near_mul hu hu1 hx hy) (F.near_mul hu hu1 hz hr) (mul_ne_zero h (Real.sqrt_pos.2 hpos).ne')
  refine ((hd.arctan hu hu1 (by norm_num)).trans hu1 (Near.of_err hu hu1 (F.arctan_err _))).mono hu hu1 (by norm_num)

theorem mixed_fzz (hu1 : u < 1) (b : Box) (xyz : V3 ℝ) {c : ℕ} (hc : c = 0 ∨ c = 1 ∨ c = 2) :
    ∃ l : List ℝ, l.sum = b.evalDefInt Py.prismFzz xyz c ∧ (l.map abs).sum ≤ 4 * Real.pi ∧ Mixed u (35 / 2) l (evalDefInt F b (prismFzz F) xyz c) := by
  have key : ∀ {mn mn' mx mx' : V3 ℝ}, (Near u 1 mn.x mn'.x ∧ Near u 1 mn.y mn'.y ∧ Near u 1 mn.z mn'.z) →
      (Near u 1 mx.x mx'.x ∧ Near u 1 mx.y mx'.y ∧ Near u 1 mx.z mx'.z) →
      ∃ l : List ℝ, l.sum = Py.prismFzz mx.x mx.y mx.z - Py.prismFzz mx.x mx.y mn.z - Py.prismFzz mx.x mn.y mx.z + Py.prismFzz mx.x mn.y mn.z -
        Py.prismFzz mn.x mx.y mx.z + Py.prismFzz mn.x mx.y mn.z + Py.prismFzz mn.x mn.y mx.z - Py.prismFzz mn.x mn.y mn.z ∧
      (l.map abs).sum ≤ 4 * Real.pi ∧
      Mixed u (35 / 2) l (F.sub (F.add (F.add (F.sub (F.add (F.sub (F.sub (prismFzz F mx'.x mx'.y mx'.z) (prismFzz F mx'.x mx'.y mn'.z))
        (prismFzz F mx'.x mn'.y mx'.z)) (prismFzz F mx'.x mn'.y mn'.z)) (prismFzz F mn'.x mx'.y mx'.z)) (prismFzz F mn'.x mx'.y mn'.z))
        (prismFzz F mn'.x mn'.y mx'.z)) (prismFzz F mn'.x mn'.y mn'.z)) := by
    rintro mn mn' mx mx' ⟨n1, n2, n3⟩ ⟨m1, m2, m3⟩
    have bd : ∀ x y z : ℝ, |Py.prismFzz x y z| ≤ Real.pi / 2 := fun x y z => by
      simp only [Py.prismFzz]
      split_ifs
      · exact abs_le.2 ⟨(Real.neg_pi_div_two_lt_arctan _).le, (Real.arctan_lt_pi_div_two _).le⟩
      · rw [abs_zero]; have := Real.pi_pos; positivity
    have h1 := Mixed.of_near (near_fzz F hu hu1 m1 m2 m3)
    have h2 := h1.sub F.toArith hu hu1 (near_fzz F hu hu1 m1 m2 n3) (by norm_num)
    have h3 := h2.sub F.toArith hu hu1 (near_fzz F hu hu1 m1 n2 m3) (by norm_num)
    have h4 := h3.add F.toArith hu hu1 (near_fzz F hu hu1 m1 n2 n3) (by norm_num)
    have h5 := h4.sub F.toArith hu hu1 (near_fzz F hu hu1 n1 m2 m3) (by norm_num)
    have h6 := h5.add F.toArith hu hu1 (near_fzz F hu hu1 n1 m2 n3) (by norm_num)
    have h7 := h6.add F.toArith hu hu1 (near_fzz F hu hu1 n1 n2 m3) (by norm_num)
    have h8 := h7.sub F.toArith hu hu1 (near_fzz F hu hu1 n1 n2 n3) (by norm_num)
    refine ⟨_, ?_, ?_, h8.mono hu hu1 (by norm_num)⟩
    · simp only [List.sum_cons, List.sum_nil]; ring
    · simp only [List.map_cons, List.map_nil, List.sum_cons, List.sum_nil, abs_neg]
      have := bd mx.x mx.y mx.z
      have := bd mx.x mx.y mn.z
      have := bd mx.x mn.y mx.z
      have := bd mx.x mn.y mn.z
      have := bd mn.x mx.y mx.z
      have := bd mn.x mx.y mn.z
      have := bd mn.x mn.y mx.z
      have := bd mn.x mn.y mn.z
      linarith
  have hs := fun a b : ℝ => F.near_sub hu hu1 a b
  rcases hc with rfl | rfl | rfl
  · exact key (mn := ⟨_, _, _⟩) (mn' := ⟨_, _, _⟩) (mx := ⟨_, _, _⟩) (mx' := ⟨_, _, _⟩) ⟨hs _ _, hs _ _, hs _ _⟩ ⟨hs _ _, hs _ _, hs _ _⟩
  · exact key (mn := ⟨_, _, _⟩) (mn' := ⟨_, _, _⟩) (mx := ⟨_, _, _⟩) (mx' := ⟨_, _, _⟩) ⟨hs _ _, hs _ _, hs _ _⟩ ⟨hs _ _, hs _ _, hs _ _⟩
  · exact key (mn := ⟨_, _, _⟩) (mn' := ⟨_, _, _⟩) (mx := ⟨_, _, _⟩) (mx' := ⟨_, _, _⟩) ⟨hs _ _, hs _ _, hs _ _⟩ ⟨hs _ _, hs _ _, hs _ _⟩

/-- **The diagonal of the gradient tensor of a prism is accurate to 20.5 roundings of `4 π G rho`**, at every point, inside, outside and on the surface. -/
theorem GravPrism.gradient_diagonal_accurate_partial (s : Prism.GravPrism) (xyz : V3 ℝ) (h : 41 / 2 * u < 1) :
    let e := s.gravitationalGradient xyz
    let c := GravPrism.gravitationalGradient F s xyz
    let M := 4 * Real.pi * Gravity.G * |s.rho|
    AccurateTo M u (41 / 2) e.x.x c.x.x ∧ AccurateTo M u (41 / 2) e.y.y c.y.y ∧ AccurateTo M u (41 / 2) e.z.z c.z.z := by
  intro e c M
  have hu1 := lt_one_of hu (by norm_num) h
  have main : ∀ {k : ℕ}, (k = 0 ∨ k = 1 ∨ k = 2) → AccurateTo M u (41 / 2) (-Gravity.G * s.rho * s.box.evalDefInt Py.prismFzz xyz k)
      (F.mul (F.mul (-F.const Gravity.G) s.rho) (evalDefInt F s.box (prismFzz F) xyz k)) := fun {k} hk => by
    obtain ⟨l, hl, hb, hm⟩ := mixed_fzz F hu hu1 s.box xyz hk
    obtain ⟨t, ht, et⟩ := (near_gm F.toArith hu hu1 s.rho).fac
    obtain ⟨d, hd, ed⟩ := Fac.of_err hu hu1 (F.mul_err (F.mul (-F.const Gravity.G) s.rho) (evalDefInt F s.box (prismFzz F) xyz k))
    have hm2 := (hm.scale hu1 (ht.mul hu1 hd)).mono hu hu1 (show (35 / 2 + (2 + 1) : ℝ) ≤ 41 / 2 by norm_num)
    have hcl := hm2.close hu (by norm_num) h
    unfold AccurateTo
    rw [ed, et, ← hl]
    have e1 : -Gravity.G * s.rho * t * evalDefInt F s.box (prismFzz F) xyz k * d - -Gravity.G * s.rho * l.sum =
        -Gravity.G * s.rho * (evalDefInt F s.box (prismFzz F) xyz k * (t * d) - l.sum) := by ring
    rw [e1, abs_mul, abs_mul, abs_neg, abs_of_pos G_pos]
    have h0 : 0 ≤ 41 / 2 * u / (1 - 41 / 2 * u) := div_nonneg (by positivity) (by linarith)
    have hGr : 0 ≤ Gravity.G * |s.rho| := mul_nonneg G_pos.le (abs_nonneg _)
    calc _ ≤ Gravity.G * |s.rho| * (41 / 2 * u / (1 - 41 / 2 * u) * (l.map abs).sum) := mul_le_mul_of_nonneg_left hcl hGr
      _ ≤ Gravity.G * |s.rho| * (41 / 2 * u / (1 - 41 / 2 * u) * (4 * Real.pi)) := by gcongr
      _ = _ := by ring
  exact ⟨main (.inr (.inl rfl)), main (.inr (.inr rfl)), main (.inl rfl)⟩

omit hu in
/-- The hypothesis holds in double precision, and the bound is not zero for a prism with mass. -/
example : (41 / 2 : ℝ) * (1 / 2 ^ 53) < 1 ∧ 0 < 4 * Real.pi * Gravity.G * |unitBox.rho| := by
  refine ⟨by norm_num, ?_⟩
  have := G_pos
  have := Real.pi_pos
  have h : unitBox.rho = 1 := rfl
  rw [h, abs_one]
  positivity

end Rounded

end Verif
