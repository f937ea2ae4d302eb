import Verif.Props.PrismTensor

/-! # Derivatives of the prism's tensors outside the prism (helper lemmas) -/

namespace Verif.Prism

open Real Set MeasureTheory Filter Topology

variable {x y z : ℝ}

theorem kgrad_div_r {N : ℝ → ℝ → ℝ → ℝ} {a b c : ℝ} (hN : KGrad N a b c x y z) (n : ℕ) (h : x ≠ 0 ∨ y ≠ 0 ∨ z ≠ 0) :
    KGrad (fun x y z => N x y z / rr x y z ^ n) (a / rr x y z ^ n - n * N x y z * x / rr x y z ^ (n + 2))
      (b / rr x y z ^ n - n * N x y z * y / rr x y z ^ (n + 2)) (c / rr x y z ^ n - n * N x y z * z / rr x y z ^ (n + 2)) x y z := by
  have hr := rr_pos_of h
  intro u v w
  have h0 : rr (x + 0 * u) (y + 0 * v) (z + 0 * w) ≠ 0 := by simpa using hr.ne'
  refine ((hN u v w).fun_div ((kgrad_rr hr.ne' u v w).fun_pow n) (pow_ne_zero n h0)).congr_deriv ?_
  simp only [zero_mul, add_zero]
  rcases n with _ | n
  · simp
  · simp only [Nat.add_sub_cancel]
    push_cast
    field_simp
    ring

theorem continuousOn_div_r {f : ℝ × ℝ × ℝ → ℝ} (hf : Continuous f) (n : ℕ) :
    ContinuousOn (fun q : ℝ × ℝ × ℝ => f q / rr q.1 q.2.1 q.2.2 ^ n) {0}ᶜ := by
  refine hf.continuousOn.div (continuous_rr.pow n).continuousOn fun q hq => pow_ne_zero n (rr_pos_of ?_).ne'
  by_contra hc
  push Not at hc
  exact hq (Prod.ext hc.1 (Prod.ext hc.2.1 hc.2.2))

/-- The integrals of the tidal tensor in coordinates. -/
theorem tidal_entries (b : Box) (h : b.Proper) (p : V3 ℝ) (hp : (p.x, p.y, p.z) ∉ b.closed) :
    ((∫ q in b.points, (3 * (q.1 - p.x) * (q.1 - p.x) / rr (q.1 - p.x) (q.2.1 - p.y) (q.2.2 - p.z) ^ 5 -
        1 / rr (q.1 - p.x) (q.2.1 - p.y) (q.2.2 - p.z) ^ 3) = -b.evalDefInt Py.prismFzz p 1) ∧
      (∫ q in b.points, 3 * (q.1 - p.x) * (q.2.1 - p.y) / rr (q.1 - p.x) (q.2.1 - p.y) (q.2.2 - p.z) ^ 5 =
        -b.evalDefInt Py.prismFzx p 1) ∧
      ∫ q in b.points, 3 * (q.1 - p.x) * (q.2.2 - p.z) / rr (q.1 - p.x) (q.2.1 - p.y) (q.2.2 - p.z) ^ 5 =
        -b.evalDefInt Py.prismFzx p 0) ∧
    ((∫ q in b.points, 3 * (q.2.1 - p.y) * (q.1 - p.x) / rr (q.1 - p.x) (q.2.1 - p.y) (q.2.2 - p.z) ^ 5 =
        -b.evalDefInt Py.prismFzx p 1) ∧
      (∫ q in b.points, (3 * (q.2.1 - p.y) * (q.2.1 - p.y) / rr (q.1 - p.x) (q.2.1 - p.y) (q.2.2 - p.z) ^ 5 -
        1 / rr (q.1 - p.x) (q.2.1 - p.y) (q.2.2 - p.z) ^ 3) = -b.evalDefInt Py.prismFzz p 2) ∧
      ∫ q in b.points, 3 * (q.2.1 - p.y) * (q.2.2 - p.z) / rr (q.1 - p.x) (q.2.1 - p.y) (q.2.2 - p.z) ^ 5 =
        -b.evalDefInt Py.prismFzy p 0) ∧
    (∫ q in b.points, 3 * (q.2.2 - p.z) * (q.1 - p.x) / rr (q.1 - p.x) (q.2.1 - p.y) (q.2.2 - p.z) ^ 5 =
        -b.evalDefInt Py.prismFzx p 0) ∧
      (∫ q in b.points, 3 * (q.2.2 - p.z) * (q.2.1 - p.y) / rr (q.1 - p.x) (q.2.1 - p.y) (q.2.2 - p.z) ^ 5 =
        -b.evalDefInt Py.prismFzy p 0) ∧
      ∫ q in b.points, (3 * (q.2.2 - p.z) * (q.2.2 - p.z) / rr (q.1 - p.x) (q.2.1 - p.y) (q.2.2 - p.z) ^ 5 -
        1 / rr (q.1 - p.x) (q.2.1 - p.y) (q.2.2 - p.z) ^ 3) = -b.evalDefInt Py.prismFzz p 0 := by
  have key := tidal_box b h p hp
  have e1 : ∀ q : ℝ × ℝ × ℝ, (vec q - p).x = q.1 - p.x := fun _ => rfl
  have e2 : ∀ q : ℝ × ℝ × ℝ, (vec q - p).y = q.2.1 - p.y := fun _ => rfl
  have e3 : ∀ q : ℝ × ℝ × ℝ, (vec q - p).z = q.2.2 - p.z := fun _ => rfl
  simp only [Box.integralM, tidal, len_vec_sub, e1, e2, e3, Prod.fst_sub, Prod.snd_sub, V3.mk.injEq] at key
  exact key

theorem newton_entries (b : Box) (h : b.Proper) (p : V3 ℝ) :
    b.evalDefInt Py.prismFz p 1 = -∫ q in b.points, (q.1 - p.x) / rr (q.1 - p.x) (q.2.1 - p.y) (q.2.2 - p.z) ^ 3 ∧
    b.evalDefInt Py.prismFz p 2 = -∫ q in b.points, (q.2.1 - p.y) / rr (q.1 - p.x) (q.2.1 - p.y) (q.2.2 - p.z) ^ 3 ∧
    b.evalDefInt Py.prismFz p 0 = -∫ q in b.points, (q.2.2 - p.z) / rr (q.1 - p.x) (q.2.1 - p.y) (q.2.2 - p.z) ^ 3 := by
  obtain ⟨-, ⟨-, h1⟩, ⟨-, h2⟩, -, h3⟩ := newton_box b h p
  simp only [len_vec_sub, Prod.fst_sub, Prod.snd_sub] at h1 h2 h3
  rw [h1, h2, h3]
  simp

theorem grad_fz_out (b : Box) (h : b.Proper) (p : V3 ℝ) (hp : (p.x, p.y, p.z) ∉ b.closed) :
    HasGrad (fun q => b.evalDefInt Py.prismFz q 1)
      ⟨b.evalDefInt Py.prismFzz p 1, b.evalDefInt Py.prismFzx p 1, b.evalDefInt Py.prismFzx p 0⟩ p ∧
    HasGrad (fun q => b.evalDefInt Py.prismFz q 2)
      ⟨b.evalDefInt Py.prismFzx p 1, b.evalDefInt Py.prismFzz p 2, b.evalDefInt Py.prismFzy p 0⟩ p ∧
    HasGrad (fun q => b.evalDefInt Py.prismFz q 0)
      ⟨b.evalDefInt Py.prismFzx p 0, b.evalDefInt Py.prismFzy p 0, b.evalDefInt Py.prismFzz p 0⟩ p := by
  obtain ⟨⟨xx, xy, xz⟩, ⟨yx, yy, yz⟩, zx, zy, zz⟩ := tidal_entries b h p hp
  have s : ∀ {f g : ℝ × ℝ × ℝ → ℝ} {c : ℝ}, ∫ q in b.points, g q = -c → (∀ q, f q = -g q) → ∫ q in b.points, f q = c :=
    fun hc e => by simp only [e, integral_neg, hc, neg_neg]
  refine ⟨?_, ?_, ?_⟩
  · simp only [fun q => (newton_entries b h q).1]
    refine (hasGrad_integral (k := fun x y z => x / rr x y z ^ 3) (kx := fun x y z => 1 / rr x y z ^ 3 - 3 * x * x / rr x y z ^ 5)
      (ky := fun x y z => -3 * x * y / rr x y z ^ 5) (kz := fun x y z => -3 * x * z / rr x y z ^ 5) b ?_
      (continuousOn_div_r (by fun_prop) 3) ((continuousOn_div_r (by fun_prop) 3).sub (continuousOn_div_r (by fun_prop) 5)) (continuousOn_div_r (by fun_prop) 5) (continuousOn_div_r (by fun_prop) 5) p hp).neg.congr ?_
    · exact fun x y z hn => (kgrad_div_r (kgrad_x x y z) 3 hn).congr_deriv (by push_cast; ring) (by push_cast; ring) (by push_cast; ring)
    · ext
      · simp only [V3.neg_x, neg_neg]; exact s xx fun q => by ring
      · simp only [V3.neg_y, neg_neg]; exact s xy fun q => by ring
      · simp only [V3.neg_z, neg_neg]; exact s xz fun q => by ring
  · simp only [fun q => (newton_entries b h q).2.1]
    refine (hasGrad_integral (k := fun x y z => y / rr x y z ^ 3) (kx := fun x y z => -3 * y * x / rr x y z ^ 5)
      (ky := fun x y z => 1 / rr x y z ^ 3 - 3 * y * y / rr x y z ^ 5) (kz := fun x y z => -3 * y * z / rr x y z ^ 5) b ?_
      (continuousOn_div_r (by fun_prop) 3) (continuousOn_div_r (by fun_prop) 5) ((continuousOn_div_r (by fun_prop) 3).sub (continuousOn_div_r (by fun_prop) 5)) (continuousOn_div_r (by fun_prop) 5) p hp).neg.congr ?_
    · exact fun x y z hn => (kgrad_div_r (kgrad_y x y z) 3 hn).congr_deriv (by push_cast; ring) (by push_cast; ring) (by push_cast; ring)
    · ext
      · simp only [V3.neg_x, neg_neg]; exact s yx fun q => by ring
      · simp only [V3.neg_y, neg_neg]; exact s yy fun q => by ring
      · simp only [V3.neg_z, neg_neg]; exact s yz fun q => by ring
  · simp only [fun q => (newton_entries b h q).2.2]
    refine (hasGrad_integral (k := fun x y z => z / rr x y z ^ 3) (kx := fun x y z => -3 * z * x / rr x y z ^ 5)
      (ky := fun x y z => -3 * z * y / rr x y z ^ 5) (kz := fun x y z => 1 / rr x y z ^ 3 - 3 * z * z / rr x y z ^ 5) b ?_
      (continuousOn_div_r (by fun_prop) 3) (continuousOn_div_r (by fun_prop) 5) (continuousOn_div_r (by fun_prop) 5) ((continuousOn_div_r (by fun_prop) 3).sub (continuousOn_div_r (by fun_prop) 5)) p hp).neg.congr ?_
    · exact fun x y z hn => (kgrad_div_r (kgrad_z x y z) 3 hn).congr_deriv (by push_cast; ring) (by push_cast; ring) (by push_cast; ring)
    · ext
      · simp only [V3.neg_x, neg_neg]; exact s zx fun q => by ring
      · simp only [V3.neg_y, neg_neg]; exact s zy fun q => by ring
      · simp only [V3.neg_z, neg_neg]; exact s zz fun q => by ring

/-! ### The third order, off the diagonal -/

/-- Differentiating the corner sum, from the derivatives at the nodes. -/
theorem hasGrad_evalDefInt_at (b : Box) {f fx fy fz : ℝ → ℝ → ℝ → ℝ} (p : V3 ℝ)
    (h : ∀ x y z, (x = b.min.x ∨ x = b.max.x) → (y = b.min.y ∨ y = b.max.y) → (z = b.min.z ∨ z = b.max.z) →
      KGrad f (fx (x - p.x) (y - p.y) (z - p.z)) (fy (x - p.x) (y - p.y) (z - p.z)) (fz (x - p.x) (y - p.y) (z - p.z))
        (x - p.x) (y - p.y) (z - p.z)) :
    HasGrad (fun q => b.evalDefInt f q 0)
      ⟨-b.evalDefInt fx p 0, -b.evalDefInt fy p 0, -b.evalDefInt fz p 0⟩ p := by
  intro v
  have key : ∀ x y z : ℝ, (x = b.min.x ∨ x = b.max.x) → (y = b.min.y ∨ y = b.max.y) → (z = b.min.z ∨ z = b.max.z) →
      HasDerivAt (fun t : ℝ => f (x - (p + t • v).x) (y - (p + t • v).y) (z - (p + t • v).z))
        (-(v.x * fx (x - p.x) (y - p.y) (z - p.z) + v.y * fy (x - p.x) (y - p.y) (z - p.z)
          + v.z * fz (x - p.x) (y - p.y) (z - p.z))) 0 := by
    intro x y z hx hy hz
    have hk := h x y z hx hy hz (-v.x) (-v.y) (-v.z)
    refine (hk.congr_of_eventuallyEq (Filter.Eventually.of_forall fun t => ?_)).congr_deriv (by ring)
    simp only [V3.add_x, V3.add_y, V3.add_z, V3.smul_x, V3.smul_y, V3.smul_z, smul_eq_mul]
    congr 1 <;> ring
  simp only [Box.evalDefInt, cycleN]
  have l : ∀ {u : ℝ} {w : ℝ}, u = u ∨ u = w := .inl rfl
  have r : ∀ {u : ℝ} {w : ℝ}, u = w ∨ u = u := .inr rfl
  refine ((((((((key _ _ _ r r r).sub (key _ _ _ r r l)).sub (key _ _ _ r l r)).add
    (key _ _ _ r l l)).sub (key _ _ _ l r r)).add (key _ _ _ l r l)).add
    (key _ _ _ l l r)).sub (key _ _ _ l l l)).congr_deriv ?_
  simp only [V3.app, smul_eq_mul]
  ring

theorem prismFxyz_at (h : x ≠ 0 ∨ y ≠ 0 ∨ z ≠ 0) : Py.prismFxyz x y z = 1 / rr x y z := by
  have hr := (rr_pos_of h).ne'
  simp only [Py.prismFxyz]
  exact if_pos hr

theorem prismFxxy_at (h : x ≠ 0 ∨ y ≠ 0 ∨ z ≠ 0) : Py.prismFxxy x y z = 1 / (x * x + y * y) * (-x * z / rr x y z) := by
  have hr := (rr_pos_of h).ne'
  have e : √(x * x + y * y + z * z) = rr x y z := rfl
  simp only [Py.prismFxxy, e, ne_eq, hr, not_false_eq_true, if_true]
  split_ifs with h0
  · simp [h0]
  · rfl

theorem prismFxxz_at (h : x ≠ 0 ∨ y ≠ 0 ∨ z ≠ 0) : Py.prismFxxz x y z = 1 / (x * x + z * z) * (-x * y / rr x y z) := by
  have hr := (rr_pos_of h).ne'
  have e : √(x * x + y * y + z * z) = rr x y z := rfl
  simp only [Py.prismFxxz, e, ne_eq, hr, not_false_eq_true, if_true]
  split_ifs with h0
  · simp [h0]
  · rfl

theorem rr_sq' (x y z : ℝ) : rr x y z ^ 2 = x * x + y * y + z * z :=
  Real.sq_sqrt (by nlinarith [mul_self_nonneg x, mul_self_nonneg y, mul_self_nonneg z])

/-- The transverse derivative of the logarithms in terms of the kernels. -/
theorem slope_plus (w : ℝ) (hw : w = y ∨ w = z) (h : 0 < x + rr x y z) (hr : 0 < rr x y z) :
    w / (rr x y z * (x + rr x y z)) = w / (y * y + z * z) - w * x / ((y * y + z * z) * rr x y z) := by
  by_cases h0 : y * y + z * z = 0
  · have hy : y = 0 := by nlinarith [mul_self_nonneg y, mul_self_nonneg z]
    have hz : z = 0 := by nlinarith [mul_self_nonneg y, mul_self_nonneg z]
    have : w = 0 := by rcases hw with rfl | rfl <;> assumption
    simp [this]
  · have e := rr_sq' x y z
    have e2 : y * y + z * z = (rr x y z - x) * (x + rr x y z) := by nlinarith
    have h1 : rr x y z - x ≠ 0 := fun h1 => h0 (by rw [e2, h1, zero_mul])
    rw [e2]
    have := h.ne'
    field_simp

theorem slope_minus (w : ℝ) (hw : w = y ∨ w = z) (h : 0 < rr x y z - x) (hr : 0 < rr x y z) :
    w / (rr x y z * (rr x y z - x)) = w / (y * y + z * z) + w * x / ((y * y + z * z) * rr x y z) := by
  by_cases h0 : y * y + z * z = 0
  · have hy : y = 0 := by nlinarith [mul_self_nonneg y, mul_self_nonneg z]
    have hz : z = 0 := by nlinarith [mul_self_nonneg y, mul_self_nonneg z]
    have : w = 0 := by rcases hw with rfl | rfl <;> assumption
    simp [this]
  · have e := rr_sq' x y z
    have e2 : y * y + z * z = (rr x y z - x) * (x + rr x y z) := by nlinarith
    have h1 : x + rr x y z ≠ 0 := fun h1 => h0 (by rw [e2, h1, mul_zero])
    rw [e2]
    have := h.ne'
    field_simp
    ring

theorem kgrad_fzy_plus (h : 0 < x + rr x y z) (hn : x ≠ 0 ∨ y ≠ 0 ∨ z ≠ 0) :
    KGrad Py.prismFzy (-Py.prismFxyz x y z) (-Py.prismFxxy y z x + -(y / (y * y + z * z)))
      (-Py.prismFxxz z x y + -(z / (y * y + z * z))) x y z := by
  have hr := rr_pos_of hn
  intro u v w
  have h0 : (x + 0 * u) + rr (x + 0 * u) (y + 0 * v) (z + 0 * w) ≠ 0 := by simpa using h.ne'
  have hd := ((kgrad_x x y z u v w).fun_add (kgrad_rr hr.ne' u v w)).log h0 |>.fun_neg
  have hev : ∀ᶠ t : ℝ in 𝓝 0, (x + t * u) + rr (x + t * u) (y + t * v) (z + t * w) ≠ 0 :=
    ((kgrad_x x y z u v w).fun_add (kgrad_rr hr.ne' u v w)).continuousAt.eventually_ne h0
  refine (hd.congr_of_eventuallyEq ?_).congr_deriv ?_
  · filter_upwards [hev] with t ht
    have e : √((x + t * u) * (x + t * u) + (y + t * v) * (y + t * v) + (z + t * w) * (z + t * w)) =
      rr (x + t * u) (y + t * v) (z + t * w) := rfl
    simp only [Py.prismFzy, e, ne_eq, ht, not_false_eq_true, if_true]
  · have e1 := slope_plus y (.inl rfl) h hr
    have e2 := slope_plus z (.inr rfl) h hr
    have a1 : Py.prismFxxy y z x = -(y * x / ((y * y + z * z) * rr x y z)) := by
      rw [prismFxxy_at (by tauto), rr1 x y z]; generalize y * y + z * z = s; ring
    have a2 : Py.prismFxxz z x y = -(z * x / ((y * y + z * z) * rr x y z)) := by
      rw [prismFxxz_at (by tauto), rr2 x y z, add_comm (z * z) (y * y)]; generalize y * y + z * z = s; ring
    rw [prismFxyz_at hn, a1, a2]
    have b1 : -(-(y * x / ((y * y + z * z) * rr x y z))) + -(y / (y * y + z * z)) = -(y / (rr x y z * (x + rr x y z))) := by rw [e1]; ring
    have b2 : -(-(z * x / ((y * y + z * z) * rr x y z))) + -(z / (y * y + z * z)) = -(z / (rr x y z * (x + rr x y z))) := by rw [e2]; ring
    rw [b1, b2]
    simp only [zero_mul, add_zero, mul_one, mul_zero]
    have := h.ne'
    field_simp
    ring

/-- The other form of the logarithm. -/
noncomputable def lgm (x y z : ℝ) : ℝ := log (rr x y z - x)

theorem kgrad_lgm (h : 0 < rr x y z - x) (hn : x ≠ 0 ∨ y ≠ 0 ∨ z ≠ 0) :
    KGrad lgm (-Py.prismFxyz x y z) (-Py.prismFxxy y z x + y / (y * y + z * z))
      (-Py.prismFxxz z x y + z / (y * y + z * z)) x y z := by
  have hr := rr_pos_of hn
  intro u v w
  have h0 : rr (x + 0 * u) (y + 0 * v) (z + 0 * w) - (x + 0 * u) ≠ 0 := by simpa using h.ne'
  have hd := ((kgrad_rr hr.ne' u v w).fun_sub (kgrad_x x y z u v w)).log h0
  refine hd.congr_deriv ?_
  have e1 := slope_minus y (.inl rfl) h hr
  have e2 := slope_minus z (.inr rfl) h hr
  have a1 : Py.prismFxxy y z x = -(y * x / ((y * y + z * z) * rr x y z)) := by
    rw [prismFxxy_at (by tauto), rr1 x y z]; generalize y * y + z * z = s; ring
  have a2 : Py.prismFxxz z x y = -(z * x / ((y * y + z * z) * rr x y z)) := by
    rw [prismFxxz_at (by tauto), rr2 x y z, add_comm (z * z) (y * y)]; generalize y * y + z * z = s; ring
  rw [prismFxyz_at hn, a1, a2]
  have b1 : -(-(y * x / ((y * y + z * z) * rr x y z))) + y / (y * y + z * z) = y / (rr x y z * (rr x y z - x)) := by rw [e1]; ring
  have b2 : -(-(z * x / ((y * y + z * z) * rr x y z))) + z / (y * y + z * z) = z / (rr x y z * (rr x y z - x)) := by rw [e2]; ring
  rw [b1, b2]
  simp only [zero_mul, add_zero, mul_one, mul_zero]
  have := h.ne'
  field_simp
  ring

/-- Behind the box the code's logarithm is the other form up to a term that does not depend on `x`. -/
theorem fzy_of_neg (h : x < 0) : Py.prismFzy x y z = lgm x y z - log (y * y + z * z) := by
  by_cases h0 : y ≠ 0 ∨ z ≠ 0
  · rw [prismFzy_off h0, lg, lgm]
    have hp := add_rr_pos' (x := x) h0
    have hm : 0 < rr x y z - x := by have := Real.sqrt_nonneg (x * x + y * y + z * z); unfold rr; linarith
    have e2 : y * y + z * z = (rr x y z - x) * (x + rr x y z) := by have := rr_sq' x y z; nlinarith
    rw [e2, log_mul hm.ne' hp.ne']
    ring
  · push Not at h0
    obtain ⟨rfl, rfl⟩ := h0
    have := prismFzy_axis x
    rw [if_neg (not_lt.2 h.le), if_pos h, neg_inj] at this
    rw [this, lgm, rr_axis, abs_of_neg h]
    simp only [mul_zero, add_zero, log_zero, sub_zero]
    congr 1
    ring

theorem rr_nonneg' (x y z : ℝ) : 0 ≤ rr x y z := Real.sqrt_nonneg _

theorem grad_fzy_out (b : Box) (h : b.Proper) (p : V3 ℝ) (hp : (p.x, p.y, p.z) ∉ b.closed) :
    HasGrad (fun q => b.evalDefInt Py.prismFzy q 0)
      ⟨b.evalDefInt Py.prismFxyz p 0, b.evalDefInt Py.prismFxxy p 1, b.evalDefInt Py.prismFxxz p 2⟩ p := by
  have node : ∀ x y z, (x = b.min.x ∨ x = b.max.x) → (y = b.min.y ∨ y = b.max.y) → (z = b.min.z ∨ z = b.max.z) →
      x - p.x ≠ 0 ∨ y - p.y ≠ 0 ∨ z - p.z ≠ 0 := by
    intro x y z hx hy hz
    by_contra hc
    push Not at hc
    obtain ⟨h1, h2, h3⟩ := hc
    have := h.1
    have := h.2.1
    have := h.2.2
    refine hp ⟨⟨?_, ?_⟩, ⟨?_, ?_⟩, ⟨?_, ?_⟩⟩ <;> simp only <;>
      (rcases hx with rfl | rfl <;> rcases hy with rfl | rfl <;> rcases hz with rfl | rfl <;> linarith)
  have plus : (∀ x y z, (x = b.min.x ∨ x = b.max.x) → (y = b.min.y ∨ y = b.max.y) → (z = b.min.z ∨ z = b.max.z) →
      0 < (x - p.x) + rr (x - p.x) (y - p.y) (z - p.z)) → HasGrad (fun q => b.evalDefInt Py.prismFzy q 0)
      ⟨b.evalDefInt Py.prismFxyz p 0, b.evalDefInt Py.prismFxxy p 1, b.evalDefInt Py.prismFxxz p 2⟩ p := by
    intro hpos
    refine (hasGrad_evalDefInt_at b (fx := fun x y z => -Py.prismFxyz x y z)
      (fy := fun x y z => -Py.prismFxxy y z x + -(y / (y * y + z * z)))
      (fz := fun x y z => -Py.prismFxxz z x y + -(z / (y * y + z * z))) p
      fun x y z hx hy hz => kgrad_fzy_plus (hpos x y z hx hy hz) (node x y z hx hy hz)).congr ?_
    simp only [evalDefInt_cycle1, evalDefInt_cycle2]
    ext
    · simp only
      rw [evalDefInt_neg b Py.prismFxyz]; ring
    · simp only
      rw [evalDefInt_add, evalDefInt_neg b (fun x y z => Py.prismFxxy y z x),
        evalDefInt_yz b (fun y z => -(y / (y * y + z * z)))]
      ring
    · simp only
      rw [evalDefInt_add, evalDefInt_neg b (fun x y z => Py.prismFxxz z x y),
        evalDefInt_yz b (fun y z => -(z / (y * y + z * z)))]
      ring
  rcases lt_or_ge 0 (b.min.x - p.x) with c1 | c1
  · refine plus fun x y z hx _ _ => ?_
    have := rr_nonneg' (x - p.x) (y - p.y) (z - p.z)
    have := h.1
    rcases hx with rfl | rfl <;> linarith
  rcases lt_or_ge (b.max.x - p.x) 0 with c2 | c2
  · have hg : HasGrad (fun q => b.evalDefInt lgm q 0)
        ⟨b.evalDefInt Py.prismFxyz p 0, b.evalDefInt Py.prismFxxy p 1, b.evalDefInt Py.prismFxxz p 2⟩ p := by
      refine (hasGrad_evalDefInt_at b (fx := fun x y z => -Py.prismFxyz x y z)
        (fy := fun x y z => -Py.prismFxxy y z x + y / (y * y + z * z))
        (fz := fun x y z => -Py.prismFxxz z x y + z / (y * y + z * z)) p
        fun x y z hx hy hz => kgrad_lgm ?_ (node x y z hx hy hz)).congr ?_
      · have := rr_nonneg' (x - p.x) (y - p.y) (z - p.z)
        have := h.1
        rcases hx with rfl | rfl <;> linarith
      · simp only [evalDefInt_cycle1, evalDefInt_cycle2]
        ext
        · simp only
          rw [evalDefInt_neg b Py.prismFxyz]; ring
        · simp only
          rw [evalDefInt_add, evalDefInt_neg b (fun x y z => Py.prismFxxy y z x),
            evalDefInt_yz b (fun y z => y / (y * y + z * z))]
          ring
        · simp only
          rw [evalDefInt_add, evalDefInt_neg b (fun x y z => Py.prismFxxz z x y),
            evalDefInt_yz b (fun y z => z / (y * y + z * z))]
          ring
    refine hg.congr_of_lines fun v => ?_
    have hc : Continuous fun t : ℝ => b.max.x - (p.x + t * v.x) := by fun_prop
    have hev : ∀ᶠ t : ℝ in 𝓝 0, b.max.x - (p.x + t * v.x) < 0 :=
      hc.continuousAt.eventually_lt_const (by simpa using c2)
    filter_upwards [hev] with t ht
    have h1 : b.max.x - (p + t • v).x < 0 := by rw [line_eq]; exact ht
    have h0 : b.min.x - (p + t • v).x < 0 := by linarith [h.1]
    simp only [Box.evalDefInt, cycleN, fzy_of_neg h1, fzy_of_neg h0]
    ring
  · refine plus fun x y z _ hy hz => add_rr_pos' ?_
    by_contra hc
    push Not at hc
    obtain ⟨h2, h3⟩ := hc
    have := h.1
    have := h.2.1
    have := h.2.2
    refine hp ⟨⟨?_, ?_⟩, ⟨?_, ?_⟩, ⟨?_, ?_⟩⟩ <;> simp only <;>
      (rcases hy with rfl | rfl <;> rcases hz with rfl | rfl <;> linarith)

/-- Relabelling the axes of a vector. -/
def V3cyc (v : V3 ℝ) : V3 ℝ := ⟨v.y, v.z, v.x⟩

/-- Relabelling the axes of a box. -/
def Box.cyc (b : Box) : Box := ⟨V3cyc b.min, V3cyc b.max⟩

theorem evalDefInt_cyc (b : Box) (f : ℝ → ℝ → ℝ → ℝ) (p : V3 ℝ) (n : ℕ) :
    b.cyc.evalDefInt f (V3cyc p) n = b.evalDefInt f p (n + 1) := rfl

theorem evalDefInt_three (b : Box) (f : ℝ → ℝ → ℝ → ℝ) (p : V3 ℝ) (n : ℕ) :
    b.evalDefInt f p (n + 3) = b.evalDefInt f p n := rfl

theorem HasGrad.cycle {f : V3 ℝ → ℝ} {g : V3 ℝ} {p : V3 ℝ} (h : HasGrad f g (V3cyc p)) :
    HasGrad (fun q => f (V3cyc q)) ⟨g.z, g.x, g.y⟩ p := by
  intro v
  have := h (V3cyc v)
  refine (this.congr_of_eventuallyEq (Eventually.of_forall fun t => ?_)).congr_deriv ?_
  · simp only
    congr 1
  · simp only [V3.app, V3cyc, smul_eq_mul]
    ring

theorem grad_fzx_out (b : Box) (h : b.Proper) (p : V3 ℝ) (hp : (p.x, p.y, p.z) ∉ b.closed) :
    HasGrad (fun q => b.evalDefInt Py.prismFzx q 0)
      ⟨b.evalDefInt Py.prismFxxz p 0, b.evalDefInt Py.prismFxyz p 0, b.evalDefInt Py.prismFxxy p 2⟩ p ∧
    HasGrad (fun q => b.evalDefInt Py.prismFzx q 1)
      ⟨b.evalDefInt Py.prismFxxy p 0, b.evalDefInt Py.prismFxxz p 1, b.evalDefInt Py.prismFxyz p 0⟩ p := by
  have c : ∀ q, b.evalDefInt Py.prismFxyz q 1 = b.evalDefInt Py.prismFxyz q 0 := fun q => by
    rw [evalDefInt_cycle1]
    congr 1
    funext x y z
    unfold Py.prismFxyz
    rw [show y * y + z * z + x * x = x * x + y * y + z * z by ring]
  have c2 : ∀ q, b.evalDefInt Py.prismFxyz q 2 = b.evalDefInt Py.prismFxyz q 0 := fun q => by
    rw [evalDefInt_cycle2]
    congr 1
    funext x y z
    unfold Py.prismFxyz
    rw [show z * z + x * x + y * y = x * x + y * y + z * z by ring]
  have e0 : ∀ q, b.evalDefInt Py.prismFzx q 0 = b.cyc.evalDefInt Py.prismFzy (V3cyc q) 0 := fun q => by
    rw [evalDefInt_cyc, evalDefInt_cycle1]
    simp only [← fzx_eq_fzy]
  have e1 : ∀ q, b.evalDefInt Py.prismFzx q 1 = b.cyc.cyc.evalDefInt Py.prismFzy (V3cyc (V3cyc q)) 0 := fun q => by
    rw [evalDefInt_cyc, evalDefInt_cyc, evalDefInt_cycle2, evalDefInt_cycle1]
    simp only [fzx_eq_fzy]
  have h1 : b.cyc.Proper := ⟨h.2.1, h.2.2, h.1⟩
  have h2 : b.cyc.cyc.Proper := ⟨h.2.2, h.1, h.2.1⟩
  constructor
  · simp only [e0]
    refine (HasGrad.cycle (grad_fzy_out b.cyc h1 (V3cyc p) fun hc => hp ⟨hc.2.2, hc.1, hc.2.1⟩)).congr ?_
    simp only [evalDefInt_cyc]
    ext
    · rfl
    · exact c p
    · rfl
  · simp only [e1]
    have g0 := grad_fzy_out b.cyc.cyc h2 (V3cyc (V3cyc p)) fun hc => hp ⟨hc.2.1, hc.2.2, hc.1⟩
    have g1 := HasGrad.cycle (p := V3cyc p) g0
    have g2 := HasGrad.cycle (p := p) (f := fun q => b.cyc.cyc.evalDefInt Py.prismFzy (V3cyc q) 0) g1
    refine g2.congr ?_
    simp only [evalDefInt_cyc]
    ext
    · rfl
    · rfl
    · exact c2 p

/-! ### The third order, on the diagonal -/

theorem integrableOn_out (b : Box) {f : ℝ × ℝ × ℝ → ℝ} (hf : ContinuousOn f {0}ᶜ) (p : V3 ℝ) (hp : (p.x, p.y, p.z) ∉ b.closed) :
    IntegrableOn (fun q => f (q.1 - p.x, q.2.1 - p.y, q.2.2 - p.z)) b.points := by
  have : ContinuousOn (fun q : ℝ × ℝ × ℝ => f (q.1 - p.x, q.2.1 - p.y, q.2.2 - p.z)) b.closed := by
    refine hf.comp (f := fun q : ℝ × ℝ × ℝ => (q.1 - p.x, q.2.1 - p.y, q.2.2 - p.z)) (by fun_prop) fun q hq hc => hp ?_
    simp only [mem_singleton_iff, Prod.mk_eq_zero, sub_eq_zero] at hc
    rw [← hc.1, ← hc.2.1, ← hc.2.2]
    exact hq
  exact (this.integrableOn_compact b.isCompact_closed).mono_set b.points_subset_closed

theorem line_out (b : Box) (p : V3 ℝ) (hp : (p.x, p.y, p.z) ∉ b.closed) (v : V3 ℝ) :
    ∀ᶠ t : ℝ in 𝓝 0, ((p + t • v).x, (p + t • v).y, (p + t • v).z) ∉ b.closed := by
  have hline : Continuous fun t : ℝ => ((p.x + t * v.x, p.y + t * v.y, p.z + t * v.z) : ℝ × ℝ × ℝ) := by fun_prop
  have : ∀ᶠ t in 𝓝 (0 : ℝ), ((p.x + t * v.x, p.y + t * v.y, p.z + t * v.z) : ℝ × ℝ × ℝ) ∉ b.closed := by
    refine hline.continuousAt.eventually (b.isCompact_closed.isClosed.isOpen_compl.mem_nhds ?_)
    simpa using hp
  filter_upwards [this] with t ht
  rw [line_eq]
  exact ht

theorem grad_tidal_xx (b : Box) (h : b.Proper) (p : V3 ℝ) (hp : (p.x, p.y, p.z) ∉ b.closed) :
    HasGrad (fun q => b.evalDefInt Py.prismFzz q 1)
      ⟨∫ q in b.points, (9 * (q.1 - p.x) / rr (q.1 - p.x) (q.2.1 - p.y) (q.2.2 - p.z) ^ 5 - 15 * (q.1 - p.x) * (q.1 - p.x) * (q.1 - p.x) / rr (q.1 - p.x) (q.2.1 - p.y) (q.2.2 - p.z) ^ 7),
       ∫ q in b.points, (3 * (q.2.1 - p.y) / rr (q.1 - p.x) (q.2.1 - p.y) (q.2.2 - p.z) ^ 5 - 15 * (q.1 - p.x) * (q.1 - p.x) * (q.2.1 - p.y) / rr (q.1 - p.x) (q.2.1 - p.y) (q.2.2 - p.z) ^ 7),
       ∫ q in b.points, (3 * (q.2.2 - p.z) / rr (q.1 - p.x) (q.2.1 - p.y) (q.2.2 - p.z) ^ 5 - 15 * (q.1 - p.x) * (q.1 - p.x) * (q.2.2 - p.z) / rr (q.1 - p.x) (q.2.1 - p.y) (q.2.2 - p.z) ^ 7)⟩ p := by
  refine ((hasGrad_integral (k := fun x y z => 3 * x * x / rr x y z ^ 5 - 1 / rr x y z ^ 3) (kx := fun x y z => 9 * x / rr x y z ^ 5 - 15 * x * x * x / rr x y z ^ 7)
    (ky := fun x y z => 3 * y / rr x y z ^ 5 - 15 * x * x * y / rr x y z ^ 7) (kz := fun x y z => 3 * z / rr x y z ^ 5 - 15 * x * x * z / rr x y z ^ 7) b ?_
    ((continuousOn_div_r (by fun_prop) 5).sub (continuousOn_div_r (by fun_prop) 3)) ((continuousOn_div_r (by fun_prop) 5).sub (continuousOn_div_r (by fun_prop) 7))
    ((continuousOn_div_r (by fun_prop) 5).sub (continuousOn_div_r (by fun_prop) 7)) ((continuousOn_div_r (by fun_prop) 5).sub (continuousOn_div_r (by fun_prop) 7)) p hp).neg.congr ?_).congr_of_lines ?_
  · exact fun x y z hn => ((kgrad_div_r (((kgrad_const 3 x y z).mul (kgrad_x x y z)).mul (kgrad_x x y z)) 5 hn).sub (kgrad_div_r (kgrad_const 1 x y z) 3 hn)).congr_deriv
      (by push_cast; ring) (by push_cast; ring) (by push_cast; ring)
  · ext <;> simp
  · intro v
    filter_upwards [line_out b p hp v] with t ht
    rw [(tidal_entries b h (p + t • v) ht).1.1, neg_neg]

theorem grad_tidal_xy (b : Box) (h : b.Proper) (p : V3 ℝ) (hp : (p.x, p.y, p.z) ∉ b.closed) :
    HasGrad (fun q => b.evalDefInt Py.prismFzx q 1)
      ⟨∫ q in b.points, (3 * (q.2.1 - p.y) / rr (q.1 - p.x) (q.2.1 - p.y) (q.2.2 - p.z) ^ 5 - 15 * (q.1 - p.x) * (q.2.1 - p.y) * (q.1 - p.x) / rr (q.1 - p.x) (q.2.1 - p.y) (q.2.2 - p.z) ^ 7),
       ∫ q in b.points, (3 * (q.1 - p.x) / rr (q.1 - p.x) (q.2.1 - p.y) (q.2.2 - p.z) ^ 5 - 15 * (q.1 - p.x) * (q.2.1 - p.y) * (q.2.1 - p.y) / rr (q.1 - p.x) (q.2.1 - p.y) (q.2.2 - p.z) ^ 7),
       ∫ q in b.points, (-15 * (q.1 - p.x) * (q.2.1 - p.y) * (q.2.2 - p.z) / rr (q.1 - p.x) (q.2.1 - p.y) (q.2.2 - p.z) ^ 7)⟩ p := by
  refine ((hasGrad_integral (k := fun x y z => 3 * x * y / rr x y z ^ 5) (kx := fun x y z => 3 * y / rr x y z ^ 5 - 15 * x * y * x / rr x y z ^ 7)
    (ky := fun x y z => 3 * x / rr x y z ^ 5 - 15 * x * y * y / rr x y z ^ 7) (kz := fun x y z => -15 * x * y * z / rr x y z ^ 7) b ?_
    (continuousOn_div_r (by fun_prop) 5) ((continuousOn_div_r (by fun_prop) 5).sub (continuousOn_div_r (by fun_prop) 7))
    ((continuousOn_div_r (by fun_prop) 5).sub (continuousOn_div_r (by fun_prop) 7)) (continuousOn_div_r (by fun_prop) 7) p hp).neg.congr ?_).congr_of_lines ?_
  · exact fun x y z hn => (kgrad_div_r (((kgrad_const 3 x y z).mul (kgrad_x x y z)).mul (kgrad_y x y z)) 5 hn).congr_deriv
      (by push_cast; ring) (by push_cast; ring) (by push_cast; ring)
  · ext <;> simp
  · intro v
    filter_upwards [line_out b p hp v] with t ht
    rw [(tidal_entries b h (p + t • v) ht).1.2.1, neg_neg]

theorem grad_tidal_xz (b : Box) (h : b.Proper) (p : V3 ℝ) (hp : (p.x, p.y, p.z) ∉ b.closed) :
    HasGrad (fun q => b.evalDefInt Py.prismFzx q 0)
      ⟨∫ q in b.points, (3 * (q.2.2 - p.z) / rr (q.1 - p.x) (q.2.1 - p.y) (q.2.2 - p.z) ^ 5 - 15 * (q.1 - p.x) * (q.2.2 - p.z) * (q.1 - p.x) / rr (q.1 - p.x) (q.2.1 - p.y) (q.2.2 - p.z) ^ 7),
       ∫ q in b.points, (-15 * (q.1 - p.x) * (q.2.2 - p.z) * (q.2.1 - p.y) / rr (q.1 - p.x) (q.2.1 - p.y) (q.2.2 - p.z) ^ 7),
       ∫ q in b.points, (3 * (q.1 - p.x) / rr (q.1 - p.x) (q.2.1 - p.y) (q.2.2 - p.z) ^ 5 - 15 * (q.1 - p.x) * (q.2.2 - p.z) * (q.2.2 - p.z) / rr (q.1 - p.x) (q.2.1 - p.y) (q.2.2 - p.z) ^ 7)⟩ p := by
  refine ((hasGrad_integral (k := fun x y z => 3 * x * z / rr x y z ^ 5) (kx := fun x y z => 3 * z / rr x y z ^ 5 - 15 * x * z * x / rr x y z ^ 7)
    (ky := fun x y z => -15 * x * z * y / rr x y z ^ 7) (kz := fun x y z => 3 * x / rr x y z ^ 5 - 15 * x * z * z / rr x y z ^ 7) b ?_
    (continuousOn_div_r (by fun_prop) 5) ((continuousOn_div_r (by fun_prop) 5).sub (continuousOn_div_r (by fun_prop) 7))
    (continuousOn_div_r (by fun_prop) 7) ((continuousOn_div_r (by fun_prop) 5).sub (continuousOn_div_r (by fun_prop) 7)) p hp).neg.congr ?_).congr_of_lines ?_
  · exact fun x y z hn => (kgrad_div_r (((kgrad_const 3 x y z).mul (kgrad_x x y z)).mul (kgrad_z x y z)) 5 hn).congr_deriv
      (by push_cast; ring) (by push_cast; ring) (by push_cast; ring)
  · ext <;> simp
  · intro v
    filter_upwards [line_out b p hp v] with t ht
    rw [(tidal_entries b h (p + t • v) ht).1.2.2, neg_neg]

theorem grad_tidal_yy (b : Box) (h : b.Proper) (p : V3 ℝ) (hp : (p.x, p.y, p.z) ∉ b.closed) :
    HasGrad (fun q => b.evalDefInt Py.prismFzz q 2)
      ⟨∫ q in b.points, (3 * (q.1 - p.x) / rr (q.1 - p.x) (q.2.1 - p.y) (q.2.2 - p.z) ^ 5 - 15 * (q.2.1 - p.y) * (q.2.1 - p.y) * (q.1 - p.x) / rr (q.1 - p.x) (q.2.1 - p.y) (q.2.2 - p.z) ^ 7),
       ∫ q in b.points, (9 * (q.2.1 - p.y) / rr (q.1 - p.x) (q.2.1 - p.y) (q.2.2 - p.z) ^ 5 - 15 * (q.2.1 - p.y) * (q.2.1 - p.y) * (q.2.1 - p.y) / rr (q.1 - p.x) (q.2.1 - p.y) (q.2.2 - p.z) ^ 7),
       ∫ q in b.points, (3 * (q.2.2 - p.z) / rr (q.1 - p.x) (q.2.1 - p.y) (q.2.2 - p.z) ^ 5 - 15 * (q.2.1 - p.y) * (q.2.1 - p.y) * (q.2.2 - p.z) / rr (q.1 - p.x) (q.2.1 - p.y) (q.2.2 - p.z) ^ 7)⟩ p := by
  refine ((hasGrad_integral (k := fun x y z => 3 * y * y / rr x y z ^ 5 - 1 / rr x y z ^ 3) (kx := fun x y z => 3 * x / rr x y z ^ 5 - 15 * y * y * x / rr x y z ^ 7)
    (ky := fun x y z => 9 * y / rr x y z ^ 5 - 15 * y * y * y / rr x y z ^ 7) (kz := fun x y z => 3 * z / rr x y z ^ 5 - 15 * y * y * z / rr x y z ^ 7) b ?_
    ((continuousOn_div_r (by fun_prop) 5).sub (continuousOn_div_r (by fun_prop) 3)) ((continuousOn_div_r (by fun_prop) 5).sub (continuousOn_div_r (by fun_prop) 7))
    ((continuousOn_div_r (by fun_prop) 5).sub (continuousOn_div_r (by fun_prop) 7)) ((continuousOn_div_r (by fun_prop) 5).sub (continuousOn_div_r (by fun_prop) 7)) p hp).neg.congr ?_).congr_of_lines ?_
  · exact fun x y z hn => ((kgrad_div_r (((kgrad_const 3 x y z).mul (kgrad_y x y z)).mul (kgrad_y x y z)) 5 hn).sub (kgrad_div_r (kgrad_const 1 x y z) 3 hn)).congr_deriv
      (by push_cast; ring) (by push_cast; ring) (by push_cast; ring)
  · ext <;> simp
  · intro v
    filter_upwards [line_out b p hp v] with t ht
    rw [(tidal_entries b h (p + t • v) ht).2.1.2.1, neg_neg]

theorem grad_tidal_yz (b : Box) (h : b.Proper) (p : V3 ℝ) (hp : (p.x, p.y, p.z) ∉ b.closed) :
    HasGrad (fun q => b.evalDefInt Py.prismFzy q 0)
      ⟨∫ q in b.points, (-15 * (q.2.1 - p.y) * (q.2.2 - p.z) * (q.1 - p.x) / rr (q.1 - p.x) (q.2.1 - p.y) (q.2.2 - p.z) ^ 7),
       ∫ q in b.points, (3 * (q.2.2 - p.z) / rr (q.1 - p.x) (q.2.1 - p.y) (q.2.2 - p.z) ^ 5 - 15 * (q.2.1 - p.y) * (q.2.2 - p.z) * (q.2.1 - p.y) / rr (q.1 - p.x) (q.2.1 - p.y) (q.2.2 - p.z) ^ 7),
       ∫ q in b.points, (3 * (q.2.1 - p.y) / rr (q.1 - p.x) (q.2.1 - p.y) (q.2.2 - p.z) ^ 5 - 15 * (q.2.1 - p.y) * (q.2.2 - p.z) * (q.2.2 - p.z) / rr (q.1 - p.x) (q.2.1 - p.y) (q.2.2 - p.z) ^ 7)⟩ p := by
  refine ((hasGrad_integral (k := fun x y z => 3 * y * z / rr x y z ^ 5) (kx := fun x y z => -15 * y * z * x / rr x y z ^ 7)
    (ky := fun x y z => 3 * z / rr x y z ^ 5 - 15 * y * z * y / rr x y z ^ 7) (kz := fun x y z => 3 * y / rr x y z ^ 5 - 15 * y * z * z / rr x y z ^ 7) b ?_
    (continuousOn_div_r (by fun_prop) 5) (continuousOn_div_r (by fun_prop) 7)
    ((continuousOn_div_r (by fun_prop) 5).sub (continuousOn_div_r (by fun_prop) 7)) ((continuousOn_div_r (by fun_prop) 5).sub (continuousOn_div_r (by fun_prop) 7)) p hp).neg.congr ?_).congr_of_lines ?_
  · exact fun x y z hn => (kgrad_div_r (((kgrad_const 3 x y z).mul (kgrad_y x y z)).mul (kgrad_z x y z)) 5 hn).congr_deriv
      (by push_cast; ring) (by push_cast; ring) (by push_cast; ring)
  · ext <;> simp
  · intro v
    filter_upwards [line_out b p hp v] with t ht
    rw [(tidal_entries b h (p + t • v) ht).2.1.2.2, neg_neg]

theorem grad_tidal_zz (b : Box) (h : b.Proper) (p : V3 ℝ) (hp : (p.x, p.y, p.z) ∉ b.closed) :
    HasGrad (fun q => b.evalDefInt Py.prismFzz q 0)
      ⟨∫ q in b.points, (3 * (q.1 - p.x) / rr (q.1 - p.x) (q.2.1 - p.y) (q.2.2 - p.z) ^ 5 - 15 * (q.2.2 - p.z) * (q.2.2 - p.z) * (q.1 - p.x) / rr (q.1 - p.x) (q.2.1 - p.y) (q.2.2 - p.z) ^ 7),
       ∫ q in b.points, (3 * (q.2.1 - p.y) / rr (q.1 - p.x) (q.2.1 - p.y) (q.2.2 - p.z) ^ 5 - 15 * (q.2.2 - p.z) * (q.2.2 - p.z) * (q.2.1 - p.y) / rr (q.1 - p.x) (q.2.1 - p.y) (q.2.2 - p.z) ^ 7),
       ∫ q in b.points, (9 * (q.2.2 - p.z) / rr (q.1 - p.x) (q.2.1 - p.y) (q.2.2 - p.z) ^ 5 - 15 * (q.2.2 - p.z) * (q.2.2 - p.z) * (q.2.2 - p.z) / rr (q.1 - p.x) (q.2.1 - p.y) (q.2.2 - p.z) ^ 7)⟩ p := by
  refine ((hasGrad_integral (k := fun x y z => 3 * z * z / rr x y z ^ 5 - 1 / rr x y z ^ 3) (kx := fun x y z => 3 * x / rr x y z ^ 5 - 15 * z * z * x / rr x y z ^ 7)
    (ky := fun x y z => 3 * y / rr x y z ^ 5 - 15 * z * z * y / rr x y z ^ 7) (kz := fun x y z => 9 * z / rr x y z ^ 5 - 15 * z * z * z / rr x y z ^ 7) b ?_
    ((continuousOn_div_r (by fun_prop) 5).sub (continuousOn_div_r (by fun_prop) 3)) ((continuousOn_div_r (by fun_prop) 5).sub (continuousOn_div_r (by fun_prop) 7))
    ((continuousOn_div_r (by fun_prop) 5).sub (continuousOn_div_r (by fun_prop) 7)) ((continuousOn_div_r (by fun_prop) 5).sub (continuousOn_div_r (by fun_prop) 7)) p hp).neg.congr ?_).congr_of_lines ?_
  · exact fun x y z hn => ((kgrad_div_r (((kgrad_const 3 x y z).mul (kgrad_z x y z)).mul (kgrad_z x y z)) 5 hn).sub (kgrad_div_r (kgrad_const 1 x y z) 3 hn)).congr_deriv
      (by push_cast; ring) (by push_cast; ring) (by push_cast; ring)
  · ext <;> simp
  · intro v
    filter_upwards [line_out b p hp v] with t ht
    rw [(tidal_entries b h (p + t • v) ht).2.2.2.2, neg_neg]

theorem fzzz_eq (x y z : ℝ) (h : x ≠ 0 ∨ y ≠ 0 ∨ z ≠ 0) :
    Py.prismFzzz x y z = -Py.prismFxxz x y z - Py.prismFxxy y z x := by
  have hr := (rr_pos_of h).ne'
  have e : √(x * x + y * y + z * z) = rr x y z := rfl
  rw [prismFxxz_at h, prismFxxy_at (by tauto), rr1 x y z]
  simp only [Py.prismFzzz, e, ne_eq, hr, not_false_eq_true, if_true]
  generalize x * x + z * z = s
  generalize y * y + z * z = w
  by_cases hs : s = 0 <;> by_cases hw : w = 0 <;> simp [hs, hw] <;> ring

theorem node_out (b : Box) (h : b.Proper) (p : V3 ℝ) (hp : (p.x, p.y, p.z) ∉ b.closed) :
    ∀ x y z, (x = b.min.x ∨ x = b.max.x) → (y = b.min.y ∨ y = b.max.y) → (z = b.min.z ∨ z = b.max.z) →
      x - p.x ≠ 0 ∨ y - p.y ≠ 0 ∨ z - p.z ≠ 0 := by
  intro x y z hx hy hz
  by_contra hc
  push Not at hc
  obtain ⟨h1, h2, h3⟩ := hc
  have := h.1
  have := h.2.1
  have := h.2.2
  refine hp ⟨⟨?_, ?_⟩, ⟨?_, ?_⟩, ⟨?_, ?_⟩⟩ <;> simp only <;>
    (rcases hx with rfl | rfl <;> rcases hy with rfl | rfl <;> rcases hz with rfl | rfl <;> linarith)

theorem evalDefInt_fzzz (b : Box) (h : b.Proper) (p : V3 ℝ) (hp : (p.x, p.y, p.z) ∉ b.closed) :
    b.evalDefInt Py.prismFzzz p 0 = -b.evalDefInt Py.prismFxxz p 0 - b.evalDefInt Py.prismFxxy p 1 ∧
    b.evalDefInt Py.prismFzzz p 1 = -b.evalDefInt Py.prismFxxz p 1 - b.evalDefInt Py.prismFxxy p 2 ∧
    b.evalDefInt Py.prismFzzz p 2 = -b.evalDefInt Py.prismFxxz p 2 - b.evalDefInt Py.prismFxxy p 0 := by
  have key : ∀ (b : Box) (p : V3 ℝ), b.Proper → (p.x, p.y, p.z) ∉ b.closed →
      b.evalDefInt Py.prismFzzz p 0 = -b.evalDefInt Py.prismFxxz p 0 - b.evalDefInt Py.prismFxxy p 1 := by
    intro b p h hp
    have n := fun x y z hx hy hz => fzzz_eq _ _ _ (node_out b h p hp x y z hx hy hz)
    have l : ∀ {u : ℝ} {w : ℝ}, u = u ∨ u = w := .inl rfl
    have r : ∀ {u : ℝ} {w : ℝ}, u = w ∨ u = u := .inr rfl
    rw [evalDefInt_cycle1]
    simp only [Box.evalDefInt, cycleN, n _ _ _ l l l, n _ _ _ l l r, n _ _ _ l r l, n _ _ _ l r r, n _ _ _ r l l,
      n _ _ _ r l r, n _ _ _ r r l, n _ _ _ r r r]
    ring
  refine ⟨key b p h hp, ?_, ?_⟩
  · have := key b.cyc (V3cyc p) ⟨h.2.1, h.2.2, h.1⟩ fun hc => hp ⟨hc.2.2, hc.1, hc.2.1⟩
    exact this
  · have := key b.cyc.cyc (V3cyc (V3cyc p)) ⟨h.2.2, h.1, h.2.1⟩ fun hc => hp ⟨hc.2.1, hc.2.2, hc.1⟩
    exact this

/-- The integrals of the third derivatives over the box, outside it. -/
theorem third_entries (b : Box) (h : b.Proper) (p : V3 ℝ) (hp : (p.x, p.y, p.z) ∉ b.closed) :
    HasGrad (fun q => b.evalDefInt Py.prismFzz q 0)
      ⟨b.evalDefInt Py.prismFxxy p 2, b.evalDefInt Py.prismFxxz p 2, b.evalDefInt Py.prismFzzz p 0⟩ p ∧
    HasGrad (fun q => b.evalDefInt Py.prismFzz q 1)
      ⟨b.evalDefInt Py.prismFzzz p 1, b.evalDefInt Py.prismFxxy p 0, b.evalDefInt Py.prismFxxz p 0⟩ p ∧
    HasGrad (fun q => b.evalDefInt Py.prismFzz q 2)
      ⟨b.evalDefInt Py.prismFxxz p 1, b.evalDefInt Py.prismFzzz p 2, b.evalDefInt Py.prismFxxy p 1⟩ p := by
  obtain ⟨z0, z1, z2⟩ := evalDefInt_fzzz b h p hp
  have hyz := (grad_tidal_yz b h p hp).unique (grad_fzy_out b h p hp)
  have hxz := (grad_tidal_xz b h p hp).unique (grad_fzx_out b h p hp).1
  have hxy := (grad_tidal_xy b h p hp).unique (grad_fzx_out b h p hp).2
  simp only [V3.mk.injEq] at hxy hxz hyz
  obtain ⟨xyx, xyy, xyz⟩ := hxy
  obtain ⟨xzx, xzy, xzz⟩ := hxz
  obtain ⟨yzx, yzy, yzz⟩ := hyz
  have c : ∀ {f g : ℝ × ℝ × ℝ → ℝ} {d : ℝ}, ∫ q in b.points, g q = d → (∀ q, f q = g q) → ∫ q in b.points, f q = d :=
    fun hd e => by simp only [e, hd]
  have s : ∀ {k f g : ℝ × ℝ × ℝ → ℝ} {d e : ℝ}, ContinuousOn f {0}ᶜ → ContinuousOn g {0}ᶜ →
      ∫ q in b.points, f (q.1 - p.x, q.2.1 - p.y, q.2.2 - p.z) = d → ∫ q in b.points, g (q.1 - p.x, q.2.1 - p.y, q.2.2 - p.z) = e →
      (∀ x y z : ℝ, (x, y, z) ≠ 0 → k (x, y, z) = -f (x, y, z) - g (x, y, z)) →
      ∫ q in b.points, k (q.1 - p.x, q.2.1 - p.y, q.2.2 - p.z) = -d - e := by
    intro k f g d e hf hg hd he hk
    rw [← hd, ← he, ← integral_neg, ← integral_sub (f := fun q : ℝ × ℝ × ℝ => -f (q.1 - p.x, q.2.1 - p.y, q.2.2 - p.z)) (integrableOn_out b hf p hp).neg (integrableOn_out b hg p hp)]
    refine setIntegral_congr_fun b.measurableSet_points fun q hq => hk _ _ _ fun hc => hp ?_
    simp only [Prod.mk_eq_zero, sub_eq_zero] at hc
    rw [← hc.1, ← hc.2.1, ← hc.2.2]
    exact b.points_subset_closed hq
  have ct : ∀ {f g : ℝ × ℝ × ℝ → ℝ}, Continuous f → Continuous g →
      ContinuousOn (fun q : ℝ × ℝ × ℝ => f q / rr q.1 q.2.1 q.2.2 ^ 5 - g q / rr q.1 q.2.1 q.2.2 ^ 7) {0}ᶜ := fun hf hg =>
    (continuousOn_div_r hf 5).sub (continuousOn_div_r hg 7)
  have lap : ∀ x y z : ℝ, (x, y, z) ≠ 0 → ∀ w : ℝ, 9 * w / rr x y z ^ 5 - 15 * w * (x * x + y * y + z * z) / rr x y z ^ 7 = -(6 * w / rr x y z ^ 5) := by
    intro x y z hn w
    have hr : 0 < rr x y z := rr_pos_of (by
      by_contra hc
      push Not at hc
      exact hn (Prod.ext hc.1 (Prod.ext hc.2.1 hc.2.2)))
    rw [← rr_sq' x y z]
    field_simp
    ring
  refine ⟨(grad_tidal_zz b h p hp).congr ?_, (grad_tidal_xx b h p hp).congr ?_, (grad_tidal_yy b h p hp).congr ?_⟩
  · refine V3.ext (c xzz fun q => by ring) (c yzz fun q => by ring) ?_
    simp only
    rw [z0]
    refine s (k := fun q => 9 * q.2.2 / rr q.1 q.2.1 q.2.2 ^ 5 - 15 * q.2.2 * q.2.2 * q.2.2 / rr q.1 q.2.1 q.2.2 ^ 7)
      (f := fun q => 3 * q.2.2 / rr q.1 q.2.1 q.2.2 ^ 5 - 15 * q.1 * q.2.2 * q.1 / rr q.1 q.2.1 q.2.2 ^ 7)
      (g := fun q => 3 * q.2.2 / rr q.1 q.2.1 q.2.2 ^ 5 - 15 * q.2.1 * q.2.2 * q.2.1 / rr q.1 q.2.1 q.2.2 ^ 7)
      (ct (by fun_prop) (by fun_prop)) (ct (by fun_prop) (by fun_prop)) xzx yzy fun x y z hn => ?_
    have := lap x y z hn z
    simp only
    linear_combination this
  · refine V3.ext ?_ (c xyx fun q => by ring) (c xzx fun q => by ring)
    simp only
    rw [z1]
    refine s (k := fun q => 9 * q.1 / rr q.1 q.2.1 q.2.2 ^ 5 - 15 * q.1 * q.1 * q.1 / rr q.1 q.2.1 q.2.2 ^ 7)
      (f := fun q => 3 * q.1 / rr q.1 q.2.1 q.2.2 ^ 5 - 15 * q.1 * q.2.1 * q.2.1 / rr q.1 q.2.1 q.2.2 ^ 7)
      (g := fun q => 3 * q.1 / rr q.1 q.2.1 q.2.2 ^ 5 - 15 * q.1 * q.2.2 * q.2.2 / rr q.1 q.2.1 q.2.2 ^ 7)
      (ct (by fun_prop) (by fun_prop)) (ct (by fun_prop) (by fun_prop)) xyy xzz fun x y z hn => ?_
    have := lap x y z hn x
    simp only
    linear_combination this
  · refine V3.ext (c xyy fun q => by ring) ?_ (c yzy fun q => by ring)
    simp only
    rw [z2]
    refine s (k := fun q => 9 * q.2.1 / rr q.1 q.2.1 q.2.2 ^ 5 - 15 * q.2.1 * q.2.1 * q.2.1 / rr q.1 q.2.1 q.2.2 ^ 7)
      (f := fun q => 3 * q.2.1 / rr q.1 q.2.1 q.2.2 ^ 5 - 15 * q.2.1 * q.2.2 * q.2.2 / rr q.1 q.2.1 q.2.2 ^ 7)
      (g := fun q => 3 * q.2.1 / rr q.1 q.2.1 q.2.2 ^ 5 - 15 * q.1 * q.2.1 * q.1 / rr q.1 q.2.1 q.2.2 ^ 7)
      (ct (by fun_prop) (by fun_prop)) (ct (by fun_prop) (by fun_prop)) yzz xyx fun x y z hn => ?_
    have := lap x y z hn y
    simp only
    linear_combination this

end Verif.Prism
