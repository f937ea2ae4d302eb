import Verif.Lemmas.Elastic
import Verif.Lemmas.FarField
import Mathlib.Tactic.Positivity
import Mathlib.Algebra.Order.Field.Power

/-! # Homogeneous functions in the half-space: size and rate of change (helper lemmas for C125) -/

namespace Verif.Elastic

open Real

/-- Two points of the half-space whose distances from the origin are of the same size. -/
structure Pair (p p' : V3 ℝ) : Prop where
  z : p.z ≤ 0
  z' : p'.z ≤ 0
  pos : 0 < p.len
  le : p'.len ≤ 2 * p.len
  le' : p.len ≤ 2 * p'.len

namespace Pair
variable {p p' : V3 ℝ}

theorem pos' (h : Pair p p') : 0 < p'.len := by linarith [h.pos, h.le']

theorem zpow_le (h : Pair p p') (n : ℤ) : p'.len ^ n ≤ 2 ^ n.natAbs * p.len ^ n := by
  have h1 := h.pos
  have h2 := h.pos'
  rcases n with n | n
  · simp only [Int.ofNat_eq_natCast, zpow_natCast, Int.natAbs_natCast]
    rw [← mul_pow]
    exact pow_le_pow_left₀ h2.le h.le n
  · simp only [zpow_negSucc, Int.natAbs_negSucc]
    rw [inv_le_comm₀ (by positivity) (by positivity), mul_inv, inv_inv, ← inv_pow, ← mul_pow]
    refine pow_le_pow_left₀ (by positivity) ?_ _
    linarith [h.le']

end Pair

/-- `f` is of the size `1/R ^ n` and changes accordingly slowly. -/
def Far (n : ℤ) (f : V3 ℝ → ℝ) : Prop :=
  ∃ K L : ℝ, 0 ≤ K ∧ 0 ≤ L ∧ ∀ p p', Pair p p' → |f p| ≤ K * p.len ^ (-n) ∧ |f p - f p'| ≤ L * (p - p').len * p.len ^ (-n - 1)

namespace Far
variable {n m : ℤ} {f g : V3 ℝ → ℝ}

theorem mul (hf : Far n f) (hg : Far m g) : Far (n + m) fun p => f p * g p := by
  obtain ⟨K, L, hK, hL, h⟩ := hf
  obtain ⟨K', L', hK', hL', h'⟩ := hg
  refine ⟨K * K', L * K' + 2 ^ (-n).natAbs * K * L', by positivity, by positivity, fun p p' hp => ?_⟩
  obtain ⟨a1, a2⟩ := h p p' hp
  obtain ⟨b1, b2⟩ := h' p p' hp
  have hp0 := hp.pos
  have hsym : Pair p' p := ⟨hp.z', hp.z, hp.pos', hp.le', hp.le⟩
  have c1 : |f p'| ≤ K * (2 ^ (-n).natAbs * p.len ^ (-n)) := (h p' p hsym).1.trans (by gcongr; exact hp.zpow_le _)
  have e1 : p.len ^ (-(n + m)) = p.len ^ (-n) * p.len ^ (-m) := by rw [← zpow_add₀ hp0.ne']; congr 1; ring
  have e2 : p.len ^ (-(n + m) - 1) = p.len ^ (-n - 1) * p.len ^ (-m) := by rw [← zpow_add₀ hp0.ne']; congr 1; ring
  have e3 : p.len ^ (-(n + m) - 1) = p.len ^ (-n) * p.len ^ (-m - 1) := by rw [← zpow_add₀ hp0.ne']; congr 1; ring
  have d0 := V3.len_nonneg (p - p')
  constructor
  · rw [abs_mul, e1]
    calc |f p| * |g p| ≤ (K * p.len ^ (-n)) * (K' * p.len ^ (-m)) := by gcongr
      _ = _ := by ring
  · calc |f p * g p - f p' * g p'| = |(f p - f p') * g p + f p' * (g p - g p')| := by ring_nf
      _ ≤ |f p - f p'| * |g p| + |f p'| * |g p - g p'| := by rw [← abs_mul, ← abs_mul]; exact abs_add_le _ _
      _ ≤ (L * (p - p').len * p.len ^ (-n - 1)) * (K' * p.len ^ (-m)) + K * (2 ^ (-n).natAbs * p.len ^ (-n)) * (L' * (p - p').len * p.len ^ (-m - 1)) := by gcongr
      _ = L * K' * (p - p').len * (p.len ^ (-n - 1) * p.len ^ (-m)) + 2 ^ (-n).natAbs * K * L' * (p - p').len * (p.len ^ (-n) * p.len ^ (-m - 1)) := by ring
      _ = _ := by rw [← e2, ← e3]; ring

theorem add (hf : Far n f) (hg : Far n g) : Far n fun p => f p + g p := by
  obtain ⟨K, L, hK, hL, h⟩ := hf
  obtain ⟨K', L', hK', hL', h'⟩ := hg
  refine ⟨K + K', L + L', by positivity, by positivity, fun p p' hp => ?_⟩
  obtain ⟨a1, a2⟩ := h p p' hp
  obtain ⟨b1, b2⟩ := h' p p' hp
  constructor
  · exact (abs_add_le _ _).trans (by linarith)
  · calc |f p + g p - (f p' + g p')| = |(f p - f p') + (g p - g p')| := by ring_nf
      _ ≤ _ := (abs_add_le _ _).trans (by linarith)

theorem const (c : ℝ) : Far 0 fun _ => c :=
  ⟨|c|, 0, abs_nonneg _, le_rfl, fun p p' _ => by simp⟩

theorem pow (hf : Far n f) : ∀ k : ℕ, Far (k * n) fun p => f p ^ k
  | 0 => by simpa using const 1
  | k + 1 => by
    have := (pow hf k).mul hf
    rw [show (k : ℤ) * n + n = ((k + 1 : ℕ) : ℤ) * n by push_cast; ring] at this
    simpa only [pow_succ] using this

theorem cast (hf : Far n f) (h : n = m) : Far m f := h ▸ hf

theorem congr (hf : Far n f) (h : ∀ p, f p = g p) : Far n g := (funext h : f = g) ▸ hf

theorem x : Far (-1) V3.x := ⟨1, 1, zero_le_one, zero_le_one, fun p p' _ => by
  simpa using ⟨FarField.abs_x_le p, FarField.abs_x_le (p - p')⟩⟩
theorem y : Far (-1) V3.y := ⟨1, 1, zero_le_one, zero_le_one, fun p p' _ => by
  simpa using ⟨FarField.abs_y_le p, FarField.abs_y_le (p - p')⟩⟩
theorem z : Far (-1) V3.z := ⟨1, 1, zero_le_one, zero_le_one, fun p p' _ => by
  simpa using ⟨FarField.abs_z_le p, FarField.abs_z_le (p - p')⟩⟩

/-- The inverse of a function between `R` and a multiple of it. -/
theorem inv {g : V3 ℝ → ℝ} (h1 : ∀ p, p.z ≤ 0 → p.len ≤ g p) (h2 : ∀ p p', |g p - g p'| ≤ 2 * (p - p').len) : Far 1 fun p => (g p)⁻¹ := by
  refine ⟨1, 4, zero_le_one, by norm_num, fun p p' hp => ?_⟩
  have g1 := h1 p hp.z
  have g2 := h1 p' hp.z'
  have p1 := hp.pos
  have p2 := hp.pos'
  have q1 : 0 < g p := p1.trans_le g1
  have q2 : 0 < g p' := p2.trans_le g2
  constructor
  · rw [abs_of_pos (inv_pos.2 q1), zpow_neg_one, one_mul]
    exact inv_anti₀ p1 g1
  · have e : (g p)⁻¹ - (g p')⁻¹ = -(g p - g p') * ((g p)⁻¹ * (g p')⁻¹) := by field_simp; ring
    have k1 : (g p)⁻¹ ≤ p.len⁻¹ := inv_anti₀ p1 g1
    have k2 : (g p')⁻¹ ≤ 2 * p.len⁻¹ := by
      rw [← div_eq_mul_inv, inv_le_comm₀ q2 (by positivity), inv_div]
      linarith [hp.le']
    rw [e, abs_mul, abs_neg, abs_of_pos (by positivity : 0 < (g p)⁻¹ * (g p')⁻¹)]
    have d0 := V3.len_nonneg (p - p')
    calc |g p - g p'| * ((g p)⁻¹ * (g p')⁻¹) ≤ (2 * (p - p').len) * (p.len⁻¹ * (2 * p.len⁻¹)) := by
          have := h2 p p'
          gcongr
      _ = 4 * (p - p').len * p.len ^ (-1 - 1 : ℤ) := by
        rw [show (-1 - 1 : ℤ) = -1 + -1 by norm_num, zpow_add₀ p1.ne', zpow_neg_one]; ring

theorem U : Far 1 U := inv (g := V3.len) (fun _ _ => le_rfl) fun p p' => (FarField.abs_len_sub_le p p').trans (by linarith [V3.len_nonneg (p - p')])

theorem W : Far 1 W := inv (g := fun p => p.len - p.z) (fun p h => by linarith) fun p p' => by
  have h1 := FarField.abs_len_sub_le p p'
  have h2 := FarField.abs_z_le (p - p')
  calc |p.len - p.z - (p'.len - p'.z)| = |(p.len - p'.len) - (p - p').z| := by simp only [V3.sub_z]; ring_nf
    _ ≤ |p.len - p'.len| + |(p - p').z| := abs_sub _ _
    _ ≤ _ := by linarith

/-- A monomial. -/
noncomputable def mon (c : ℝ) (i j k a b : ℕ) (p : V3 ℝ) : ℝ := c * p.x ^ i * p.y ^ j * p.z ^ k * Elastic.U p ^ a * Elastic.W p ^ b

theorem mon_far (c : ℝ) (i j k a b : ℕ) (h : i + j + k + 2 = a + b) : Far 2 (mon c i j k a b) := by
  refine (((((const c).mul (x.pow i)).mul (y.pow j)).mul (z.pow k)).mul (U.pow a) |>.mul (W.pow b)).cast ?_
  have : (i : ℤ) + j + k + 2 = a + b := by exact_mod_cast h
  linarith

theorem W_le_U {p : V3 ℝ} (hz : p.z ≤ 0) (hp : 0 < p.len) : Elastic.W p ≤ Elastic.U p := inv_anti₀ hp (by linarith)
theorem W_nonneg {p : V3 ℝ} (hz : p.z ≤ 0) : 0 ≤ Elastic.W p := inv_nonneg.2 (by linarith [V3.len_nonneg p])
theorem U_nonneg {p : V3 ℝ} : 0 ≤ Elastic.U p := inv_nonneg.2 (V3.len_nonneg p)

theorem abs_mon (c : ℝ) (i j k a b : ℕ) (h : i + j + k + 2 = a + b) {p : V3 ℝ} (hz : p.z ≤ 0) (hp : 0 < p.len) : |mon c i j k a b p| ≤ |c| * (p.len ^ 2)⁻¹ := by
  have w0 := W_nonneg hz
  have w1 := W_le_U hz hp
  have u0 := U_nonneg (p := p)
  rw [mon, abs_mul, abs_mul, abs_mul, abs_mul, abs_mul, abs_pow, abs_pow, abs_pow, abs_of_nonneg (pow_nonneg u0 a), abs_of_nonneg (pow_nonneg w0 b)]
  calc |c| * |p.x| ^ i * |p.y| ^ j * |p.z| ^ k * Elastic.U p ^ a * Elastic.W p ^ b
      ≤ |c| * p.len ^ i * p.len ^ j * p.len ^ k * Elastic.U p ^ a * Elastic.U p ^ b := by
        have := FarField.abs_x_le p
        have := FarField.abs_y_le p
        have := FarField.abs_z_le p
        gcongr
    _ = |c| * (p.len ^ (i + j + k) * Elastic.U p ^ (i + j + k + 2)) := by rw [h]; ring
    _ = |c| * (p.len ^ 2)⁻¹ := by rw [pow_add (Elastic.U p), ← mul_assoc (p.len ^ _), ← mul_pow, Elastic.U, mul_inv_cancel₀ hp.ne', one_pow, one_mul, inv_pow]

end Far
/-! ## the work of the traction on the slip -/

/-- A monomial as data. -/
structure Mono where
  c : ℝ
  i : ℕ
  j : ℕ
  k : ℕ
  a : ℕ
  b : ℕ

noncomputable def Mono.val (t : Mono) (p : V3 ℝ) : ℝ := Far.mon t.c t.i t.j t.k t.a t.b p

/-- `f` is at most `K/R²` and changes slowly. -/
def Slow (K : ℝ) (f : V3 ℝ → ℝ) : Prop := Far 2 f ∧ ∀ p : V3 ℝ, p.z ≤ 0 → 0 < p.len → |f p| ≤ K * (p.len ^ 2)⁻¹

theorem slow_sum : ∀ l : List Mono, (∀ t ∈ l, t.i + t.j + t.k + 2 = t.a + t.b) → Slow (l.map fun t => |t.c|).sum fun p => (l.map fun t => t.val p).sum
  | [], _ => ⟨⟨0, 0, le_rfl, le_rfl, fun p p' _ => by simp⟩, fun p _ _ => by simp⟩
  | t :: l, h => by
    obtain ⟨h1, h2⟩ := slow_sum l fun t ht => h t (by simp [ht])
    have ht := h t (by simp)
    refine ⟨?_, fun p hz hp => ?_⟩
    · simp only [List.map_cons, List.sum_cons]
      exact (Far.mon_far _ _ _ _ _ _ ht).add h1
    · simp only [List.map_cons, List.sum_cons]
      refine (abs_add_le _ _).trans ?_
      rw [add_mul]
      exact add_le_add (Far.abs_mon t.c t.i t.j t.k t.a t.b ht hz hp) (h2 p hz hp)

theorem slow {K : ℝ} {f : V3 ℝ → ℝ} (l : List Mono) (h : ∀ t ∈ l, t.i + t.j + t.k + 2 = t.a + t.b) (hK : (l.map fun t => |t.c|).sum ≤ K)
    (hf : ∀ p, (l.map fun t => t.val p).sum = f p) : Slow K f := by
  obtain ⟨h1, h2⟩ := slow_sum l h
  refine ⟨h1.congr hf, fun p hz hp => ?_⟩
  rw [← hf]
  exact (h2 p hz hp).trans (by gcongr)

theorem jacX_xx (m : ℝ) : Slow (4 + 7 * |m|) fun p => (jacX m p).x.x :=
  slow [⟨1, 1, 0, 0, 3, 0⟩, ⟨-3, 3, 0, 0, 5, 0⟩, ⟨-(3 * m), 1, 0, 0, 1, 2⟩, ⟨(1 * m), 3, 0, 0, 3, 2⟩, ⟨(2 * m), 3, 0, 0, 2, 3⟩] (by simp) (by simp only [List.map_cons, List.map_nil, List.sum_cons, List.sum_nil, abs_neg, abs_mul, abs_one, Nat.abs_ofNat]; linarith [abs_nonneg m]) fun p => by simp [Mono.val, Far.mon, jacX]; ring

theorem jacX_xy (m : ℝ) : Slow (4 + 7 * |m|) fun p => (jacX m p).x.y :=
  slow [⟨-1, 0, 1, 0, 3, 0⟩, ⟨-3, 2, 1, 0, 5, 0⟩, ⟨-(1 * m), 0, 1, 0, 1, 2⟩, ⟨(1 * m), 2, 1, 0, 3, 2⟩, ⟨(2 * m), 2, 1, 0, 2, 3⟩] (by simp) (by simp only [List.map_cons, List.map_nil, List.sum_cons, List.sum_nil, abs_neg, abs_mul, abs_one, Nat.abs_ofNat]; linarith [abs_nonneg m]) fun p => by simp [Mono.val, Far.mon, jacX]; ring

theorem jacX_xz (m : ℝ) : Slow (4 + 7 * |m|) fun p => (jacX m p).x.z :=
  slow [⟨-1, 0, 0, 1, 3, 0⟩, ⟨-3, 2, 0, 1, 5, 0⟩, ⟨(1 * m), 0, 0, 0, 0, 2⟩, ⟨-(1 * m), 0, 0, 1, 1, 2⟩, ⟨(1 * m), 2, 0, 1, 3, 2⟩, ⟨-(2 * m), 2, 0, 0, 1, 3⟩, ⟨(2 * m), 2, 0, 1, 2, 3⟩] (by simp) (by simp only [List.map_cons, List.map_nil, List.sum_cons, List.sum_nil, abs_neg, abs_mul, abs_one, Nat.abs_ofNat]; linarith [abs_nonneg m]) fun p => by simp [Mono.val, Far.mon, jacX]; ring

theorem jacX_yx (m : ℝ) : Slow (4 + 7 * |m|) fun p => (jacX m p).y.x :=
  slow [⟨1, 0, 1, 0, 3, 0⟩, ⟨-3, 2, 1, 0, 5, 0⟩, ⟨-(1 * m), 0, 1, 0, 1, 2⟩, ⟨(1 * m), 2, 1, 0, 3, 2⟩, ⟨(2 * m), 2, 1, 0, 2, 3⟩] (by simp) (by simp only [List.map_cons, List.map_nil, List.sum_cons, List.sum_nil, abs_neg, abs_mul, abs_one, Nat.abs_ofNat]; linarith [abs_nonneg m]) fun p => by simp [Mono.val, Far.mon, jacX]; ring

theorem jacX_yy (m : ℝ) : Slow (4 + 7 * |m|) fun p => (jacX m p).y.y :=
  slow [⟨1, 1, 0, 0, 3, 0⟩, ⟨-3, 1, 2, 0, 5, 0⟩, ⟨-(1 * m), 1, 0, 0, 1, 2⟩, ⟨(1 * m), 1, 2, 0, 3, 2⟩, ⟨(2 * m), 1, 2, 0, 2, 3⟩] (by simp) (by simp only [List.map_cons, List.map_nil, List.sum_cons, List.sum_nil, abs_neg, abs_mul, abs_one, Nat.abs_ofNat]; linarith [abs_nonneg m]) fun p => by simp [Mono.val, Far.mon, jacX]; ring

theorem jacX_yz (m : ℝ) : Slow (4 + 7 * |m|) fun p => (jacX m p).y.z :=
  slow [⟨-3, 1, 1, 1, 5, 0⟩, ⟨(1 * m), 1, 1, 1, 3, 2⟩, ⟨-(2 * m), 1, 1, 0, 1, 3⟩, ⟨(2 * m), 1, 1, 1, 2, 3⟩] (by simp) (by simp only [List.map_cons, List.map_nil, List.sum_cons, List.sum_nil, abs_neg, abs_mul, abs_one, Nat.abs_ofNat]; linarith [abs_nonneg m]) fun p => by simp [Mono.val, Far.mon, jacX]; ring

theorem jacX_zx (m : ℝ) : Slow (4 + 7 * |m|) fun p => (jacX m p).z.x :=
  slow [⟨1, 0, 0, 1, 3, 0⟩, ⟨-3, 2, 0, 1, 5, 0⟩, ⟨-(1 * m), 0, 0, 0, 1, 1⟩, ⟨(1 * m), 2, 0, 0, 3, 1⟩, ⟨(1 * m), 2, 0, 0, 2, 2⟩] (by simp) (by simp only [List.map_cons, List.map_nil, List.sum_cons, List.sum_nil, abs_neg, abs_mul, abs_one, Nat.abs_ofNat]; linarith [abs_nonneg m]) fun p => by simp [Mono.val, Far.mon, jacX]; ring

theorem jacX_zy (m : ℝ) : Slow (4 + 7 * |m|) fun p => (jacX m p).z.y :=
  slow [⟨-3, 1, 1, 1, 5, 0⟩, ⟨(1 * m), 1, 1, 0, 3, 1⟩, ⟨(1 * m), 1, 1, 0, 2, 2⟩] (by simp) (by simp only [List.map_cons, List.map_nil, List.sum_cons, List.sum_nil, abs_neg, abs_mul, abs_one, Nat.abs_ofNat]; linarith [abs_nonneg m]) fun p => by simp [Mono.val, Far.mon, jacX]; ring

theorem jacX_zz (m : ℝ) : Slow (4 + 7 * |m|) fun p => (jacX m p).z.z :=
  slow [⟨1, 1, 0, 0, 3, 0⟩, ⟨-3, 1, 0, 2, 5, 0⟩, ⟨(1 * m), 1, 0, 1, 3, 1⟩, ⟨-(1 * m), 1, 0, 0, 1, 2⟩, ⟨(1 * m), 1, 0, 1, 2, 2⟩] (by simp) (by simp only [List.map_cons, List.map_nil, List.sum_cons, List.sum_nil, abs_neg, abs_mul, abs_one, Nat.abs_ofNat]; linarith [abs_nonneg m]) fun p => by simp [Mono.val, Far.mon, jacX]; ring

theorem jacY_xx (m : ℝ) : Slow (4 + 7 * |m|) fun p => (jacY m p).x.x :=
  slow [⟨1, 0, 1, 0, 3, 0⟩, ⟨-3, 2, 1, 0, 5, 0⟩, ⟨-(1 * m), 0, 1, 0, 1, 2⟩, ⟨(1 * m), 2, 1, 0, 3, 2⟩, ⟨(2 * m), 2, 1, 0, 2, 3⟩] (by simp) (by simp only [List.map_cons, List.map_nil, List.sum_cons, List.sum_nil, abs_neg, abs_mul, abs_one, Nat.abs_ofNat]; linarith [abs_nonneg m]) fun p => by simp [Mono.val, Far.mon, jacY]; ring

theorem jacY_xy (m : ℝ) : Slow (4 + 7 * |m|) fun p => (jacY m p).x.y :=
  slow [⟨1, 1, 0, 0, 3, 0⟩, ⟨-3, 1, 2, 0, 5, 0⟩, ⟨-(1 * m), 1, 0, 0, 1, 2⟩, ⟨(1 * m), 1, 2, 0, 3, 2⟩, ⟨(2 * m), 1, 2, 0, 2, 3⟩] (by simp) (by simp only [List.map_cons, List.map_nil, List.sum_cons, List.sum_nil, abs_neg, abs_mul, abs_one, Nat.abs_ofNat]; linarith [abs_nonneg m]) fun p => by simp [Mono.val, Far.mon, jacY]; ring

theorem jacY_xz (m : ℝ) : Slow (4 + 7 * |m|) fun p => (jacY m p).x.z :=
  slow [⟨-3, 1, 1, 1, 5, 0⟩, ⟨(1 * m), 1, 1, 1, 3, 2⟩, ⟨-(2 * m), 1, 1, 0, 1, 3⟩, ⟨(2 * m), 1, 1, 1, 2, 3⟩] (by simp) (by simp only [List.map_cons, List.map_nil, List.sum_cons, List.sum_nil, abs_neg, abs_mul, abs_one, Nat.abs_ofNat]; linarith [abs_nonneg m]) fun p => by simp [Mono.val, Far.mon, jacY]; ring

theorem jacY_yx (m : ℝ) : Slow (4 + 7 * |m|) fun p => (jacY m p).y.x :=
  slow [⟨-1, 1, 0, 0, 3, 0⟩, ⟨-3, 1, 2, 0, 5, 0⟩, ⟨-(1 * m), 1, 0, 0, 1, 2⟩, ⟨(1 * m), 1, 2, 0, 3, 2⟩, ⟨(2 * m), 1, 2, 0, 2, 3⟩] (by simp) (by simp only [List.map_cons, List.map_nil, List.sum_cons, List.sum_nil, abs_neg, abs_mul, abs_one, Nat.abs_ofNat]; linarith [abs_nonneg m]) fun p => by simp [Mono.val, Far.mon, jacY]; ring

theorem jacY_yy (m : ℝ) : Slow (4 + 7 * |m|) fun p => (jacY m p).y.y :=
  slow [⟨1, 0, 1, 0, 3, 0⟩, ⟨-3, 0, 3, 0, 5, 0⟩, ⟨-(3 * m), 0, 1, 0, 1, 2⟩, ⟨(1 * m), 0, 3, 0, 3, 2⟩, ⟨(2 * m), 0, 3, 0, 2, 3⟩] (by simp) (by simp only [List.map_cons, List.map_nil, List.sum_cons, List.sum_nil, abs_neg, abs_mul, abs_one, Nat.abs_ofNat]; linarith [abs_nonneg m]) fun p => by simp [Mono.val, Far.mon, jacY]; ring

theorem jacY_yz (m : ℝ) : Slow (4 + 7 * |m|) fun p => (jacY m p).y.z :=
  slow [⟨-1, 0, 0, 1, 3, 0⟩, ⟨-3, 0, 2, 1, 5, 0⟩, ⟨(1 * m), 0, 0, 0, 0, 2⟩, ⟨-(1 * m), 0, 0, 1, 1, 2⟩, ⟨(1 * m), 0, 2, 1, 3, 2⟩, ⟨-(2 * m), 0, 2, 0, 1, 3⟩, ⟨(2 * m), 0, 2, 1, 2, 3⟩] (by simp) (by simp only [List.map_cons, List.map_nil, List.sum_cons, List.sum_nil, abs_neg, abs_mul, abs_one, Nat.abs_ofNat]; linarith [abs_nonneg m]) fun p => by simp [Mono.val, Far.mon, jacY]; ring

theorem jacY_zx (m : ℝ) : Slow (4 + 7 * |m|) fun p => (jacY m p).z.x :=
  slow [⟨-3, 1, 1, 1, 5, 0⟩, ⟨(1 * m), 1, 1, 0, 3, 1⟩, ⟨(1 * m), 1, 1, 0, 2, 2⟩] (by simp) (by simp only [List.map_cons, List.map_nil, List.sum_cons, List.sum_nil, abs_neg, abs_mul, abs_one, Nat.abs_ofNat]; linarith [abs_nonneg m]) fun p => by simp [Mono.val, Far.mon, jacY]; ring

theorem jacY_zy (m : ℝ) : Slow (4 + 7 * |m|) fun p => (jacY m p).z.y :=
  slow [⟨1, 0, 0, 1, 3, 0⟩, ⟨-3, 0, 2, 1, 5, 0⟩, ⟨-(1 * m), 0, 0, 0, 1, 1⟩, ⟨(1 * m), 0, 2, 0, 3, 1⟩, ⟨(1 * m), 0, 2, 0, 2, 2⟩] (by simp) (by simp only [List.map_cons, List.map_nil, List.sum_cons, List.sum_nil, abs_neg, abs_mul, abs_one, Nat.abs_ofNat]; linarith [abs_nonneg m]) fun p => by simp [Mono.val, Far.mon, jacY]; ring

theorem jacY_zz (m : ℝ) : Slow (4 + 7 * |m|) fun p => (jacY m p).z.z :=
  slow [⟨1, 0, 1, 0, 3, 0⟩, ⟨-3, 0, 1, 2, 5, 0⟩, ⟨(1 * m), 0, 1, 1, 3, 1⟩, ⟨-(1 * m), 0, 1, 0, 1, 2⟩, ⟨(1 * m), 0, 1, 1, 2, 2⟩] (by simp) (by simp only [List.map_cons, List.map_nil, List.sum_cons, List.sum_nil, abs_neg, abs_mul, abs_one, Nat.abs_ofNat]; linarith [abs_nonneg m]) fun p => by simp [Mono.val, Far.mon, jacY]; ring

theorem jacZ_xx (m : ℝ) : Slow (4 + 7 * |m|) fun p => (jacZ m p).x.x :=
  slow [⟨1, 0, 0, 1, 3, 0⟩, ⟨-3, 2, 0, 1, 5, 0⟩, ⟨(1 * m), 0, 0, 0, 1, 1⟩, ⟨-(1 * m), 2, 0, 0, 3, 1⟩, ⟨-(1 * m), 2, 0, 0, 2, 2⟩] (by simp) (by simp only [List.map_cons, List.map_nil, List.sum_cons, List.sum_nil, abs_neg, abs_mul, abs_one, Nat.abs_ofNat]; linarith [abs_nonneg m]) fun p => by simp [Mono.val, Far.mon, jacZ]; ring

theorem jacZ_xy (m : ℝ) : Slow (4 + 7 * |m|) fun p => (jacZ m p).x.y :=
  slow [⟨-3, 1, 1, 1, 5, 0⟩, ⟨-(1 * m), 1, 1, 0, 3, 1⟩, ⟨-(1 * m), 1, 1, 0, 2, 2⟩] (by simp) (by simp only [List.map_cons, List.map_nil, List.sum_cons, List.sum_nil, abs_neg, abs_mul, abs_one, Nat.abs_ofNat]; linarith [abs_nonneg m]) fun p => by simp [Mono.val, Far.mon, jacZ]; ring

theorem jacZ_xz (m : ℝ) : Slow (4 + 7 * |m|) fun p => (jacZ m p).x.z :=
  slow [⟨1, 1, 0, 0, 3, 0⟩, ⟨-3, 1, 0, 2, 5, 0⟩, ⟨-(1 * m), 1, 0, 1, 3, 1⟩, ⟨(1 * m), 1, 0, 0, 1, 2⟩, ⟨-(1 * m), 1, 0, 1, 2, 2⟩] (by simp) (by simp only [List.map_cons, List.map_nil, List.sum_cons, List.sum_nil, abs_neg, abs_mul, abs_one, Nat.abs_ofNat]; linarith [abs_nonneg m]) fun p => by simp [Mono.val, Far.mon, jacZ]; ring

theorem jacZ_yx (m : ℝ) : Slow (4 + 7 * |m|) fun p => (jacZ m p).y.x :=
  slow [⟨-3, 1, 1, 1, 5, 0⟩, ⟨-(1 * m), 1, 1, 0, 3, 1⟩, ⟨-(1 * m), 1, 1, 0, 2, 2⟩] (by simp) (by simp only [List.map_cons, List.map_nil, List.sum_cons, List.sum_nil, abs_neg, abs_mul, abs_one, Nat.abs_ofNat]; linarith [abs_nonneg m]) fun p => by simp [Mono.val, Far.mon, jacZ]; ring

theorem jacZ_yy (m : ℝ) : Slow (4 + 7 * |m|) fun p => (jacZ m p).y.y :=
  slow [⟨1, 0, 0, 1, 3, 0⟩, ⟨-3, 0, 2, 1, 5, 0⟩, ⟨(1 * m), 0, 0, 0, 1, 1⟩, ⟨-(1 * m), 0, 2, 0, 3, 1⟩, ⟨-(1 * m), 0, 2, 0, 2, 2⟩] (by simp) (by simp only [List.map_cons, List.map_nil, List.sum_cons, List.sum_nil, abs_neg, abs_mul, abs_one, Nat.abs_ofNat]; linarith [abs_nonneg m]) fun p => by simp [Mono.val, Far.mon, jacZ]; ring

theorem jacZ_yz (m : ℝ) : Slow (4 + 7 * |m|) fun p => (jacZ m p).y.z :=
  slow [⟨1, 0, 1, 0, 3, 0⟩, ⟨-3, 0, 1, 2, 5, 0⟩, ⟨-(1 * m), 0, 1, 1, 3, 1⟩, ⟨(1 * m), 0, 1, 0, 1, 2⟩, ⟨-(1 * m), 0, 1, 1, 2, 2⟩] (by simp) (by simp only [List.map_cons, List.map_nil, List.sum_cons, List.sum_nil, abs_neg, abs_mul, abs_one, Nat.abs_ofNat]; linarith [abs_nonneg m]) fun p => by simp [Mono.val, Far.mon, jacZ]; ring

theorem jacZ_zx (m : ℝ) : Slow (4 + 7 * |m|) fun p => (jacZ m p).z.x :=
  slow [⟨-1, 1, 0, 0, 3, 0⟩, ⟨-3, 1, 0, 2, 5, 0⟩, ⟨-(1 * m), 1, 0, 0, 3, 0⟩] (by simp) (by simp only [List.map_cons, List.map_nil, List.sum_cons, List.sum_nil, abs_neg, abs_mul, abs_one, Nat.abs_ofNat]; linarith [abs_nonneg m]) fun p => by simp [Mono.val, Far.mon, jacZ]; ring

theorem jacZ_zy (m : ℝ) : Slow (4 + 7 * |m|) fun p => (jacZ m p).z.y :=
  slow [⟨-1, 0, 1, 0, 3, 0⟩, ⟨-3, 0, 1, 2, 5, 0⟩, ⟨-(1 * m), 0, 1, 0, 3, 0⟩] (by simp) (by simp only [List.map_cons, List.map_nil, List.sum_cons, List.sum_nil, abs_neg, abs_mul, abs_one, Nat.abs_ofNat]; linarith [abs_nonneg m]) fun p => by simp [Mono.val, Far.mon, jacZ]; ring

theorem jacZ_zz (m : ℝ) : Slow (4 + 7 * |m|) fun p => (jacZ m p).z.z :=
  slow [⟨1, 0, 0, 1, 3, 0⟩, ⟨-3, 0, 0, 3, 5, 0⟩, ⟨-(1 * m), 0, 0, 1, 3, 0⟩] (by simp) (by simp only [List.map_cons, List.map_nil, List.sum_cons, List.sum_nil, abs_neg, abs_mul, abs_one, Nat.abs_ofNat]; linarith [abs_nonneg m]) fun p => by simp [Mono.val, Far.mon, jacZ]; ring

/-- The nine entries of a matrix are at most `K`. -/
def Entries (J : M3 ℝ) (K : ℝ) : Prop :=
  (|J.x.x| ≤ K ∧ |J.x.y| ≤ K ∧ |J.x.z| ≤ K) ∧ (|J.y.x| ≤ K ∧ |J.y.y| ≤ K ∧ |J.y.z| ≤ K) ∧ |J.z.x| ≤ K ∧ |J.z.y| ≤ K ∧ |J.z.z| ≤ K

theorem entries_jac (m : ℝ) {p : V3 ℝ} (hz : p.z ≤ 0) (hp : 0 < p.len) :
    Entries (jacX m p) ((4 + 7 * |m|) * (p.len ^ 2)⁻¹) ∧ Entries (jacY m p) ((4 + 7 * |m|) * (p.len ^ 2)⁻¹) ∧
      Entries (jacZ m p) ((4 + 7 * |m|) * (p.len ^ 2)⁻¹) :=
  ⟨⟨⟨(jacX_xx m).2 p hz hp, (jacX_xy m).2 p hz hp, (jacX_xz m).2 p hz hp⟩, ⟨(jacX_yx m).2 p hz hp, (jacX_yy m).2 p hz hp, (jacX_yz m).2 p hz hp⟩,
      (jacX_zx m).2 p hz hp, (jacX_zy m).2 p hz hp, (jacX_zz m).2 p hz hp⟩,
    ⟨⟨(jacY_xx m).2 p hz hp, (jacY_xy m).2 p hz hp, (jacY_xz m).2 p hz hp⟩, ⟨(jacY_yx m).2 p hz hp, (jacY_yy m).2 p hz hp, (jacY_yz m).2 p hz hp⟩,
      (jacY_zx m).2 p hz hp, (jacY_zy m).2 p hz hp, (jacY_zz m).2 p hz hp⟩,
    ⟨⟨(jacZ_xx m).2 p hz hp, (jacZ_xy m).2 p hz hp, (jacZ_xz m).2 p hz hp⟩, ⟨(jacZ_yx m).2 p hz hp, (jacZ_yy m).2 p hz hp, (jacZ_yz m).2 p hz hp⟩,
      (jacZ_zx m).2 p hz hp, (jacZ_zy m).2 p hz hp, (jacZ_zz m).2 p hz hp⟩⟩

/-- One bound for the rates of change of two functions. -/
def Rate (L : ℝ) (f : V3 ℝ → ℝ) : Prop := ∀ p p', Pair p p' → |f p - f p'| ≤ L * ((p - p').len * (p.len ^ 3)⁻¹)

theorem Rate.mono {L L' : ℝ} {f : V3 ℝ → ℝ} (h : Rate L f) (hL : L ≤ L') : Rate L' f := fun p p' hp => (h p p' hp).trans (by
  have := V3.len_nonneg (p - p')
  have := hp.pos
  gcongr)

theorem Slow.rate {K : ℝ} {f : V3 ℝ → ℝ} (h : Slow K f) : ∃ L, 0 ≤ L ∧ Rate L f := by
  obtain ⟨⟨_, L, _, hL, h⟩, _⟩ := h
  refine ⟨L, hL, fun p p' hp => ?_⟩
  have e : p.len ^ (-2 - 1 : ℤ) = (p.len ^ 3)⁻¹ := by
    rw [show (-2 - 1 : ℤ) = -((3 : ℕ) : ℤ) by norm_num, zpow_neg, zpow_natCast]
  have := (h p p' hp).2
  rw [e, mul_assoc] at this
  exact this

theorem rate_three {f g k : V3 ℝ → ℝ} (hf : ∃ L, 0 ≤ L ∧ Rate L f) (hg : ∃ L, 0 ≤ L ∧ Rate L g) (hk : ∃ L, 0 ≤ L ∧ Rate L k) :
    ∃ L, 0 ≤ L ∧ Rate L f ∧ Rate L g ∧ Rate L k := by
  obtain ⟨a, ha, hf⟩ := hf
  obtain ⟨b, hb, hg⟩ := hg
  obtain ⟨c, hc, hk⟩ := hk
  exact ⟨a + b + c, by positivity, hf.mono (by linarith), hg.mono (by linarith), hk.mono (by linarith)⟩

theorem rate_entries {J : V3 ℝ → M3 ℝ} (h1 : ∃ L, 0 ≤ L ∧ Rate L (fun p => (J p).x.x) ∧ Rate L (fun p => (J p).x.y) ∧ Rate L fun p => (J p).x.z)
    (h2 : ∃ L, 0 ≤ L ∧ Rate L (fun p => (J p).y.x) ∧ Rate L (fun p => (J p).y.y) ∧ Rate L fun p => (J p).y.z)
    (h3 : ∃ L, 0 ≤ L ∧ Rate L (fun p => (J p).z.x) ∧ Rate L (fun p => (J p).z.y) ∧ Rate L fun p => (J p).z.z) :
    ∃ L, 0 ≤ L ∧ ∀ p p', Pair p p' → Entries (J p - J p') (L * ((p - p').len * (p.len ^ 3)⁻¹)) := by
  obtain ⟨a, ha, a1, a2, a3⟩ := h1
  obtain ⟨b, hb, b1, b2, b3⟩ := h2
  obtain ⟨c, hc, c1, c2, c3⟩ := h3
  refine ⟨a + b + c, by positivity, fun p p' hp => ?_⟩
  have u : ∀ {L : ℝ} {f : V3 ℝ → ℝ}, Rate L f → L ≤ a + b + c → |f p - f p'| ≤ (a + b + c) * ((p - p').len * (p.len ^ 3)⁻¹) :=
    fun h hL => (h.mono hL) p p' hp
  exact ⟨⟨u a1 (by linarith), u a2 (by linarith), u a3 (by linarith)⟩, ⟨u b1 (by linarith), u b2 (by linarith), u b3 (by linarith)⟩,
    u c1 (by linarith), u c2 (by linarith), u c3 (by linarith)⟩

theorem Entries.mono {J : M3 ℝ} {K K' : ℝ} (h : Entries J K) (hK : K ≤ K') : Entries J K' :=
  ⟨⟨h.1.1.trans hK, h.1.2.1.trans hK, h.1.2.2.trans hK⟩, ⟨h.2.1.1.trans hK, h.2.1.2.1.trans hK, h.2.1.2.2.trans hK⟩,
    h.2.2.1.trans hK, h.2.2.2.1.trans hK, h.2.2.2.2.trans hK⟩

theorem rate_jac (m : ℝ) : ∃ L, 0 ≤ L ∧ ∀ p p', Pair p p' → Entries (jacX m p - jacX m p') (L * ((p - p').len * (p.len ^ 3)⁻¹)) ∧
    Entries (jacY m p - jacY m p') (L * ((p - p').len * (p.len ^ 3)⁻¹)) ∧ Entries (jacZ m p - jacZ m p') (L * ((p - p').len * (p.len ^ 3)⁻¹)) := by
  obtain ⟨a, ha, hx⟩ := rate_entries (J := jacX m) (rate_three (jacX_xx m).rate (jacX_xy m).rate (jacX_xz m).rate)
    (rate_three (jacX_yx m).rate (jacX_yy m).rate (jacX_yz m).rate) (rate_three (jacX_zx m).rate (jacX_zy m).rate (jacX_zz m).rate)
  obtain ⟨b, hb, hy⟩ := rate_entries (J := jacY m) (rate_three (jacY_xx m).rate (jacY_xy m).rate (jacY_xz m).rate)
    (rate_three (jacY_yx m).rate (jacY_yy m).rate (jacY_yz m).rate) (rate_three (jacY_zx m).rate (jacY_zy m).rate (jacY_zz m).rate)
  obtain ⟨c, hc, hz⟩ := rate_entries (J := jacZ m) (rate_three (jacZ_xx m).rate (jacZ_xy m).rate (jacZ_xz m).rate)
    (rate_three (jacZ_yx m).rate (jacZ_yy m).rate (jacZ_yz m).rate) (rate_three (jacZ_zx m).rate (jacZ_zy m).rate (jacZ_zz m).rate)
  refine ⟨a + b + c, by positivity, fun p p' hp => ?_⟩
  have h0 : 0 ≤ (p - p').len * (p.len ^ 3)⁻¹ := by
    have := V3.len_nonneg (p - p')
    have := hp.pos
    positivity
  exact ⟨(hx p p' hp).mono (by nlinarith), (hy p p' hp).mono (by nlinarith), (hz p p' hp).mono (by nlinarith)⟩

theorem sum_abs_sq (v : V3 ℝ) : (|v.x| + |v.y| + |v.z|) ^ 2 ≤ 3 * v.len ^ 2 := by
  rw [V3.len_sq, ← sq_abs v.x, ← sq_abs v.y, ← sq_abs v.z]
  nlinarith [sq_nonneg (|v.x| - |v.y|), sq_nonneg (|v.x| - |v.z|), sq_nonneg (|v.y| - |v.z|)]

/-- The work per area is bounded by the entries. -/
theorem work_le {J : M3 ℝ} {K : ℝ} (h : Entries J K) (b n : V3 ℝ) : |b.dot (traction (stress 0 1 J) n)| ≤ 6 * K * b.len * n.len := by
  obtain ⟨⟨h1, h2, h3⟩, ⟨h4, h5, h6⟩, h7, h8, h9⟩ := h
  have hK : 0 ≤ K := (abs_nonneg _).trans h1
  have e : b.dot (traction (stress 0 1 J) n) = (b.x * n.x * (2 * J.x.x) + b.x * n.y * (J.x.y + J.y.x) + b.x * n.z * (J.x.z + J.z.x)) +
      (b.y * n.x * (J.y.x + J.x.y) + b.y * n.y * (2 * J.y.y) + b.y * n.z * (J.y.z + J.z.y)) +
      (b.z * n.x * (J.z.x + J.x.z) + b.z * n.y * (J.z.y + J.y.z) + b.z * n.z * (2 * J.z.z)) := by
    simp only [V3.dot, traction, stress]; ring
  have t : ∀ {u v s : ℝ}, |s| ≤ 2 * K → |u * v * s| ≤ |u| * |v| * (2 * K) := fun hs => by
    rw [abs_mul, abs_mul]; gcongr
  have s2 : ∀ {u v : ℝ}, |u| ≤ K → |v| ≤ K → |u + v| ≤ 2 * K := fun hu hv => (abs_add_le _ _).trans (by linarith)
  have s1 : ∀ {u : ℝ}, |u| ≤ K → |2 * u| ≤ 2 * K := fun hu => by rw [abs_mul, abs_two]; linarith
  have step : |b.dot (traction (stress 0 1 J) n)| ≤ 2 * K * ((|b.x| + |b.y| + |b.z|) * (|n.x| + |n.y| + |n.z|)) := by
    rw [e]
    have a1 := t (u := b.x) (v := n.x) (s1 h1)
    have a2 := t (u := b.x) (v := n.y) (s2 h2 h4)
    have a3 := t (u := b.x) (v := n.z) (s2 h3 h7)
    have a4 := t (u := b.y) (v := n.x) (s2 h4 h2)
    have a5 := t (u := b.y) (v := n.y) (s1 h5)
    have a6 := t (u := b.y) (v := n.z) (s2 h6 h8)
    have a7 := t (u := b.z) (v := n.x) (s2 h7 h3)
    have a8 := t (u := b.z) (v := n.y) (s2 h8 h6)
    have a9 := t (u := b.z) (v := n.z) (s1 h9)
    calc _ ≤ (|b.x * n.x * (2 * J.x.x)| + |b.x * n.y * (J.x.y + J.y.x)| + |b.x * n.z * (J.x.z + J.z.x)|) +
        (|b.y * n.x * (J.y.x + J.x.y)| + |b.y * n.y * (2 * J.y.y)| + |b.y * n.z * (J.y.z + J.z.y)|) +
        (|b.z * n.x * (J.z.x + J.x.z)| + |b.z * n.y * (J.z.y + J.y.z)| + |b.z * n.z * (2 * J.z.z)|) :=
          (abs_add_three _ _ _).trans (add_le_add (add_le_add (abs_add_three _ _ _) (abs_add_three _ _ _)) (abs_add_three _ _ _))
      _ ≤ _ := by linarith
  refine step.trans ?_
  have b0 := V3.len_nonneg b
  have n0 := V3.len_nonneg n
  have q : ((|b.x| + |b.y| + |b.z|) * (|n.x| + |n.y| + |n.z|)) ≤ 3 * (b.len * n.len) := by
    refine abs_le_of_sq_le_sq' ?_ (by positivity) |>.2
    calc ((|b.x| + |b.y| + |b.z|) * (|n.x| + |n.y| + |n.z|)) ^ 2 = (|b.x| + |b.y| + |b.z|) ^ 2 * (|n.x| + |n.y| + |n.z|) ^ 2 := by ring
      _ ≤ (3 * b.len ^ 2) * (3 * n.len ^ 2) := by gcongr <;> exact sum_abs_sq _
      _ = _ := by ring
  nlinarith

end Verif.Elastic
