import Verif.Lemmas.RoundedPieces

/-!
# Factors of roundings inside sums of mixed sign
-/

namespace Verif

/-- A factor that `n` roundings can produce. -/
def Fac (u n t : ℝ) : Prop := (1 - u) ^ n ≤ t ∧ t ≤ (1 - u) ^ (-n)

namespace Fac

variable {u n m t s : ℝ}

theorem near (h : Fac u n t) (x : ℝ) : Near u n x (x * t) := ⟨t, h.1, h.2, rfl⟩

theorem one : Fac u 0 1 := ⟨by simp, by simp⟩

theorem pos (hu1 : u < 1) (h : Fac u n t) : 0 < t := Near.factor_pos hu1 h.1

theorem mono (hu : 0 ≤ u) (hu1 : u < 1) (h : Fac u n t) (hnm : n ≤ m) : Fac u m t :=
  ⟨le_trans (Real.rpow_le_rpow_of_exponent_ge (by linarith) (by linarith) hnm) h.1,
    le_trans h.2 (Real.rpow_le_rpow_of_exponent_ge (by linarith) (by linarith) (by linarith))⟩

theorem mul (hu1 : u < 1) (h : Fac u n t) (h' : Fac u m s) : Fac u (n + m) (t * s) := by
  have hq : (0 : ℝ) < 1 - u := by linarith
  refine ⟨?_, ?_⟩
  · rw [Real.rpow_add hq]
    exact mul_le_mul h.1 h'.1 (Real.rpow_pos_of_pos hq _).le (h.pos hu1).le
  · rw [neg_add, Real.rpow_add hq]
    exact mul_le_mul h.2 h'.2 (h'.pos hu1).le (Real.rpow_pos_of_pos hq _).le

theorem close (hu : 0 ≤ u) (hn : 1 ≤ n) (hnu : n * u < 1) (h : Fac u n t) : |t - 1| ≤ n * u / (1 - n * u) :=
  Near.factor_close hu hn hnu h.1 h.2

theorem of_err (hu : 0 ≤ u) (hu1 : u < 1) {x y : ℝ} (h : |y - x| ≤ u * |x|) : ∃ t, Fac u 1 t ∧ y = x * t := by
  obtain ⟨t, h1, h2, h3⟩ := Near.of_err hu hu1 h
  exact ⟨t, ⟨h1, h2⟩, h3⟩

end Fac

theorem Near.fac {u n x y : ℝ} (h : Near u n x y) : ∃ t, Fac u n t ∧ y = x * t := by
  obtain ⟨t, h1, h2, h3⟩ := h
  exact ⟨t, ⟨h1, h2⟩, h3⟩

namespace Rounded

variable {u : ℝ} (F : Arith u) (hu : 0 ≤ u) (hu1 : u < 1)
include hu hu1

/-- A rounded difference keeps a factor on each term. -/
theorem sub_fac {n x y x' y' : ℝ} (h : Near u n x x') (h' : Near u n y y') :
    ∃ t s, Fac u (n + 1) t ∧ Fac u (n + 1) s ∧ F.sub x' y' = x * t - y * s := by
  obtain ⟨t, ht, rfl⟩ := h.fac
  obtain ⟨s, hs, rfl⟩ := h'.fac
  obtain ⟨d, hd, e⟩ := Fac.of_err hu hu1 (F.sub_err (x * t) (y * s))
  exact ⟨t * d, s * d, ht.mul hu1 hd, hs.mul hu1 hd, by rw [e]; ring⟩

theorem add_fac {x y : ℝ} : ∃ d, Fac u 1 d ∧ F.add x y = (x + y) * d := Fac.of_err hu hu1 (F.add_err x y)

/-- A rounded sum of three keeps a factor on each term. -/
theorem sum3_fac {n a b c a' b' c' : ℝ} (h1 : Near u n a a') (h2 : Near u n b b') (h3 : Near u n c c') :
    ∃ r s t, Fac u (n + 2) r ∧ Fac u (n + 2) s ∧ Fac u (n + 2) t ∧ sum3 F a' b' c' = a * r + b * s + c * t := by
  obtain ⟨r, hr, rfl⟩ := h1.fac
  obtain ⟨s, hs, rfl⟩ := h2.fac
  obtain ⟨t, ht, rfl⟩ := h3.fac
  have two : ∀ {x d e : ℝ}, Fac u n x → Fac u 1 d → Fac u 1 e → Fac u (n + 2) (x * d * e) := fun hx hd he =>
    ((hx.mul hu1 hd).mul hu1 he).mono hu hu1 (by linarith)
  have oneF : ∀ {x e : ℝ}, Fac u n x → Fac u 1 e → Fac u (n + 2) (x * e) := fun hx he =>
    (hx.mul hu1 he).mono hu hu1 (by linarith)
  unfold sum3
  split_ifs
  · obtain ⟨d, hd, e1⟩ := add_fac F hu hu1 (x := a * r) (y := b * s)
    obtain ⟨e, he, e2⟩ := add_fac F hu hu1 (x := (a * r + b * s) * d) (y := c * t)
    exact ⟨r * d * e, s * d * e, t * e, two hr hd he, two hs hd he, oneF ht he, by rw [e1, e2]; ring⟩
  · obtain ⟨d, hd, e1⟩ := add_fac F hu hu1 (x := b * s) (y := c * t)
    obtain ⟨e, he, e2⟩ := add_fac F hu hu1 (x := a * r) (y := (b * s + c * t) * d)
    exact ⟨r * e, s * d * e, t * d * e, oneF hr he, two hs hd he, two ht hd he, by rw [e1, e2]; ring⟩
  · obtain ⟨d, hd, e1⟩ := add_fac F hu hu1 (x := a * r) (y := c * t)
    obtain ⟨e, he, e2⟩ := add_fac F hu hu1 (x := (a * r + c * t) * d) (y := b * s)
    exact ⟨r * d * e, s * e, t * d * e, two hr hd he, oneF hs he, two ht hd he, by rw [e1, e2]; ring⟩

end Rounded

end Verif
