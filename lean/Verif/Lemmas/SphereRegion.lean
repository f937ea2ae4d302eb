import Verif.Lemmas.Grad

/-! # Inside and outside of a sphere are stable along lines (helper lemmas) -/

namespace Verif

open V3

/-- Squared distance, componentwise. -/
theorem hasGrad_quad (o p : V3 ℝ) (c R : ℝ) :
    HasGrad (fun q : V3 ℝ => c * (3 * R ^ 2 - (q - o).len ^ 2))
      ((p - o).map (fun d => -2 * c * d)) p := by
  have e : (fun q : V3 ℝ => c * (3 * R ^ 2 - (q - o).len ^ 2)) = fun q =>
      c * (3 * R ^ 2 - ((q.x - o.x) * (q.x - o.x) + (q.y - o.y) * (q.y - o.y)
        + (q.z - o.z) * (q.z - o.z))) := by
    funext q; rw [len_sq]; simp only [sub_x, sub_y, sub_z]; ring
  rw [e]
  have h := (((hasGrad_const (3 * R ^ 2) p).sub
    ((((hasGrad_sub_x o p).mul (hasGrad_sub_x o p)).add
      ((hasGrad_sub_y o p).mul (hasGrad_sub_y o p))).add
      ((hasGrad_sub_z o p).mul (hasGrad_sub_z o p))))).const_mul c
  refine h.congr ?_
  ext <;> simp <;> ring

/-- Being inside (or outside) is stable along lines. -/
theorem eventually_lt_len (o p : V3 ℝ) (R : ℝ) (hR : 0 ≤ R) (h : R < (p - o).len) (v : V3 ℝ) :
    ∀ᶠ t : ℝ in nhds 0, R < (p + t • v - o).len := by
  have hl : (p - o).len ≠ 0 := (lt_of_le_of_lt hR h).ne'
  have hc := (hasGrad_len_sub o p hl v).continuousAt
  exact hc.eventually_const_lt (by simpa using h)

theorem eventually_len_lt (o p : V3 ℝ) (R : ℝ) (h : (p - o).len < R) (v : V3 ℝ) :
    ∀ᶠ t : ℝ in nhds 0, (p + t • v - o).len < R := by
  have hc := (hasGrad_quad o p (-1) 0 v).continuousAt
  have hR : 0 < R := lt_of_le_of_lt (len_nonneg _) h
  have h2 : (p - o).len ^ 2 < R ^ 2 := by
    have := len_nonneg (p - o); nlinarith
  have := hc.eventually_lt_const (u := R ^ 2) (by simpa using h2)
  filter_upwards [this] with t ht
  have h3 : (p + t • v - o).len ^ 2 < R ^ 2 := by simpa using ht
  exact lt_of_pow_lt_pow_left₀ 2 hR.le h3

variable {E : Type*} [NormedAddCommGroup E] [NormedSpace ℝ E]

theorem HasJac.congr_lines {F G : V3 ℝ → V3 E} {J : M3 E} {p : V3 ℝ} (h : HasJac F J p)
    (e : ∀ v : V3 ℝ, ∀ᶠ t : ℝ in nhds 0, G (p + t • v) = F (p + t • v)) : HasJac G J p := by
  obtain ⟨hx, hy, hz⟩ := h
  refine ⟨hx.congr_of_lines fun v => ?_, hy.congr_of_lines fun v => ?_, hz.congr_of_lines fun v => ?_⟩ <;>
  · filter_upwards [e v] with t ht
    rw [ht]

theorem HasDiv.congr_lines {F G : V3 ℝ → V3 E} {d : E} {p : V3 ℝ} (h : HasDiv F d p)
    (e : ∀ v : V3 ℝ, ∀ᶠ t : ℝ in nhds 0, G (p + t • v) = F (p + t • v)) : HasDiv G d p := by
  obtain ⟨J, hJ, hd⟩ := h
  exact ⟨J, hJ.congr_lines e, hd⟩

theorem hasDiv_const (c : V3 E) (p : V3 ℝ) : HasDiv (fun _ => c) 0 p :=
  ⟨0, ⟨hasGrad_const _ p, hasGrad_const _ p, hasGrad_const _ p⟩, by simp [M3.trace]⟩

end Verif
