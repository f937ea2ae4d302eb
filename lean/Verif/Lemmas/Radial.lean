import Verif.Lemmas.Grad
import Mathlib.Tactic.Module

/-!
# Dipole-type vector fields (helper lemmas)

Fields of the two forms `α(r) (o·R) R + β(r) o` and `γ(r) o × R`, with `R = q - loc`, `r = |R|`, a real constant
vector `o`, and profiles with values in a real normed space `E` (real or complex numbers).
-/

namespace Verif

variable {E : Type*} [NormedAddCommGroup E] [NormedSpace ℝ E]

/-- A real vector scaled by an element of `E`. -/
def sv (s : E) (v : V3 ℝ) : V3 E := v.map (fun c => c • s)

@[simp] theorem sv_x (s : E) (v : V3 ℝ) : (sv s v).x = v.x • s := rfl
@[simp] theorem sv_y (s : E) (v : V3 ℝ) : (sv s v).y = v.y • s := rfl
@[simp] theorem sv_z (s : E) (v : V3 ℝ) : (sv s v).z = v.z • s := rfl

theorem HasGrad.smul {f : V3 ℝ → ℝ} {s : V3 ℝ → E} {a : V3 ℝ} {b : V3 E} {p : V3 ℝ}
    (hf : HasGrad f a p) (hs : HasGrad s b p) :
    HasGrad (fun q => f q • s q) (a.map (fun c => c • s p) + b.map (fun c => f p • c)) p := fun v => by
  refine ((hf v).smul (hs v)).congr_deriv ?_
  simp only [V3.app, V3.add_x, V3.add_y, V3.add_z, V3.map_x, V3.map_y, V3.map_z, zero_smul, add_zero,
    smul_eq_mul]
  module

theorem HasJac.congr_off {F G : V3 ℝ → V3 E} {J : M3 E} {p loc : V3 ℝ} (h : HasJac F J p) (hp : p ≠ loc)
    (e : ∀ q, q ≠ loc → G q = F q) : HasJac G J p := by
  obtain ⟨hx, hy, hz⟩ := h
  refine ⟨hx.congr_of_lines fun v => ?_, hy.congr_of_lines fun v => ?_, hz.congr_of_lines fun v => ?_⟩ <;>
  · filter_upwards [eventually_line_ne p loc hp v] with t ht
    rw [e _ ht]

theorem HasCurl.congr_off {F G : V3 ℝ → V3 E} {c c' : V3 E} {p loc : V3 ℝ} (h : HasCurl F c p)
    (hp : p ≠ loc) (e : ∀ q, q ≠ loc → G q = F q) (hc : c = c') : HasCurl G c' p := by
  obtain ⟨J, hJ, rfl⟩ := h
  exact ⟨J, hJ.congr_off hp e, hc⟩

theorem HasDiv.congr_off {F G : V3 ℝ → V3 E} {c c' : E} {p loc : V3 ℝ} (h : HasDiv F c p)
    (hp : p ≠ loc) (e : ∀ q, q ≠ loc → G q = F q) (hc : c = c') : HasDiv G c' p := by
  obtain ⟨J, hJ, rfl⟩ := h
  exact ⟨J, hJ.congr_off hp e, hc⟩

section

variable (o loc p : V3 ℝ)

theorem hasGrad_dot : HasGrad (fun q => o.dot (q - loc)) o p := by
  have h := (((hasGrad_sub_x loc p).const_mul o.x).add ((hasGrad_sub_y loc p).const_mul o.y)).add
    ((hasGrad_sub_z loc p).const_mul o.z)
  refine h.congr ?_
  ext <;> simp

/-- `α(r) (o·R) R + β(r) o` -/
noncomputable def dipF (α β : ℝ → E) (q : V3 ℝ) : V3 E :=
  sv (α (q - loc).len) ((o.dot (q - loc)) • (q - loc)) + sv (β (q - loc).len) o

/-- `γ(r) o × R` -/
noncomputable def dipX (γ : ℝ → E) (q : V3 ℝ) : V3 E :=
  sv (γ (q - loc).len) (o.cross (q - loc))

variable {o loc p}

theorem dipF_jac {α β : ℝ → E} {α' β' : E} (h : (p - loc).len ≠ 0)
    (hα : HasDerivAt α α' (p - loc).len) (hβ : HasDerivAt β β' (p - loc).len) :
    ∃ J : M3 E, HasJac (dipF o loc α β) J p ∧
      J = (let R := p - loc
        let r := R.len
        let k := o.dot R
        let e := fun (Ri Rj oi oj δ : ℝ) => (k * Ri * Rj / r) • α' + (oj * Ri + k * δ) • α r +
          (oi * Rj / r) • β'
        ⟨⟨e R.x R.x o.x o.x 1, e R.x R.y o.x o.y 0, e R.x R.z o.x o.z 0⟩,
         ⟨e R.y R.x o.y o.x 0, e R.y R.y o.y o.y 1, e R.y R.z o.y o.z 0⟩,
         ⟨e R.z R.x o.z o.x 0, e R.z R.y o.z o.y 0, e R.z R.z o.z o.z 1⟩⟩) := by
  have ga := hasGrad_radial loc p h hα
  have gb := hasGrad_radial loc p h hβ
  have gd := hasGrad_dot o loc p
  refine ⟨_, ⟨?_, ?_, ?_⟩, rfl⟩
  · have := ((gd.mul (hasGrad_sub_x loc p)).smul ga).add ((hasGrad_const o.x p).smul gb)
    refine HasGrad.congr (f := fun q => (dipF o loc α β q).x) this ?_
    ext <;> simp <;> module
  · have := ((gd.mul (hasGrad_sub_y loc p)).smul ga).add ((hasGrad_const o.y p).smul gb)
    refine HasGrad.congr (f := fun q => (dipF o loc α β q).y) this ?_
    ext <;> simp <;> module
  · have := ((gd.mul (hasGrad_sub_z loc p)).smul ga).add ((hasGrad_const o.z p).smul gb)
    refine HasGrad.congr (f := fun q => (dipF o loc α β q).z) this ?_
    ext <;> simp <;> module

theorem dipX_jac {γ : ℝ → E} {γ' : E} (h : (p - loc).len ≠ 0)
    (hγ : HasDerivAt γ γ' (p - loc).len) :
    ∃ J : M3 E, HasJac (dipX o loc γ) J p ∧
      J = (let R := p - loc
        let r := R.len
        let X := o.cross R
        let e := fun (Xi Rj : ℝ) (d : ℝ) => (Xi * Rj / r) • γ' + d • γ r
        ⟨⟨e X.x R.x 0, e X.x R.y (-o.z), e X.x R.z o.y⟩,
         ⟨e X.y R.x o.z, e X.y R.y 0, e X.y R.z (-o.x)⟩,
         ⟨e X.z R.x (-o.y), e X.z R.y o.x, e X.z R.z 0⟩⟩) := by
  have gg := hasGrad_radial loc p h hγ
  refine ⟨_, ⟨?_, ?_, ?_⟩, rfl⟩
  · have := (((hasGrad_sub_z loc p).const_mul o.y).sub ((hasGrad_sub_y loc p).const_mul o.z)).smul gg
    refine HasGrad.congr (f := fun q => (dipX o loc γ q).x) this ?_
    ext <;> simp <;> module
  · have := (((hasGrad_sub_x loc p).const_mul o.z).sub ((hasGrad_sub_z loc p).const_mul o.x)).smul gg
    refine HasGrad.congr (f := fun q => (dipX o loc γ q).y) this ?_
    ext <;> simp <;> module
  · have := (((hasGrad_sub_y loc p).const_mul o.x).sub ((hasGrad_sub_x loc p).const_mul o.y)).smul gg
    refine HasGrad.congr (f := fun q => (dipX o loc γ q).z) this ?_
    ext <;> simp <;> module

/-- `curl (α (o·R) R + β o) = (α - β'/r) o × R`. -/
theorem dipF_curl {α β : ℝ → E} {α' β' : E} (h : (p - loc).len ≠ 0)
    (hα : HasDerivAt α α' (p - loc).len) (hβ : HasDerivAt β β' (p - loc).len) :
    HasCurl (dipF o loc α β)
      (sv (α (p - loc).len - ((p - loc).len)⁻¹ • β') (o.cross (p - loc))) p := by
  obtain ⟨J, hJ, rfl⟩ := dipF_jac (o := o) h hα hβ
  refine ⟨_, hJ, ?_⟩
  ext <;> simp [M3.curl] <;> module

/-- `div (α (o·R) R + β o) = (o·R) (r α' + 4 α + β'/r)`. -/
theorem dipF_div {α β : ℝ → E} {α' β' : E} (h : (p - loc).len ≠ 0)
    (hα : HasDerivAt α α' (p - loc).len) (hβ : HasDerivAt β β' (p - loc).len) :
    HasDiv (dipF o loc α β)
      (o.dot (p - loc) • ((p - loc).len • α' + (4 : ℝ) • α (p - loc).len + ((p - loc).len)⁻¹ • β')) p := by
  obtain ⟨J, hJ, rfl⟩ := dipF_jac (o := o) h hα hβ
  refine ⟨_, hJ, ?_⟩
  have h2 := V3.len_sq (p - loc)
  simp only [M3.trace]
  match_scalars
  · field_simp
    linear_combination (-o.dot (p - loc)) * h2
  · simp only [V3.dot]; ring
  · simp only [V3.dot]; field_simp

/-- `curl (γ o × R) = (2 γ + r γ') o - (γ'/r) (o·R) R`. -/
theorem dipX_curl {γ : ℝ → E} {γ' : E} (h : (p - loc).len ≠ 0)
    (hγ : HasDerivAt γ γ' (p - loc).len) :
    HasCurl (dipX o loc γ)
      (sv (-(((p - loc).len)⁻¹ • γ')) ((o.dot (p - loc)) • (p - loc)) +
        sv ((2 : ℝ) • γ (p - loc).len + (p - loc).len • γ') o) p := by
  obtain ⟨J, hJ, rfl⟩ := dipX_jac (o := o) h hγ
  refine ⟨_, hJ, ?_⟩
  have h2 := V3.len_sq (p - loc)
  have e : (p - loc).len = ((p - loc).x ^ 2 + (p - loc).y ^ 2 + (p - loc).z ^ 2) / (p - loc).len := by
    rw [← h2]; field_simp
  ext
  · simp only [M3.curl, V3.cross, V3.add_x, sv_x, V3.smul_x, smul_eq_mul, V3.dot]
    match_scalars
    · field_simp; linear_combination (-o.x) * h2
    · ring
  · simp only [M3.curl, V3.cross, V3.add_y, sv_y, V3.smul_y, smul_eq_mul, V3.dot]
    match_scalars
    · field_simp; linear_combination (-o.y) * h2
    · ring
  · simp only [M3.curl, V3.cross, V3.add_z, sv_z, V3.smul_z, smul_eq_mul, V3.dot]
    match_scalars
    · field_simp; linear_combination (-o.z) * h2
    · ring

/-- `div (γ o × R) = 0`. -/
theorem dipX_div {γ : ℝ → E} {γ' : E} (h : (p - loc).len ≠ 0)
    (hγ : HasDerivAt γ γ' (p - loc).len) : HasDiv (dipX o loc γ) 0 p := by
  obtain ⟨J, hJ, rfl⟩ := dipX_jac (o := o) h hγ
  refine ⟨_, hJ, ?_⟩
  simp only [M3.trace, V3.cross]
  match_scalars
  · field_simp; ring
  · ring

end

end Verif

namespace Verif

theorem hasDerivAt_const_div_pow (k : ℝ) (n : ℕ) {r : ℝ} (hr : r ≠ 0) :
    HasDerivAt (fun r : ℝ => k / r ^ n) (-(n * k) / r ^ (n + 1)) r := by
  rcases n with _ | n
  · simpa using hasDerivAt_const r k
  · have h := (hasDerivAt_const r k).div ((hasDerivAt_id r).pow (n + 1)) (pow_ne_zero (n + 1) hr)
    refine h.congr_deriv ?_
    simp only [id, Nat.cast_add, Nat.cast_one, Nat.add_sub_cancel]
    field_simp
    simp only [Pi.pow_apply, id]
    push_cast
    ring

end Verif
