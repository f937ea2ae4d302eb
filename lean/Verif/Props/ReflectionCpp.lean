import Verif.Lemmas.CppLoops
import Verif.Lemmas.ReflectionGrad
import Verif.Model.ReflectionCpp
import Mathlib.Tactic.Ring
import Mathlib.Tactic.Linarith

/-! # C51: the C++ reflection kernels -/

namespace Verif.RTE.Cpp

open Complex Verif.Cpp

/-- The column of the Python kernel for frequency `f` and filter `w`. -/
noncomputable def column (mu0 : ℝ) (frequencies lamb : Vec1 ℝ) (sigma mu : Mat ℂ) (thicknesses : Vec1 ℝ) (f w : ℕ) :
    Col :=
  ⟨omegaOf (frequencies.entry f), lamb.entry w, mu0, thicknesses.len, fun k => sigma.entry k f, fun k => mu.entry k f,
    thicknesses.entry⟩

/-- What the kernels are handed: flat blocks that describe columns `c f w`. -/
private structure Args (c : ℕ → ℕ → Col) (nf nw nl : ℕ) (frequencies lambdas : Buf ℝ) (sigmas mus : Buf ℂ)
    (h : Option (Buf ℝ)) : Prop where
  nl_pos : 1 ≤ nl
  small : nl * nf < 2 ^ 64
  smallo : nf * nw < 2 ^ 64
  layers : ∀ f w, (c f w).n = nl - 1
  fsize : frequencies.size = nf
  lsize : lambdas.size = nw
  ssize : sigmas.size = nl * nf
  msize : mus.size = nl * nf
  omega : ∀ f w, f < nf → 2 * Real.pi * frequencies.data f = (c f w).omega
  lamb : ∀ f w, lambdas.data w = (c f w).lamb
  sigma : ∀ f w k, k < nl → sigmas.data (f * nl + k) = (c f w).sigma k
  mu : ∀ f w k, k < nl → mus.data (f * nl + k) = (c f w).mu k
  thick : ∀ f w k, k < nl - 1 → getPtr h k = .ok ((c f w).h k)

section
variable {c : ℕ → ℕ → Col} {nf nw nl : ℕ} {frequencies lambdas : Buf ℝ} {sigmas mus : Buf ℂ} {h : Option (Buf ℝ)}

private theorem toNat_ofNat {i : ℕ} (h : i < 2 ^ 64) : (BitVec.ofNat 64 i).toNat = i := by
  simp only [BitVec.toNat_ofNat]; omega

private theorem Args.nl_lt (a : Args c nf nw nl frequencies lambdas sigmas mus h) (hf : 0 < nf) : nl < 2 ^ 64 := by
  have := a.small; nlinarith

private theorem Args.off (a : Args c nf nw nl frequencies lambdas sigmas mus h) {f : ℕ} (hf : f < nf) :
    (BitVec.ofNat 64 f * BitVec.ofNat 64 nl).toNat = f * nl := by
  have h1 := a.small
  have h2 := a.nl_lt (by omega)
  have h3 : f < 2 ^ 64 := by
    have := a.nl_pos
    nlinarith
  have h4 : f * nl < 2 ^ 64 := by nlinarith
  rw [BitVec.toNat_mul, toNat_ofNat h3, toNat_ofNat h2, Nat.mod_eq_of_lt h4]

private theorem addr {f k : ℕ} (hf : f < nf)
    (hk : k < nl) : f * nl + k < nl * nf := by
  have : (f + 1) * nl ≤ nf * nl := Nat.mul_le_mul_right _ hf
  nlinarith

private theorem Args.last (a : Args c nf nw nl frequencies lambdas sigmas mus h) (hf : 0 < nf) :
    (BitVec.ofNat 64 nl - 1).toNat = nl - 1 := by
  have := a.nl_lt hf
  have := a.nl_pos
  simp [BitVec.toNat_sub]; omega

private theorem layerBody_ok (a : Args c nf nw nl frequencies lambdas sigmas mus h) {f w k : ℕ} (hf : f < nf)
    (hk : k < nl - 1) (Yh : ℂ) :
    layerBody sigmas mus h (BitVec.ofNat 64 f * BitVec.ofNat 64 nl) (c f w).omega ((c f w).lamb * (c f w).lamb)
      (BitVec.ofNat 64 k) Yh = .ok (stepOf ((c f w).Y k) ((c f w).t k) Yh) := by
  have hkl : k < nl := by omega
  have h2 := a.nl_lt (show 0 < nf by omega)
  have hk64 : k < 2 ^ 64 := by omega
  unfold layerBody
  rw [a.off hf, toNat_ofNat hk64, get_ok (by rw [a.msize]; exact addr hf hkl), ok_bind,
    get_ok (by rw [a.ssize]; exact addr hf hkl), ok_bind, a.thick f w k hk, a.sigma f w k hkl, a.mu f w k hkl]
  simp only [ok_bind]
  rw [Col.t, tanhOf, Col.Y, Col.u, yOf, uOf, stepOf, k2, pow_two]
  rfl

/-- Buffer `b` with the first `m` cells written once, with the values `val`. -/
private def filled {α : Type} (b : Buf α) (val : ℕ → α) (m : ℕ) : Buf α :=
  ⟨b.size, fun j => if j < m then val j else b.data j, fun j => if j < m then b.writes j + 1 else b.writes j⟩

private theorem filled_set {α : Type} (b : Buf α) (val : ℕ → α) {m : ℕ} (hm : m < b.size) :
    (filled b val m).set m (val m) = .ok (filled b val (m + 1)) := by
  rw [set_ok (show m < (filled b val m).size from hm)]
  simp only [filled]
  congr 2
  · funext j
    rcases lt_trichotomy j m with h | h | h
    · rw [if_neg (by omega), if_pos h, if_pos (by omega)]
    · rw [if_pos h, if_pos (by omega), h]
    · rw [if_neg (by omega), if_neg (by omega), if_neg (by omega)]
  · funext j
    rcases lt_trichotomy j m with h | h | h
    · rw [if_neg (by omega), if_pos h, if_pos (by omega)]
    · rw [if_pos h, if_neg (by omega), if_pos (by omega)]
    · rw [if_neg (by omega), if_neg (by omega), if_neg (by omega)]

private theorem filled_zero {α : Type} (b : Buf α) (val : ℕ → α) : filled b val 0 = b := by
  simp [filled]

private theorem index {f w : ℕ} (hf : f < nf)
    (hw : w < nw) : w * nf + f < nf * nw := by
  have : (w + 1) * nf ≤ nw * nf := Nat.mul_le_mul_right _ hw
  nlinarith

private theorem freqBody_ok (a : Args c nf nw nl frequencies lambdas sigmas mus h) (mu0 : ℝ)
    (hmu : ∀ f w, (c f w).mu0 = mu0) (TE : Buf ℂ) (hTE : TE.size = nf * nw) {f w : ℕ} (hf : f < nf) (hw : w < nw)
    (fuel : ℕ) (hfuel : nl ≤ fuel) :
    freqBody mu0 frequencies sigmas mus h (BitVec.ofNat 64 nl) fuel (c f w).lamb ((c f w).lamb * (c f w).lamb)
      (BitVec.ofNat 64 f) (filled TE (fun j => forward (c (j % nf) (j / nf))) (w * nf + f), BitVec.ofNat 64 (w * nf + f)) =
    .ok (filled TE (fun j => forward (c (j % nf) (j / nf))) (w * nf + (f + 1)), BitVec.ofNat 64 (w * nf + (f + 1))) := by
  have hnl := a.nl_lt (show 0 < nf by omega)
  have hnp := a.nl_pos
  have hf64 : f < 2 ^ 64 := by have := a.small; nlinarith
  have hk : nl - 1 < nl := by omega
  have hi := index hf hw
  have hi64 : w * nf + f < 2 ^ 64 := lt_trans hi a.smallo
  unfold freqBody
  simp only
  rw [toNat_ofNat hf64, get_ok (by rw [a.fsize]; exact hf), ok_bind, a.last (by omega), a.off hf,
    get_ok (by rw [a.msize]; exact addr hf hk), ok_bind, get_ok (by rw [a.ssize]; exact addr hf hk), ok_bind,
    a.sigma f w _ hk, a.mu f w _ hk, a.omega f w hf]
  obtain ⟨Yh, hloop, hYh⟩ := cfor_down (BitVec.ofNat 64 nl) (by rw [toNat_ofNat hnl]; exact hnp)
    (layerBody sigmas mus h (BitVec.ofNat 64 f * BitVec.ofNat 64 nl) (c f w).omega ((c f w).lamb * (c f w).lamb))
    (fun i y => y = (c f w).yh i)
    (fun i hi s hs => ⟨_, layerBody_ok a hf (w := w) (by rw [toNat_ofNat hnl] at hi; exact hi) s, by
      rw [toNat_ofNat hnl] at hi
      rw [hs, ← Col.yh_succ _ (by rw [a.layers]; exact hi)]⟩)
    fuel (by rw [toNat_ofNat hnl]; exact hfuel) ((c f w).Y (nl - 1))
    (by rw [toNat_ofNat hnl, ← a.layers f w, Col.yh_n])
  rw [Col.Y, yOf, uOf, k2, pow_two] at hloop
  rw [hloop, ok_bind, toNat_ofNat hi64]
  have hval : ((c f w).lamb / (I * (c f w).omega * mu0) - Yh) / ((c f w).lamb / (I * (c f w).omega * mu0) + Yh) =
      (fun j => forward (c (j % nf) (j / nf))) (w * nf + f) := by
    have e1 : (w * nf + f) % nf = f := by rw [Nat.mul_add_mod', Nat.mod_eq_of_lt hf]
    have e2 : (w * nf + f) / nf = w := by
      rw [Nat.add_comm, Nat.add_mul_div_right _ _ (by omega), Nat.div_eq_of_lt hf, Nat.zero_add]
    simp only [e1, e2]
    rw [forward_eq, hYh, Col.Y0, hmu]
  rw [hval, filled_set _ _ (by rw [hTE]; exact hi), ok_bind]
  have e : BitVec.ofNat 64 (w * nf + f) + 1 = BitVec.ofNat 64 (w * nf + (f + 1)) := by
    apply BitVec.eq_of_toNat_eq; simp [BitVec.toNat_add, Nat.add_assoc]
  rw [e, Nat.add_assoc]
  rfl

private theorem rTE_ok (a : Args c nf nw nl frequencies lambdas sigmas mus h) (mu0 : ℝ)
    (hmu : ∀ f w, (c f w).mu0 = mu0) (hnf : 0 < nf) (TE : Buf ℂ) (hTE : TE.size = nf * nw) (fuel : ℕ)
    (h1 : nl ≤ fuel) (h2 : nf < fuel) (h3 : nw < fuel) :
    rTE mu0 TE frequencies lambdas sigmas mus h (BitVec.ofNat 64 nf) (BitVec.ofNat 64 nw) (BitVec.ofNat 64 nl) fuel =
      .ok (filled TE (fun j => forward (c (j % nf) (j / nf))) (nf * nw)) := by
  have hnf64 : nf < 2 ^ 64 := by have := a.small; have := a.nl_pos; nlinarith
  have hnw64 : nw < 2 ^ 64 := by have := a.smallo; nlinarith
  unfold rTE
  obtain ⟨s, hs, he⟩ := cfor_up (BitVec.ofNat 64 nw)
    (fun i_filt st => do
      let lam ← lambdas.get i_filt.toNat
      let l2 := lam * lam
      cfor (fun i => i < BitVec.ofNat 64 nf) (fun i => i + 1)
        (freqBody mu0 frequencies sigmas mus h (BitVec.ofNat 64 nl) fuel lam l2) fuel 0 st)
    (fun w st => st = (filled TE (fun j => forward (c (j % nf) (j / nf))) (w * nf), BitVec.ofNat 64 (w * nf)))
    (fun w hw s hs => by
      rw [toNat_ofNat hnw64] at hw
      rw [toNat_ofNat (by omega), get_ok (by rw [a.lsize]; exact hw), ok_bind]
      obtain ⟨s', hs', he'⟩ := cfor_up (BitVec.ofNat 64 nf)
        (freqBody mu0 frequencies sigmas mus h (BitVec.ofNat 64 nl) fuel (lambdas.data w)
          (lambdas.data w * lambdas.data w))
        (fun f st => st = (filled TE (fun j => forward (c (j % nf) (j / nf))) (w * nf + f), BitVec.ofNat 64 (w * nf + f)))
        (fun f hf s hs => by
          rw [toNat_ofNat hnf64] at hf
          refine ⟨_, ?_, rfl⟩
          rw [hs, a.lamb f w]
          exact freqBody_ok a mu0 hmu TE hTE hf hw fuel h1)
        fuel (by rw [toNat_ofNat hnf64]; exact h2) s (by rw [hs, Nat.add_zero])
      refine ⟨s', hs', ?_⟩
      rw [he', toNat_ofNat hnf64, Nat.add_one_mul])
    fuel (by rw [toNat_ofNat hnw64]; exact h3) (TE, 0) (by rw [Nat.zero_mul, filled_zero]; rfl)
  rw [hs, ok_bind, he, toNat_ofNat hnw64, Nat.mul_comm nw nf]
  rfl

/-! ### The gradient kernel -/

private structure Down (c : Col) (nl k : ℕ) (v : Scratch) : Prop where
  k2s : v.k2s.size = nl
  us : v.us.size = nl
  Yhs : v.Yhs.size = nl
  Ys : v.Ys.size = nl - 1
  tanhs : v.tanhs.size = nl - 1
  u : ∀ j, k ≤ j → j < nl → v.us.data j = c.u j
  yh : ∀ j, k ≤ j → j < nl → v.Yhs.data j = c.yh j
  Y : ∀ j, k ≤ j → j < nl - 1 → v.Ys.data j = c.Y j
  t : ∀ j, k ≤ j → j < nl - 1 → v.tanhs.data j = c.t j

private theorem succ_toNat {k : ℕ} (hk : k + 1 < 2 ^ 64) : (BitVec.ofNat 64 k + 1).toNat = k + 1 := by
  simp [BitVec.toNat_add]; omega

private theorem gradDown_ok (a : Args c nf nw nl frequencies lambdas sigmas mus h) {f w k : ℕ} (hf : f < nf)
    (hk : k < nl - 1) (v : Scratch) (hv : Down (c f w) nl (k + 1) v) :
    ∃ v', gradDown sigmas mus h (BitVec.ofNat 64 f * BitVec.ofNat 64 nl) (c f w).omega ((c f w).lamb * (c f w).lamb)
      (BitVec.ofNat 64 k) v = .ok v' ∧ Down (c f w) nl k v' := by
  have hkl : k < nl := by omega
  have h2 := a.nl_lt (show 0 < nf by omega)
  have hk64 : k < 2 ^ 64 := by omega
  have hu : Complex.sqrt (((c f w).lamb * (c f w).lamb : ℝ) - -I * (c f w).omega * (c f w).mu k * (c f w).sigma k) =
      (c f w).u k := by rw [Col.u, uOf, k2, pow_two]
  have hY : (c f w).u k / (I * (c f w).omega * (c f w).mu k) = (c f w).Y k := rfl
  have ht : Complex.tanh ((c f w).u k * (c f w).h k) = (c f w).t k := rfl
  unfold gradDown
  rw [a.off hf, succ_toNat (by omega), toNat_ofNat hk64, get_ok (by rw [a.msize]; exact addr hf hkl), ok_bind,
    get_ok (by rw [a.ssize]; exact addr hf hkl), ok_bind, a.thick f w k hk, a.sigma f w k hkl, a.mu f w k hkl,
    set_ok (by rw [hv.k2s]; exact hkl), ok_bind, get_ok (by rw [hv.k2s]; exact hkl), ok_bind]
  simp only [if_pos]
  rw [set_ok (by rw [hv.us]; exact hkl), ok_bind, get_ok (by rw [hv.us]; exact hkl), ok_bind]
  simp only [if_pos, hu]
  rw [set_ok (by rw [hv.Ys]; exact hk), ok_bind, ok_bind, set_ok (by rw [hv.tanhs]; exact hk), ok_bind,
    get_ok (by rw [hv.Ys]; exact hk), ok_bind, get_ok (by rw [hv.tanhs]; exact hk), ok_bind,
    get_ok (by rw [hv.Yhs]; omega), ok_bind, set_ok (by rw [hv.Yhs]; exact hkl), ok_bind]
  simp only [if_pos, hY, ht]
  rw [hv.yh (k + 1) le_rfl (by omega)]
  refine ⟨_, rfl, ⟨hv.k2s, hv.us, hv.Yhs, hv.Ys, hv.tanhs, fun j h1 h2 => ?_, fun j h1 h2 => ?_, fun j h1 h2 => ?_,
    fun j h1 h2 => ?_⟩⟩
  · dsimp only
    split_ifs with e
    · rw [e]
    · exact hv.u j (by omega) h2
  · dsimp only
    split_ifs with e
    · rw [e, Col.yh_succ (c f w) (k := k) (by rw [a.layers]; exact hk), stepOf]
    · exact hv.yh j (by omega) h2
  · dsimp only
    split_ifs with e
    · rw [e]
    · exact hv.Y j (by omega) h2
  · dsimp only
    split_ifs with e
    · rw [e]
    · exact hv.t j (by omega) h2

/-- The values the gradient kernel must leave in the flat output blocks. -/
private noncomputable def valS (c : ℕ → ℕ → Col) (nf nl j : ℕ) : ℂ :=
  (gradient (c (j / nl % nf) (j / nl / nf)) 0 0 0 0).dsigma (j % nl)

private noncomputable def valM (c : ℕ → ℕ → Col) (nf nl j : ℕ) : ℂ :=
  (gradient (c (j / nl % nf) (j / nl / nf)) 0 0 0 0).dmu (j % nl)

private noncomputable def valH (c : ℕ → ℕ → Col) (nf nl j : ℕ) : ℂ :=
  (gradient (c (j / (nl - 1) % nf) (j / (nl - 1) / nf)) 0 0 0 0).dh (j % (nl - 1))

private theorem digit {i k n : ℕ} (hk : k < n) : (i * n + k) / n = i ∧ (i * n + k) % n = k := by
  constructor
  · rw [Nat.add_comm, Nat.add_mul_div_right _ _ (by omega), Nat.div_eq_of_lt hk, Nat.zero_add]
  · rw [Nat.mul_add_mod', Nat.mod_eq_of_lt hk]

private theorem gradUp_ok (a : Args c nf nw nl frequencies lambdas sigmas mus h) {f w k : ℕ} (hf : f < nf) (hw : w < nw)
    (hsm : nl * nf * nw < 2 ^ 64)
    (hk : k < nl - 1) (v : Scratch) (hv : Down (c f w) nl 0 v) (S M H : Buf ℂ) (hS : S.size = nl * nf * nw)
    (hM : M.size = nl * nf * nw) (hH : H.size = (nl - 1) * nf * nw) (g : GradOut)
    (hg : g = ⟨(st (c f w) 0 0 0 0 k).gyh0, filled S (valS c nf nl) ((w * nf + f) * nl + k),
      filled M (valM c nf nl) ((w * nf + f) * nl + k),
      some (filled H (valH c nf nl) ((w * nf + f) * (nl - 1) + k))⟩) :
    gradUp sigmas mus h (BitVec.ofNat 64 f * BitVec.ofNat 64 nl) (BitVec.ofNat 64 (w * nf + f) * BitVec.ofNat 64 nl)
      (BitVec.ofNat 64 (w * nf + f) * (BitVec.ofNat 64 nl - 1)) (c f w).omega v (BitVec.ofNat 64 k) g =
    .ok ⟨(st (c f w) 0 0 0 0 (k + 1)).gyh0, filled S (valS c nf nl) ((w * nf + f) * nl + (k + 1)),
      filled M (valM c nf nl) ((w * nf + f) * nl + (k + 1)),
      some (filled H (valH c nf nl) ((w * nf + f) * (nl - 1) + (k + 1)))⟩ := by
  subst hg
  have hkl : k < nl := by omega
  have h2 := a.nl_lt (show 0 < nf by omega)
  have hk64 : k < 2 ^ 64 := by omega
  have hi := index hf hw
  have hi64 : w * nf + f < 2 ^ 64 := lt_trans hi a.smallo
  have hoS : (w * nf + f) * nl + k < nl * nf * nw := by
    have := addr (nf := nf * nw) hi hkl
    rwa [Nat.mul_assoc]
  have hoH : (w * nf + f) * (nl - 1) + k < (nl - 1) * nf * nw := by
    have := addr (nf := nf * nw) (nl := nl - 1) hi hk
    rwa [Nat.mul_assoc]
  have e1 : (BitVec.ofNat 64 (w * nf + f) * BitVec.ofNat 64 nl).toNat = (w * nf + f) * nl := by
    rw [BitVec.toNat_mul, toNat_ofNat hi64, toNat_ofNat h2, Nat.mod_eq_of_lt (by omega)]
  have e2 : (BitVec.ofNat 64 (w * nf + f) * (BitVec.ofNat 64 nl - 1)).toNat = (w * nf + f) * (nl - 1) := by
    have : (w * nf + f) * (nl - 1) ≤ (w * nf + f) * nl := Nat.mul_le_mul_left _ (by omega)
    rw [BitVec.toNat_mul, toNat_ofNat hi64, a.last (by omega), Nat.mod_eq_of_lt (by omega)]
  obtain ⟨d1, d2⟩ := digit (i := w * nf + f) hkl
  obtain ⟨d3, d4⟩ := digit (i := w) hf
  obtain ⟨d5, d6⟩ := digit (i := w * nf + f) hk
  have hkn : k < (c f w).n := by rw [a.layers]; exact hk
  obtain ⟨g1, g2, g3⟩ := gradient_lt (c f w) 0 0 0 0 hkn
  rw [st_succ] at g1 g2 g3
  simp only [gradBody, Function.update_self] at g1 g2 g3
  rw [yhArray_eq _ _ (show k + 1 ≤ (c f w).n from hkn)] at g1 g2 g3
  have vS : valS c nf nl ((w * nf + f) * nl + k) = (gradient (c f w) 0 0 0 0).dsigma k := by
    rw [valS, d1, d2, d3, d4]
  have vM : valM c nf nl ((w * nf + f) * nl + k) = (gradient (c f w) 0 0 0 0).dmu k := by
    rw [valM, d1, d2, d3, d4]
  have vH : valH c nf nl ((w * nf + f) * (nl - 1) + k) = (gradient (c f w) 0 0 0 0).dh k := by
    rw [valH, d5, d6, d3, d4]
  unfold gradUp
  rw [a.off hf, e1, e2, succ_toNat (by omega), toNat_ofNat hk64, get_ok (by rw [hv.Ys]; exact hk), ok_bind,
    get_ok (by rw [hv.Yhs]; omega), ok_bind, get_ok (by rw [hv.tanhs]; exact hk), ok_bind,
    get_ok (by rw [hv.us]; exact hkl), ok_bind, a.thick f w k hk, ok_bind,
    get_ok (by rw [a.msize]; exact addr hf hkl), ok_bind, get_ok (by rw [a.ssize]; exact addr hf hkl), ok_bind,
    a.sigma f w k hkl, a.mu f w k hkl, hv.yh _ (Nat.zero_le _) (show k + 1 < nl by omega), hv.u _ (Nat.zero_le _) hkl,
    hv.Y _ (Nat.zero_le _) hk, hv.t _ (Nat.zero_le _) hk]
  simp only
  rw [← g1, ← g2, ← g3, ← vS, ← vM, ← vH, setPtr]
  rw [filled_set _ _ (by rw [hH]; exact hoH)]
  change ((filled S _ _).set _ _ >>= _) = _
  rw [filled_set _ _ (by rw [hS]; exact hoS), ok_bind, filled_set _ _ (by rw [hM]; exact hoS), ok_bind]
  simp only [Nat.add_assoc]
  rw [st_succ]
  simp only [gradBody]
  rw [yhArray_eq _ _ (show k + 1 ≤ (c f w).n from hkn)]
  rfl

private structure Outer (c : ℕ → ℕ → Col) (nf nl : ℕ) (S M : Buf ℂ) (D : Option (Buf ℂ)) (m : ℕ) (g : GradState) :
    Prop where
  k2s : g.v.k2s.size = nl
  us : g.v.us.size = nl
  Yhs : g.v.Yhs.size = nl
  Ys : g.v.Ys.size = nl - 1
  tanhs : g.v.tanhs.size = nl - 1
  dsigma : g.dsigma = filled S (valS c nf nl) (m * nl)
  dmu : g.dmu = filled M (valM c nf nl) (m * nl)
  dh : g.dh = D.map fun H => filled H (valH c nf nl) (m * (nl - 1))
  i : g.i = BitVec.ofNat 64 m

private theorem gradFreq_ok (a : Args c nf nw nl frequencies lambdas sigmas mus h) (mu0 : ℝ)
    (hmu : ∀ f w, (c f w).mu0 = mu0) {f w : ℕ} (hf : f < nf) (hw : w < nw)
    (hsm : nl * nf * nw < 2 ^ 64) (S M : Buf ℂ) (D : Option (Buf ℂ)) (hS : S.size = nl * nf * nw)
    (hM : M.size = nl * nf * nw) (hD : 1 < nl → ∃ H, D = some H ∧ H.size = (nl - 1) * nf * nw)
    (fuel : ℕ) (hfuel : nl ≤ fuel) (g : GradState) (hg : Outer c nf nl S M D (w * nf + f) g) :
    ∃ g', gradFreq mu0 frequencies sigmas mus h (BitVec.ofNat 64 nl) fuel (c f w).lamb ((c f w).lamb * (c f w).lamb)
      (BitVec.ofNat 64 f) g = .ok g' ∧ Outer c nf nl S M D (w * nf + (f + 1)) g' := by
  have hnl := a.nl_lt (show 0 < nf by omega)
  have hnp := a.nl_pos
  have hf64 : f < 2 ^ 64 := by have := a.small; nlinarith
  have hk : nl - 1 < nl := by omega
  have hi := index hf hw
  have hi64 : w * nf + f < 2 ^ 64 := lt_trans hi a.smallo
  have hlast := a.last (show 0 < nf by omega)
  have e1 : (BitVec.ofNat 64 (w * nf + f) * BitVec.ofNat 64 nl).toNat = (w * nf + f) * nl := by
    have := addr (nf := nf * nw) hi hk
    rw [← Nat.mul_assoc] at this
    rw [BitVec.toNat_mul, toNat_ofNat hi64, toNat_ofNat hnl, Nat.mod_eq_of_lt (by omega)]
  have hoS : (w * nf + f) * nl + (nl - 1) < nl * nf * nw := by
    have := addr (nf := nf * nw) hi hk
    rwa [Nat.mul_assoc]
  have hu : Complex.sqrt (((c f w).lamb * (c f w).lamb : ℝ) -
      -I * (c f w).omega * (c f w).mu (nl - 1) * (c f w).sigma (nl - 1)) = (c f w).u (nl - 1) := by
    rw [Col.u, uOf, k2, pow_two]
  have hY : (c f w).u (nl - 1) / (I * (c f w).omega * (c f w).mu (nl - 1)) = (c f w).Y (nl - 1) := rfl
  unfold gradFreq
  simp only
  rw [toNat_ofNat hf64, get_ok (by rw [a.fsize]; exact hf), ok_bind, hlast, a.off hf,
    get_ok (by rw [a.msize]; exact addr hf hk), ok_bind, get_ok (by rw [a.ssize]; exact addr hf hk), ok_bind,
    a.sigma f w _ hk, a.mu f w _ hk, a.omega f w hf, hg.i, e1, set_ok (by rw [hg.k2s]; exact hk), ok_bind,
    get_ok (by rw [hg.k2s]; exact hk), ok_bind, set_ok (by rw [hg.us]; exact hk), ok_bind,
    get_ok (by rw [hg.us]; exact hk), ok_bind]
  simp only [if_pos, hu]
  rw [set_ok (by rw [hg.Yhs]; exact hk), ok_bind, hY]
  obtain ⟨v, hloop, hv⟩ := cfor_down (BitVec.ofNat 64 nl) (by rw [toNat_ofNat hnl]; exact hnp)
    (gradDown sigmas mus h (BitVec.ofNat 64 f * BitVec.ofNat 64 nl) (c f w).omega ((c f w).lamb * (c f w).lamb))
    (fun k v => Down (c f w) nl k v)
    (fun k hk v hv => gradDown_ok a hf (by rw [toNat_ofNat hnl] at hk; exact hk) v hv)
    fuel (by rw [toNat_ofNat hnl]; exact hfuel)
    ⟨⟨g.v.k2s.size, fun j => if j = nl - 1 then -I * (c f w).omega * (c f w).mu (nl - 1) * (c f w).sigma (nl - 1)
        else g.v.k2s.data j, fun j => if j = nl - 1 then g.v.k2s.writes j + 1 else g.v.k2s.writes j⟩,
      ⟨g.v.us.size, fun j => if j = nl - 1 then (c f w).u (nl - 1) else g.v.us.data j,
        fun j => if j = nl - 1 then g.v.us.writes j + 1 else g.v.us.writes j⟩,
      ⟨g.v.Yhs.size, fun j => if j = nl - 1 then (c f w).Y (nl - 1) else g.v.Yhs.data j,
        fun j => if j = nl - 1 then g.v.Yhs.writes j + 1 else g.v.Yhs.writes j⟩, g.v.Ys, g.v.tanhs⟩
    (by
      rw [toNat_ofNat hnl]
      refine ⟨hg.k2s, hg.us, hg.Yhs, hg.Ys, hg.tanhs, fun j h1 h2 => ?_, fun j h1 h2 => ?_, fun j h1 h2 => ?_,
        fun j h1 h2 => ?_⟩
      · have : j = nl - 1 := by omega
        simp [this]
      · have : j = nl - 1 := by omega
        simp only [this, if_pos]
        rw [← a.layers f w, Col.yh_n]
      · omega
      · omega)
  rw [hloop, ok_bind, get_ok (by rw [hv.Yhs]; omega), ok_bind, hv.yh 0 le_rfl (by omega)]
  obtain ⟨o, hup, ho⟩ := cfor_up (BitVec.ofNat 64 nl - 1)
    (gradUp sigmas mus h (BitVec.ofNat 64 f * BitVec.ofNat 64 nl) (BitVec.ofNat 64 (w * nf + f) * BitVec.ofNat 64 nl)
      (BitVec.ofNat 64 (w * nf + f) * (BitVec.ofNat 64 nl - 1)) (c f w).omega v)
    (fun k o => o = ⟨(st (c f w) 0 0 0 0 k).gyh0, filled S (valS c nf nl) ((w * nf + f) * nl + k),
      filled M (valM c nf nl) ((w * nf + f) * nl + k),
      D.map fun H => filled H (valH c nf nl) ((w * nf + f) * (nl - 1) + k)⟩)
    (fun k hk o ho => by
      rw [hlast] at hk
      obtain ⟨H, rfl, hH⟩ := hD (by omega)
      exact ⟨_, gradUp_ok a hf hw hsm hk v hv S M H hS hM hH o ho, rfl⟩)
    fuel (by rw [hlast]; omega)
    ⟨-2 * ((c f w).lamb / (I * (c f w).omega * mu0)) / (((c f w).lamb / (I * (c f w).omega * mu0) + (c f w).yh 0) *
      ((c f w).lamb / (I * (c f w).omega * mu0) + (c f w).yh 0)), g.dsigma, g.dmu, g.dh⟩
    (by
      rw [hg.dsigma, hg.dmu, hg.dh]
      simp only [st, upLoop, Nat.add_zero]
      rw [yhArray_eq _ _ (Nat.zero_le _), Col.Y0, hmu])
  rw [hup, ok_bind, get_ok (by rw [hv.Yhs]; exact hk), ok_bind, get_ok (by rw [hv.us]; exact hk), ok_bind,
    hv.yh _ (Nat.zero_le _) hk, hv.u _ (Nat.zero_le _) hk]
  rw [hlast] at ho
  subst ho
  obtain ⟨g1, g2⟩ := gradient_last (c f w) 0 0 0 0
  obtain ⟨d1, d2⟩ := digit (i := w * nf + f) hk
  obtain ⟨d3, d4⟩ := digit (i := w) hf
  rw [a.layers] at g1 g2
  have vS : (st (c f w) 0 0 0 0 (nl - 1)).gyh0 / (I * (c f w).omega * (c f w).mu (nl - 1)) * (-0.5) /
      (c f w).u (nl - 1) * (-I) * (c f w).omega * (c f w).mu (nl - 1) =
      valS c nf nl ((w * nf + f) * nl + (nl - 1)) := by
    rw [valS, d1, d2, d3, d4, g1]; ring
  have vM : (st (c f w) 0 0 0 0 (nl - 1)).gyh0 * (-(c f w).yh (nl - 1) / (c f w).mu (nl - 1)) +
      (st (c f w) 0 0 0 0 (nl - 1)).gyh0 / (I * (c f w).omega * (c f w).mu (nl - 1)) * (-0.5) /
      (c f w).u (nl - 1) * (-I) * (c f w).omega * (c f w).sigma (nl - 1) =
      valM c nf nl ((w * nf + f) * nl + (nl - 1)) := by
    rw [valM, d1, d2, d3, d4, g2]; ring
  simp only
  rw [vS, vM, filled_set _ _ (by rw [hS]; exact hoS), ok_bind, filled_set _ _ (by rw [hM]; exact hoS), ok_bind]
  have e3 : (w * nf + f) * nl + (nl - 1) + 1 = (w * nf + (f + 1)) * nl := by
    have : (w * nf + (f + 1)) * nl = (w * nf + f) * nl + nl := by ring
    omega
  have e4 : (w * nf + f) * (nl - 1) + (nl - 1) = (w * nf + (f + 1)) * (nl - 1) := by ring
  refine ⟨_, rfl, ⟨hv.k2s, hv.us, hv.Yhs, hv.Ys, hv.tanhs, ?_, ?_, ?_, ?_⟩⟩
  · rw [e3]
  · rw [e3]
  · rw [e4]
  · apply BitVec.eq_of_toNat_eq; simp [BitVec.toNat_add, Nat.add_assoc]

private theorem rTEgrad_ok (a : Args c nf nw nl frequencies lambdas sigmas mus h) (mu0 : ℝ)
    (hmu : ∀ f w, (c f w).mu0 = mu0) (hnf : 0 < nf)
    (hsm : nl * nf * nw < 2 ^ 64) (S M : Buf ℂ) (D : Option (Buf ℂ)) (hS : S.size = nl * nf * nw)
    (hM : M.size = nl * nf * nw) (hD : 1 < nl → ∃ H, D = some H ∧ H.size = (nl - 1) * nf * nw)
    (fuel : ℕ) (h1 : nl ≤ fuel) (h2 : nf < fuel) (h3 : nw < fuel) :
    rTEgrad mu0 S M D frequencies lambdas sigmas mus h (BitVec.ofNat 64 nf) (BitVec.ofNat 64 nw) (BitVec.ofNat 64 nl)
      fuel = .ok (filled S (valS c nf nl) (nl * nf * nw), filled M (valM c nf nl) (nl * nf * nw),
        D.map fun H => filled H (valH c nf nl) ((nl - 1) * nf * nw)) := by
  have hnf64 : nf < 2 ^ 64 := by have := a.small; have := a.nl_pos; nlinarith
  have hnw64 : nw < 2 ^ 64 := by have := a.smallo; nlinarith
  have hlast := a.last hnf
  unfold rTEgrad
  obtain ⟨s, hs, he⟩ := cfor_up (BitVec.ofNat 64 nw)
    (fun i_filt st => do
      let lam ← lambdas.get i_filt.toNat
      let l2 := lam * lam
      cfor (fun i => i < BitVec.ofNat 64 nf) (fun i => i + 1)
        (gradFreq mu0 frequencies sigmas mus h (BitVec.ofNat 64 nl) fuel lam l2) fuel 0 st)
    (fun w g => Outer c nf nl S M D (w * nf) g)
    (fun w hw s hs => by
      rw [toNat_ofNat hnw64] at hw
      rw [toNat_ofNat (by omega), get_ok (by rw [a.lsize]; exact hw), ok_bind]
      obtain ⟨s', hs', he'⟩ := cfor_up (BitVec.ofNat 64 nf)
        (gradFreq mu0 frequencies sigmas mus h (BitVec.ofNat 64 nl) fuel (lambdas.data w)
          (lambdas.data w * lambdas.data w))
        (fun f g => Outer c nf nl S M D (w * nf + f) g)
        (fun f hf s hs => by
          rw [toNat_ofNat hnf64] at hf
          rw [a.lamb f w]
          exact gradFreq_ok a mu0 hmu hf hw hsm S M D hS hM hD fuel h1 s hs)
        fuel (by rw [toNat_ofNat hnf64]; exact h2) s (by rwa [Nat.add_zero])
      refine ⟨s', hs', ?_⟩
      rwa [toNat_ofNat hnf64, ← Nat.add_one_mul] at he')
    fuel (by rw [toNat_ofNat hnw64]; exact h3)
    ⟨⟨newVec (BitVec.ofNat 64 nl), newVec (BitVec.ofNat 64 nl), newVec (BitVec.ofNat 64 nl),
      newVec (BitVec.ofNat 64 nl - 1), newVec (BitVec.ofNat 64 nl - 1)⟩, S, M, D, 0⟩
    (by
      refine ⟨toNat_ofNat (a.nl_lt hnf), toNat_ofNat (a.nl_lt hnf), toNat_ofNat (a.nl_lt hnf), hlast, hlast, ?_, ?_,
        ?_, ?_⟩
      · simp [filled_zero]
      · simp [filled_zero]
      · cases D <;> simp [filled_zero]
      · simp)
  simp only
  rw [hs, ok_bind]
  rw [toNat_ofNat hnw64] at he
  rw [he.dsigma, he.dmu, he.dh, show nw * nf * nl = nl * nf * nw by ring,
    show nw * nf * (nl - 1) = (nl - 1) * nf * nw by ring]
  rfl

end

/-! ## The wrappers -/

/-- The shapes agree with each other and the arrays are not empty; the output fits in memory. -/
structure Shapes (frequencies lamb : Vec1 ℝ) (sigma mu : Mat ℂ) (thicknesses : Vec1 ℝ) : Prop where
  sigma_rows : sigma.rows = thicknesses.len + 1
  sigma_cols : sigma.cols = frequencies.len
  mu_rows : mu.rows = thicknesses.len + 1
  mu_cols : mu.cols = frequencies.len
  nonempty_f : 0 < frequencies.len
  nonempty_w : 0 < lamb.len
  fits : (thicknesses.len + 1) * frequencies.len * lamb.len < 2 ^ 64

private theorem args_of {frequencies lamb : Vec1 ℝ} {sigma mu : Mat ℂ} {thicknesses : Vec1 ℝ}
    (hs : Shapes frequencies lamb sigma mu thicknesses) (mu0 : ℝ) :
    Args (column mu0 frequencies lamb sigma mu thicknesses) frequencies.len lamb.len sigma.rows
      frequencies.flat lamb.flat sigma.flat mu.flat (if 1 < sigma.rows then some thicknesses.flat else none) := by
  have hf := hs.fits
  have h1 := hs.nonempty_f
  have h2 := hs.nonempty_w
  have hlt : ∀ (f k n : ℕ), k < n → (f * n + k) % n = k ∧ (f * n + k) / n = f := by
    intro f k n hk
    exact ⟨(digit hk).2, (digit hk).1⟩
  refine ⟨?_, ?_, ?_, fun _ _ => ?_, rfl, rfl, ?_, ?_, fun _ _ _ => rfl, fun _ _ => rfl, fun f w k hk => ?_,
    fun f w k hk => ?_, fun f w k hk => ?_⟩
  · rw [hs.sigma_rows]; omega
  · rw [hs.sigma_rows]; nlinarith [Nat.zero_le ((thicknesses.len + 1) * frequencies.len)]
  · have : frequencies.len * lamb.len ≤ (thicknesses.len + 1) * (frequencies.len * lamb.len) :=
      Nat.le_mul_of_pos_left _ (by omega)
    rw [← Nat.mul_assoc] at this
    omega
  · rw [hs.sigma_rows]; rfl
  · change sigma.rows * sigma.cols = _; rw [hs.sigma_cols]
  · change mu.rows * mu.cols = _; rw [hs.mu_cols, hs.mu_rows, hs.sigma_rows]
  · change sigma.entry _ _ = sigma.entry k f
    rw [(hlt f k _ hk).1, (hlt f k _ hk).2]
  · change mu.entry _ _ = mu.entry k f
    rw [hs.mu_rows, ← hs.sigma_rows, (hlt f k _ hk).1, (hlt f k _ hk).2]
  · rw [if_pos (by omega)]
    change Buf.get _ k = _
    rw [get_ok (show k < thicknesses.len by rw [hs.sigma_rows] at hk; omega)]
    rfl

private theorem checkDims_ok {frequencies lamb : Vec1 ℝ} {sigma mu : Mat ℂ} {thicknesses : Vec1 ℝ}
    (hs : Shapes frequencies lamb sigma mu thicknesses) : checkDims frequencies sigma mu thicknesses = .ok () := by
  rw [checkDims, if_neg (by simp [hs.sigma_cols]), if_neg (by simp [hs.sigma_rows]),
    if_neg (by simp [hs.sigma_rows, hs.sigma_cols, hs.mu_rows, hs.mu_cols])]

/-- **C51.** On arrays that pass the shape checks the C++ forward kernel terminates without a fault and returns, for each
frequency and filter, the value of the Python kernel; nothing of the uninitialised output is left. -/
theorem cpp_forward (mu0 : ℝ) (frequencies lamb : Vec1 ℝ) (sigma mu : Mat ℂ) (thicknesses : Vec1 ℝ)
    (hs : Shapes frequencies lamb sigma mu thicknesses) (junk : ℕ → ℂ) (fuel : ℕ)
    (hfuel : thicknesses.len + 1 + frequencies.len + lamb.len ≤ fuel) :
    ∃ out, rTE_forward mu0 frequencies lamb sigma mu thicknesses junk fuel = .ok out ∧
      out.rows = frequencies.len ∧ out.cols = lamb.len ∧
      ∀ f < frequencies.len, ∀ w < lamb.len,
        out.entry f w = forward (column mu0 frequencies lamb sigma mu thicknesses f w) := by
  have a := args_of hs mu0
  have h1 := hs.nonempty_f
  have h2 := hs.nonempty_w
  unfold rTE_forward
  rw [checkDims_ok hs, ok_bind]
  simp only
  rw [if_neg (by omega), rTE_ok a mu0 (fun _ _ => rfl) h1 _ rfl fuel (by rw [hs.sigma_rows]; omega) (by omega) (by omega)]
  refine ⟨_, rfl, rfl, rfl, fun f hf w hw => ?_⟩
  have hi := index hf hw
  obtain ⟨d3, d4⟩ := digit (i := w) hf
  simp only [filled]
  rw [show f + frequencies.len * w = w * frequencies.len + f by ring, if_pos hi, d3, d4]

/-- **C51.** The C++ gradient kernel likewise. -/
theorem cpp_gradient (mu0 : ℝ) (frequencies lamb : Vec1 ℝ) (sigma mu : Mat ℂ) (thicknesses : Vec1 ℝ)
    (hs : Shapes frequencies lamb sigma mu thicknesses) (js jh jm : ℕ → ℂ) (fuel : ℕ)
    (hfuel : thicknesses.len + 1 + frequencies.len + lamb.len ≤ fuel) :
    ∃ ds dh dm, rTE_gradient mu0 frequencies lamb sigma mu thicknesses js jh jm fuel = .ok (ds, dh, dm) ∧
      ds.shape = (thicknesses.len + 1, frequencies.len, lamb.len) ∧
      dh.shape = (thicknesses.len, frequencies.len, lamb.len) ∧
      dm.shape = (thicknesses.len + 1, frequencies.len, lamb.len) ∧
      (∀ k ≤ thicknesses.len, ∀ f < frequencies.len, ∀ w < lamb.len,
        ds.entry k f w = (gradient (column mu0 frequencies lamb sigma mu thicknesses f w) 0 0 0 0).dsigma k ∧
        dm.entry k f w = (gradient (column mu0 frequencies lamb sigma mu thicknesses f w) 0 0 0 0).dmu k) ∧
      (∀ k < thicknesses.len, ∀ f < frequencies.len, ∀ w < lamb.len,
        dh.entry k f w = (gradient (column mu0 frequencies lamb sigma mu thicknesses f w) 0 0 0 0).dh k) := by
  have a := args_of hs mu0
  have h1 := hs.nonempty_f
  have h2 := hs.nonempty_w
  have hr := hs.sigma_rows
  unfold rTE_gradient
  rw [checkDims_ok hs, ok_bind]
  simp only
  rw [if_neg (by omega), rTEgrad_ok a mu0 (fun _ _ => rfl) h1 (by rw [hr]; exact hs.fits) _ _ _ rfl rfl
    (fun h => ⟨_, if_pos h, rfl⟩) fuel (by omega) (by omega) (by omega)]
  refine ⟨_, _, _, rfl, ?_, ?_, ?_, fun k hk f hf w hw => ?_, fun k hk f hf w hw => ?_⟩
  · rw [hr]
  · rw [hr]; rfl
  · rw [hr]
  · have hi := index hf hw
    have hk' : k < sigma.rows := by omega
    obtain ⟨d3, d4⟩ := digit (i := w) hf
    obtain ⟨d1, d2⟩ := digit (i := w * frequencies.len + f) hk'
    have hlt := addr (nf := frequencies.len * lamb.len) hi hk'
    rw [← Nat.mul_assoc] at hlt
    simp only [filled]
    rw [show k + sigma.rows * (f + frequencies.len * w) = (w * frequencies.len + f) * sigma.rows + k by ring, if_pos hlt,
      if_pos hlt, valS, valM, d1, d2, d3, d4]
    exact ⟨rfl, rfl⟩
  · have hi := index hf hw
    have hk' : k < sigma.rows - 1 := by omega
    obtain ⟨d3, d4⟩ := digit (i := w) hf
    obtain ⟨d1, d2⟩ := digit (i := w * frequencies.len + f) hk'
    have hlt := addr (nf := frequencies.len * lamb.len) hi hk'
    rw [← Nat.mul_assoc] at hlt
    rw [if_pos (show 1 < sigma.rows by omega)]
    simp only [Option.map_some, Option.getD_some, filled]
    rw [show k + (sigma.rows - 1) * (f + frequencies.len * w) = (w * frequencies.len + f) * (sigma.rows - 1) + k by ring,
      if_pos hlt, valH, d1, d2, d3, d4]

/-- **C51.** At kernel level: every output cell is written exactly once and the cells outside the range not at all. -/
theorem cpp_writes_once (mu0 : ℝ) (frequencies lamb : Vec1 ℝ) (sigma mu : Mat ℂ) (thicknesses : Vec1 ℝ)
    (hs : Shapes frequencies lamb sigma mu thicknesses) (junk : ℕ → ℂ) (fuel : ℕ)
    (hfuel : thicknesses.len + 1 + frequencies.len + lamb.len ≤ fuel) :
    ∃ out, rTE mu0 ⟨frequencies.len * lamb.len, junk, fun _ => 0⟩ frequencies.flat lamb.flat sigma.flat mu.flat
        (if 1 < sigma.rows then some thicknesses.flat else none) (BitVec.ofNat 64 frequencies.len)
        (BitVec.ofNat 64 lamb.len) (BitVec.ofNat 64 sigma.rows) fuel = .ok out ∧
      ∀ j, out.writes j = if j < frequencies.len * lamb.len then 1 else 0 := by
  have a := args_of hs mu0
  refine ⟨_, rTE_ok a mu0 (fun _ _ => rfl) hs.nonempty_f _ rfl fuel (by rw [hs.sigma_rows]; omega) (by omega) (by omega),
    fun j => ?_⟩
  simp [filled]

/-- **C51.** The same for the three outputs of the gradient kernel. -/
theorem cpp_gradient_writes_once (mu0 : ℝ) (frequencies lamb : Vec1 ℝ) (sigma mu : Mat ℂ) (thicknesses : Vec1 ℝ)
    (hs : Shapes frequencies lamb sigma mu thicknesses) (js jh jm : ℕ → ℂ) (fuel : ℕ)
    (hfuel : thicknesses.len + 1 + frequencies.len + lamb.len ≤ fuel) :
    ∃ ds dm dh, rTEgrad mu0 ⟨sigma.rows * frequencies.len * lamb.len, js, fun _ => 0⟩
        ⟨sigma.rows * frequencies.len * lamb.len, jm, fun _ => 0⟩
        (if 1 < sigma.rows then some ⟨(sigma.rows - 1) * frequencies.len * lamb.len, jh, fun _ => 0⟩ else none)
        frequencies.flat lamb.flat sigma.flat mu.flat (if 1 < sigma.rows then some thicknesses.flat else none)
        (BitVec.ofNat 64 frequencies.len) (BitVec.ofNat 64 lamb.len) (BitVec.ofNat 64 sigma.rows) fuel =
        .ok (ds, dm, dh) ∧
      (∀ j, ds.writes j = if j < sigma.rows * frequencies.len * lamb.len then 1 else 0) ∧
      (∀ j, dm.writes j = if j < sigma.rows * frequencies.len * lamb.len then 1 else 0) ∧
      (∀ b ∈ dh, ∀ j, b.writes j = if j < (sigma.rows - 1) * frequencies.len * lamb.len then 1 else 0) := by
  have a := args_of hs mu0
  have hr := hs.sigma_rows
  refine ⟨_, _, _, rTEgrad_ok a mu0 (fun _ _ => rfl) hs.nonempty_f (by rw [hr]; exact hs.fits) _ _ _ rfl rfl
    (fun h => ⟨_, if_pos h, rfl⟩) fuel (by omega) (by omega) (by omega), fun j => ?_, fun j => ?_, fun b hb j => ?_⟩
  · simp [filled]
  · simp [filled]
  · split_ifs at hb with h1
    · simp only [Option.map_some, Option.mem_def, Option.some.injEq] at hb
      rw [← hb]; simp [filled]
    · simp at hb

/-- **C51.** Arrays whose shapes do not agree are rejected with `ValueError` before the kernel runs, and empty ones with
`IndexError`. -/
theorem cpp_rejects (mu0 : ℝ) (frequencies lamb : Vec1 ℝ) (sigma mu : Mat ℂ) (thicknesses : Vec1 ℝ) (junk : ℕ → ℂ)
    (fuel : ℕ) :
    ((sigma.cols ≠ frequencies.len ∨ sigma.rows ≠ thicknesses.len + 1 ∨ mu.rows ≠ sigma.rows ∨ mu.cols ≠ sigma.cols) →
      rTE_forward mu0 frequencies lamb sigma mu thicknesses junk fuel = .error .valueError) ∧
    (sigma.cols = frequencies.len → sigma.rows = thicknesses.len + 1 → mu.rows = sigma.rows → mu.cols = sigma.cols →
      frequencies.len = 0 ∨ lamb.len = 0 →
      rTE_forward mu0 frequencies lamb sigma mu thicknesses junk fuel = .error .indexError) := by
  constructor
  · intro h
    have : checkDims frequencies sigma mu thicknesses = .error .valueError := by
      unfold checkDims
      split_ifs with a b d
      · rfl
      · rfl
      · rfl
      · exfalso
        simp only [ne_eq, Prod.mk.injEq, not_not] at a b d
        rcases h with h | h | h | h
        · exact h a.symm
        · exact h b
        · exact h d.1
        · exact h d.2
    unfold rTE_forward
    rw [this]; rfl
  · intro h1 h2 h3 h4 h5
    have : checkDims frequencies sigma mu thicknesses = .ok () := by
      rw [checkDims, if_neg (by simp [h1]), if_neg (by simp [h2]), if_neg (by simp [h3, h4])]
    unfold rTE_forward
    rw [this, ok_bind]
    simp only
    rw [if_pos h5]

/-- Non-vacuity: one frequency, two filters, three layers. -/
example : ∃ frequencies lamb sigma mu thicknesses, Shapes frequencies lamb sigma mu thicknesses ∧ thicknesses.len = 2 :=
  ⟨⟨1, fun _ => 1⟩, ⟨2, fun _ => 1⟩, ⟨3, 1, fun _ _ => 1⟩, ⟨3, 1, fun _ _ => 1⟩, ⟨2, fun _ => 1⟩,
    ⟨rfl, rfl, rfl, rfl, by norm_num, by norm_num, by norm_num⟩, rfl⟩

end Verif.RTE.Cpp
