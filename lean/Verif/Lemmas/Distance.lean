import Verif.Lemmas.Rotation

/-! # Distances are symmetric (helper lemma) -/

namespace Verif

theorem V3.len_sub_comm (p q : V3 ℝ) : (p - q).len = (q - p).len := by
  rw [← neg_sub q p, V3.len_neg]

end Verif
