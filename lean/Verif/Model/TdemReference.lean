import Verif.Model.TdemSimple

/-! # Model of `geoana/em/tdem/reference.py` (equations of Ward and Hohmann) at one time and distance -/

namespace Verif.Tdem.Reference

open Real

/-- `hz_from_vert_4_69a`: em/tdem/reference.py:18-25. -/
noncomputable def hz (m theta rho : ℝ) : ℝ :=
  let front := m / (4 * π * rho ^ 3)
  let tp := theta * rho
  let erfTp := erf tp
  let inner1 := 9 / (2 * tp ^ 2) * erfTp
  let inner2 := erfTp
  let inner3 := (9 / tp + 4 * tp) / √π * exp (-tp ^ 2)
  front * (inner1 - inner2 - inner3)

/-- `dhz_from_vert_4_70`: em/tdem/reference.py:27-35. -/
noncomputable def dhz (m theta rho sigma mu : ℝ) : ℝ :=
  let front := -m / (2 * π * mu * sigma * rho ^ 5)
  let tp := theta * rho
  let erfTp := erf tp
  let inner1 := 9 * erfTp
  let inner2 := 2 * tp / √π * (9 + 6 * tp ^ 2 + 4 * tp ^ 4) * exp (-tp ^ 2)
  front * (inner1 - inner2)

/-- `hp_from_vert_4_72`: em/tdem/reference.py:37-41. -/
noncomputable def hp (m theta rho : ℝ) : ℝ :=
  let tp := theta * rho
  let first := -m * theta ^ 2 / (2 * π * rho)
  let second := besselIe 1 (tp ^ 2 / 2) - besselIe 2 (tp ^ 2 / 2)
  first * second

/-- `dhp_from_vert_4_74`: em/tdem/reference.py:43-48. -/
noncomputable def dhp (m theta rho t : ℝ) : ℝ :=
  let tp := theta * rho
  let front := m * theta ^ 2 / (2 * π * rho * t) * exp (-tp ^ 2 / 2)
  let inner1 := (1 + tp ^ 2) * besselI 0 (tp ^ 2 / 2)
  let inner2 := (2 + tp ^ 2 + 4 / tp ^ 2) * besselI 1 (tp ^ 2 / 2)
  front * (inner1 - inner2)

end Verif.Tdem.Reference
