import Verif.Py.FloatOps

/-! # Model of `dhp_from_vert_4_74` with the special values of floats and a Bessel function that may overflow -/

namespace Verif.Tdem.Reference

open Real

/-- `dhp_from_vert_4_74`: em/tdem/reference.py:43-48; `iv n` is `scipy.special.iv(n, ·)` on floats. -/
noncomputable def dhpF (iv : ℕ → PyFloat → PyFloat) (m theta rho t : ℝ) : PyFloat :=
  let tp := theta * rho
  let front := PyFloat.fin (m * theta ^ 2) / PyFloat.fin (2 * π * rho * t) * PyFloat.exp (.fin (-tp ^ 2 / 2))
  let inner1 := PyFloat.fin (1 + tp ^ 2) * iv 0 (.fin (tp ^ 2 / 2))
  let inner2 := (PyFloat.fin (2 + tp ^ 2) + PyFloat.fin 4 / PyFloat.fin (tp ^ 2)) * iv 1 (.fin (tp ^ 2 / 2))
  front * (inner1 - inner2)

end Verif.Tdem.Reference
