import Mathlib.Analysis.SpecialFunctions.Log.Basic
import Mathlib.Analysis.Real.Pi.Bounds

/-!
# The normal distribution function of `expt/mc/5tbl.c`

Simplifications: real arithmetic for `long double`, in which the loop would go on for ever (except at 0): the value is modelled after any number of rounds; `.91893853320467274178` is `log(2π)/2`.
-/

namespace Verif.MC.ChiSq

open Real

/-- The local variables `s`, `t`, `b` and `i`: `expt/mc/5tbl.c:153`. -/
structure PhiState where
  s : ℝ
  t : ℝ
  b : ℝ
  i : ℝ

/-- `expt/mc/5tbl.c:154` (`Phi`): one round, `s=(t=s)+(b*=x2/(i+=2))`. -/
noncomputable def phiStep (x2 : ℝ) (st : PhiState) : PhiState :=
  let i := st.i + 2
  let b := st.b * (x2 / i)
  ⟨st.s + b, st.s, b, i⟩

/-- `expt/mc/5tbl.c:153-154` (`Phi`): the state after `k` rounds. -/
noncomputable def phiRun (x : ℝ) : ℕ → PhiState
  | 0 => ⟨x, 0, x, 1⟩
  | k + 1 => phiStep (x * x) (phiRun x k)

/-- `expt/mc/5tbl.c:155` (`Phi`): the value if the loop is left after `k` rounds. -/
noncomputable def phi (k : ℕ) (x : ℝ) : ℝ := 1 / 2 + (phiRun x k).s * exp (-(1 / 2) * (x * x) - log (2 * π) / 2)

end Verif.MC.ChiSq
