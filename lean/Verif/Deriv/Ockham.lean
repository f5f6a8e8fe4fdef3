import Mathlib.Analysis.SpecialFunctions.Log.Basic
import Mathlib.Analysis.SpecialFunctions.Trigonometric.Basic

/-!
# The Ockham factor in `expt/deriv/flotsam/doinfo.f`

Simplifications: real arithmetic for `real*8`, with `π` for its digits; `choldet` and `eigens` are not part of this model: their results `ok`, `ldet` and `evals` are arguments; the eigenvalues are a list, of length `npar`.
-/

namespace Verif.Deriv.Ockham

/-- `expt/deriv/flotsam/doinfo.f:120-126` (`doinfo`, loop 75): `ldet` and `posev` after the eigenvalues given. -/
noncomputable def evLoop : List ℝ → ℝ → Bool → ℝ × Bool
  | [], ldet, posev => (ldet, posev)
  | e :: l, ldet, posev => if e ≤ 0 then evLoop l ldet false else evLoop l (ldet - Real.log e) posev

/-- `expt/deriv/flotsam/doinfo.f:115-127` (`doinfo`): `ldet` and `posev`, from their values before. -/
noncomputable def ldetV (ok : Bool) (ldet : ℝ) (posev : Bool) (evals : List ℝ) : ℝ × Bool :=
  if ok then (-ldet, posev) else evLoop evals 0 true

/-- `expt/deriv/flotsam/doinfo.f:128` (`doinfo`): `lockham`. -/
noncomputable def lockham (npar : ℕ) (ldet : ℝ) : ℝ := 0.5 * npar * Real.log (2 * Real.pi) + 0.5 * ldet

/-- `expt/deriv/flotsam/doinfo.f:2-3,115-128` (`doinfo`): what the caller finds in `lockham` and `posev`; `posev` is what the caller had in it, `ldet` comes from `choldet`. -/
noncomputable def doinfo (ok : Bool) (ldet : ℝ) (posev : Bool) (evals : List ℝ) : ℝ × Bool :=
  (lockham evals.length (ldetV ok ldet posev evals).1, (ldetV ok ldet posev evals).2)

/-- `expt/deriv/flotsam/doinfo.f:49,144-145` (`doinfo`): the rows `mode` and `tmode` of the report; `tran` is `xttran`. -/
def modeRows {α : Type*} (_tran : α → α) (xval : List α) : List α × List α := (xval, xval)

end Verif.Deriv.Ockham
