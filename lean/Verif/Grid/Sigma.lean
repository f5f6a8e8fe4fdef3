import Mathlib.Analysis.SpecialFunctions.Log.Basic
import Mathlib.Analysis.SpecialFunctions.Trigonometric.Basic
import Mathlib.Analysis.SpecialFunctions.Pow.NNReal

/-!
# Model of the functions between probabilities and numbers of standard deviations (package/inference/grid/hpd.py:29-64, hpdgrid.py:29-64), for two dimensions

scipy's distribution of chi squared with two degrees of freedom is taken as documented: `chi2.cdf(x, 2)` is `1 - exp(-x/2)` for `x ≥ 0`, and `chi2.ppf` its inverse.
-/

set_option linter.unusedSectionVars false

noncomputable section

namespace Verif.Sigma

open Real

/-- `sig2prob(2, nsig)`: hpd.py:29-37, hpdgrid.py:29-37. -/
def sig2prob (nsig : ℝ) : ℝ := 1 - exp (-nsig ^ 2 / 2)

/-- `prob2sig(2, p)`: hpd.py:40-47, hpdgrid.py:40-47. -/
def prob2sig (p : ℝ) : ℝ := √(-2 * log (1 - p))

/-- `prob2dens(nd, p)` given `prob2sig(nd, p)`: hpd.py:50-55, hpdgrid.py:50-55, with `rt2pi` of line 25. -/
def prob2dens (sig : ℕ → ℝ → ℝ) (nd : ℕ) (p : ℝ) : ℝ := exp (-0.5 * nd * sig nd p ^ 2) / √(2 * π) ^ nd

end Verif.Sigma
