import Verif.Common
import Mathlib.Analysis.SpecialFunctions.Pow.Real

/-!
# Integrands mapped to an exponential or power law argument: expt/integrate/exp_map.py, expt/integrate/pl_map.py

Over the reals.  The module variables `alpha`, `beta` (with `beta1 = 1 - beta`), `range` and `mid` are arguments; a function that is called without an argument gets the module variable.
-/

set_option linter.unusedSectionVars false

namespace Verif.Integrate.Maps

open Real

/-- `y_x(x, alpha)`: exp_map.py:18-19. -/
noncomputable def expY (alpha x : ℝ) : ℝ := exp (alpha * x) / alpha

/-- `x_y(y, alpha)`: exp_map.py:21-22. -/
noncomputable def expX (alpha y : ℝ) : ℝ := log (alpha * y) / alpha

/-- `rexp(x, range)` with the module variable `alpha`: exp_map.py:24-28. -/
noncomputable def rollExp (alpha range x : ℝ) : ℝ := exp ((alpha + 2 / 10 * (x - 5 / 10 * range) / range) * x)

/-- `rexp_map(y, alpha, range)` with the module variable `alpha0`: exp_map.py:30-35.  `x_y(y)` is called without the argument. -/
noncomputable def rollExpMap (alpha0 alpha range y : ℝ) : ℝ :=
  let x := expX alpha0 y
  exp ((alpha + 2 / 10 * (x - 5 / 10 * range) / range) * x) / exp (alpha * x)

/-- `y_x(x, beta1)`: pl_map.py:21-22. -/
noncomputable def plY (beta1 x : ℝ) : ℝ := x ^ beta1 / beta1

/-- `x_y(y, beta1)`: pl_map.py:24-26. -/
noncomputable def plX (beta1 y : ℝ) : ℝ := exp (log (beta1 * y) / beta1)

/-- `roll(x, beta, mid)`: pl_map.py:28-33. -/
noncomputable def roll (beta mid x : ℝ) : ℝ := (x / mid) ^ (-beta + 5 / 10) / (1 + x / mid)

/-- `roll_map(y, beta, range, mid)` with the module variables `beta0`, `mid0`: pl_map.py:35-40.  `x_y(y)` and `roll(x)` are called without the arguments. -/
noncomputable def rollMap (beta0 mid0 beta _mid y : ℝ) : ℝ :=
  let x := plX (1 - beta0) y
  roll beta0 mid0 x * x ^ beta

end Verif.Integrate.Maps
