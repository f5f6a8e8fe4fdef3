import Mathlib.Analysis.SpecialFunctions.Pow.Real
import Mathlib.Analysis.SpecialFunctions.Log.Basic
import Mathlib.Analysis.Real.Pi.Bounds

/-!
# The chi-square distribution function of `expt/mc/5tbl.c`

Simplifications: real arithmetic for `double`; `0.918938533204673` is `log(2π)/2`; `Phi` (lines 152-156, a series summed until it stops changing) is a parameter here; see `PhiSeries`.
-/

namespace Verif.MC.ChiSq

open Real

/-- `expt/mc/5tbl.c:165` (`chisq`, odd `n`): `for(i=1;i<=(n-2);i+=2){ t=t*z/i; s+=t;}`, `cnt` rounds from `i` on; the final `s`. -/
noncomputable def oddLoop (z : ℝ) : ℕ → ℕ → ℝ → ℝ → ℝ
  | 0, _, _, s => s
  | cnt + 1, i, t, s => oddLoop z cnt (i + 2) (t * z / i) (s + t * z / i)

/-- `expt/mc/5tbl.c:168` (`chisq`, even `n`): `for(i=1;i<n/2;i++) { t=t*h/i; s+=t;}`, `cnt` rounds from `i` on; the final `s`. -/
noncomputable def evenLoop (h : ℝ) : ℕ → ℕ → ℝ → ℝ → ℝ
  | 0, _, _, s => s
  | cnt + 1, i, t, s => evenLoop h cnt (i + 1) (t * h / i) (s + t * h / i)

/-- `expt/mc/5tbl.c:158-170` (`chisq`). -/
noncomputable def chisq (Phi : ℝ → ℝ) (z : ℝ) (n : ℕ) : ℝ :=
  if z ≤ 0 then 0
  else if 3000 < n then Phi ((exp (log (z / n) / 3) - 1 + 2 / (9 * n)) / √(2 / (9 * n)))
  else if n % 2 = 1 then
    let q := √z
    let t := 2 * exp (-(1 / 2) * z - log (2 * π) / 2) / q
    2 * Phi q - 1 - oddLoop z ((n - 1) / 2) 1 t 0
  else
    let h := 1 / 2 * z
    1 - (1 + evenLoop h (n / 2 - 1) 1 1 0) * exp (-h)

end Verif.MC.ChiSq
