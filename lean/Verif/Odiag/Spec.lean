import Verif.Odiag.Odiag
import Mathlib.Analysis.SpecialFunctions.Complex.Circle
import Mathlib.Algebra.Order.Round

/-!
# Model of sandbox/odiag/output.f: `specvar`

`realft` is taken to give the discrete Fourier transform it documents; `lfit` is a parameter: from
the frequencies and values it gives the first coefficient and its variance.
-/

set_option linter.unusedSectionVars false

noncomputable section

namespace Verif.Odiag

/-- The length of the transform (sandbox/odiag/output.f:359-362); the constant `log2` is taken as exact. -/
def nftOf (ndat : ℕ) : ℕ :=
  let npow := ⌊Real.log ndat / Real.log 2⌋₊
  let nft := 2 ^ npow
  if nft < ndat then 2 * nft else nft

/-- The workspace: the data padded with their mean (sandbox/odiag/output.f:366-376). -/
def padded (ndat : ℕ) (x : ℕ → ℝ) (t : ℕ) : ℝ := if t < ndat then x t else loopSum x ndat / ndat

/-- The `k`th element of the transform of length `nft` (`realft`, called at sandbox/odiag/output.f:379). Elements `2k+1` and `2k+2` of the workspace are its real and imaginary parts, 0 < k < nft/2. -/
def dft (nft : ℕ) (w : ℕ → ℝ) (k : ℕ) : ℂ := ∑ t ∈ Finset.range nft, (w t : ℂ) * Complex.exp (2 * Real.pi * Complex.I * k * t / nft)

/-- Element `i` (from 1) of the transformed workspace, 2 < i (sandbox/odiag/output.f:379). -/
def packed (nft : ℕ) (w : ℕ → ℝ) (i : ℕ) : ℝ := if i % 2 = 1 then (dft nft w ((i - 1) / 2)).re else (dft nft w ((i - 2) / 2)).im

/-- The `n`th averaged power, `n` from 1 (sandbox/odiag/output.f:388-390). -/
def power (ndat nft : ℕ) (w : ℕ → ℝ) (n : ℕ) : ℝ :=
  let n1 := 4 * (n - 1) + 3
  0.5 * (packed nft w n1 ^ 2 + packed nft w (n1 + 1) ^ 2 + packed nft w (n1 + 2) ^ 2 + packed nft w (n1 + 3) ^ 2) / ndat

/-- The `n`th frequency (sandbox/odiag/output.f:397). -/
def freq (ndat n : ℕ) : ℝ := 0.5 * (4 * n - 1) / ndat

/-- `specvar`: the variance of the mean and the number of degrees of freedom (sandbox/odiag/output.f:311-415). -/
def specvar (lfit : List (ℝ × ℝ) → ℝ × ℝ) (ndat : ℕ) (x : ℕ → ℝ) : ℝ × ℤ :=
  if ndat < 4 * 25 then (0, 0)
  else
    let nft := nftOf ndat
    let w := padded ndat x
    if ∃ n ∈ List.range' 1 25, power ndat nft w n ≤ 0 then (0, -1)
    else
      let r := lfit ((List.range' 1 25).map fun n => (freq ndat n, Real.log (power ndat nft w n) + 0.270))
      let fac := Real.exp (-0.5 * 0.645 * r.2)
      (fac * Real.exp r.1 / ndat, round (2 / (1 / fac - 1)))

end Verif.Odiag
