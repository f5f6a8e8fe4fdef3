import Verif.MC.FiveTable
import Mathlib.Analysis.Complex.Exponential

/-!
# The Poisson table of `expt/mc/5tbl.c`

Simplifications: real arithmetic for `double`; loops take fuel and give `none` when it runs out; `int` is unbounded; `lam` is not negative.
-/

namespace Verif.MC.FiveTable

/-- `expt/mc/5tbl.c:63` (`PoissP`, `lam>=21.4`): `for(i=1;i<=nlam;i++) t*=(c/i)`, `cnt` rounds from `i` on. -/
noncomputable def poissProd (c : ℝ) : ℕ → ℕ → ℝ → ℝ
  | 0, _, t => t
  | cnt + 1, i, t => poissProd c cnt (i + 1) (t * (c / i))

/-- `expt/mc/5tbl.c:67-69` (`PoissP`, `lam>=21.4`): `offset`; `i+1` here is the code's `i` before the step. -/
noncomputable def poissDown (lam : ℝ) : ℕ → ℝ → ℕ
  | 0, _ => 0
  | i + 1, t =>
    let t := t * (((i : ℝ) + 1) / lam)
    if t * 2147483648 < 1 then i + 1 else poissDown lam i t

/-- `expt/mc/5tbl.c:74-75` (`PoissP`, `lam>=21.4`): the entries below `nlam`, put in front. -/
noncomputable def poissDownP (lam : ℝ) (offset : ℕ) : ℕ → ℝ → List ℕ → List ℕ
  | 0, _, acc => acc
  | i + 1, t, acc =>
    if offset ≤ i then poissDownP lam offset i (t * (((i : ℝ) + 1) / lam)) (⌊t * (((i : ℝ) + 1) / lam) * 1073741824 + 1 / 2⌋₊ :: acc) else acc

/-- `expt/mc/5tbl.c:49-77` (`PoissP`): the array `P` and the static `offset`, from `offset` as it was before.  The loop of line 65 is that of line 53 (`poissSize`, which gives `i-1`; `last` is `i-2`). -/
noncomputable def PoissP (fuel : ℕ) (lam : ℝ) (offset : ℕ) : Option (List ℕ × ℕ) :=
  if lam < 21.4 then poissP fuel lam (Real.exp (-lam)) offset
  else
    let nlam := ⌊lam⌋₊
    let c := lam * Real.exp (-lam / nlam)
    let p := poissProd c nlam 1 1
    match poissSize lam fuel (nlam + 1) p with
    | none => none
    | some i' =>
      let last := i' - 1
      let offset := poissDown lam nlam p
      some (poissDownP lam offset nlam p (⌊p * 1073741824 + 1 / 2⌋₊ :: poissFill lam (last - nlam) (nlam + 1) p), offset)

end Verif.MC.FiveTable
