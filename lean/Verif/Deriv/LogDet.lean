import Mathlib.Analysis.SpecialFunctions.Log.Basic

/-!
# The log determinant in `choldet` of `expt/deriv/flotsam/doinfo.f`

Simplifications: real arithmetic for `real*8`; the diagonal elements `x` of the decomposition, one for each row, are an argument; the two loops carry a fuel, `none` when it runs out.
-/

namespace Verif.Deriv.LogDet

/-- `expt/deriv/flotsam/doinfo.f:275-279` (`choldet`, label 40): `d1` and `d2`. -/
noncomputable def down : ℕ → ℝ → ℝ → Option (ℝ × ℝ)
  | 0, _, _ => none
  | fuel + 1, d1, d2 => if 1 ≤ |d1| then down fuel (d1 * 0.0625) (d2 + 4) else some (d1, d2)

/-- `expt/deriv/flotsam/doinfo.f:280-284` (`choldet`, label 60): `d1` and `d2`. -/
noncomputable def up : ℕ → ℝ → ℝ → Option (ℝ × ℝ)
  | 0, _, _ => none
  | fuel + 1, d1, d2 => if |d1| < 0.0625 then up fuel (d1 * 16) (d2 - 4) else some (d1, d2)

/-- `expt/deriv/flotsam/doinfo.f:275-284` (`choldet`): both loops. -/
noncomputable def norm (fuel : ℕ) (d1 d2 : ℝ) : Option (ℝ × ℝ) :=
  match down fuel d1 d2 with
  | none => none
  | some (a, b) => up fuel a b

/-- `expt/deriv/flotsam/doinfo.f:257-293` (`choldet`): the rows left, with their diagonal elements; `ok` and `ldet`. -/
noncomputable def rows (fuel : ℕ) : List ℝ → ℝ → ℝ → Option (Bool × ℝ)
  | [], d1, d2 => some (true, Real.log d1 + d2 * Real.log 2)
  | x :: l, d1, d2 =>
    if x ≤ 0 then some (false, 0)
    else
      match norm fuel (d1 * x) d2 with
      | none => none
      | some (a, b) => rows fuel l a b

/-- `expt/deriv/flotsam/doinfo.f:255-293` (`choldet`): `ok` and `ldet`. -/
noncomputable def choldet (fuel : ℕ) (xs : List ℝ) : Option (Bool × ℝ) := rows fuel xs 1 0

end Verif.Deriv.LogDet
