import Verif.Count.OnOff

/-!
# The log gamma function of the counting code

Model of `gammln` in `package/inference/count/_cbmlike.f`, an approximation after Lanczos.  Double precision numbers are real numbers; the constants are the decimals in the file.
-/

namespace Verif.OnOff

/-- The array `cof`: _cbmlike.f:652-653. -/
def cof : List ℚ := [76.18009173, -86.50532033, 24.01409822, -1.231739516, 0.120858003e-2, -0.536382e-5]

/-- `stp`: _cbmlike.f:654. -/
def stp : ℚ := 2.50662827465

/-- The loop to label 10 over the members of `cof` that follow, with `x` and `ser`: _cbmlike.f:662-665. -/
noncomputable def serLoop : List ℚ → ℝ → ℝ → ℝ
  | [], _, ser => ser
  | c :: cs, x, ser => serLoop cs (x + 1) (ser + c / (x + 1))

/-- `gammln(xx)`: _cbmlike.f:642-669. -/
noncomputable def gammln (xx : ℝ) : ℝ :=
  let x := xx - 1
  let tmp := x + 5.5
  let tmp := (x + 0.5) * Real.log tmp - tmp
  let ser := serLoop cof x 1
  tmp + Real.log (stp * ser)

end Verif.OnOff
