import Verif.Common
import Mathlib.Analysis.SpecialFunctions.Trigonometric.Basic
import Mathlib.Analysis.SpecialFunctions.Log.Basic

/-!
# The Rayleigh statistic: the model

Models sandbox/point/periodic/_rayleigh.c.  Double precision numbers are real numbers.  Parsing of arguments, conversion of the arrays and reference counts are not modelled.  A division of a floating point number by zero, which in C gives an infinity or a NaN, is the outcome `none`.
-/

namespace Verif.Point

open Real

/-- `rayleigh`: _rayleigh.c:89-131; the result (S, C, P). -/
noncomputable def rayleigh (w : ℝ) (times : List ℝ) : Option (ℝ × ℝ × ℝ) :=
  let (S, C) := times.foldl (fun (s : ℝ × ℝ) t => (s.1 + sin (w * t), s.2 + cos (w * t))) (0, 0)
  if times.length = 0 then none else some (S, C, (S * S + C * C) / times.length)

/-- The entries of the four work arrays for one event. -/
structure Trig where
  sd : ℝ
  cd1 : ℝ
  swt : ℝ
  cwt : ℝ

/-- The set-up of the recurrences: _rayleigh.c:181-189. -/
noncomputable def trigInit (dw w_l t : ℝ) : Trig :=
  let dwt := dw * t
  let cd1 := sin (0.5 * dwt)
  { sd := sin dwt, cd1 := -2 * cd1 * cd1, swt := sin (w_l * t), cwt := cos (w_l * t) }

/-- The recurrence for one event: _rayleigh.c:211-213. -/
noncomputable def trigNext (x : Trig) : Trig :=
  let temp := x.cwt
  let cwt := x.cwt + (x.cwt * x.cd1 - x.swt * x.sd)
  { x with cwt := cwt, swt := x.swt + (x.swt * x.cd1 + temp * x.sd) }

/-- The loop over frequencies: _rayleigh.c:200-216, for `n` more frequencies. -/
noncomputable def gridLoop (ndat : ℕ) (dw : ℝ) : ℕ → ℝ → List Trig → List (ℝ × ℝ)
  | 0, _, _ => []
  | n + 1, w, xs =>
    let (S, C) := xs.foldl (fun (s : ℝ × ℝ) x => (s.1 + x.swt, s.2 + x.cwt)) (0, 0)
    (w, (S * S + C * C) / ndat) :: gridLoop ndat dw n (w + dw) (xs.map trigNext)

/-- `rsgrid`: _rayleigh.c:142-236; the pairs of members of `wvals` and `powers`. -/
noncomputable def rsgrid (nw : ℕ) (w_l w_u : ℝ) (times : List ℝ) : Option (List (ℝ × ℝ)) :=
  if nw = 1 ∨ times.length = 0 then none
  else
    let dw := (w_u - w_l) / (nw - 1)
    some (gridLoop times.length dw nw w_l (times.map (trigInit dw w_l)))

/-- `lbessi0`: _rayleigh.c:269-289. -/
noncomputable def lbessi0 (x : ℝ) : ℝ :=
  let ax := |x|
  if ax < 3.75 then
    let y := x / 3.75
    let y := y * y
    log (1.0 + y * (3.5156229 + y * (3.0899424 + y * (1.2067492 + y * (0.2659732 + y * (0.360768e-1 + y * 0.45813e-2))))))
  else
    let y := 3.75 / ax
    ax + log ((0.39894228 + y * (0.1328592e-1 + y * (0.225319e-2 + y * (-0.157565e-2 + y * (0.916281e-2 + y * (-0.2057706e-1 + y * (0.2635537e-1 + y * (-0.1647633e-1 + y * 0.392377e-2)))))))) / √ax)

/-- `lml_wk`: _rayleigh.c:245-262. -/
noncomputable def lmlWk (k : ℝ) (n : ℤ) (S : ℝ) : ℝ := lbessi0 (k * S) - n * lbessi0 k

end Verif.Point
