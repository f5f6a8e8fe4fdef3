import Verif.Grid.GridQuad
import Verif.Grid.BasicGrid
import Verif.Utils.Steppers

/-!
# Highest posterior density regions

Model of `HPD1D` and `HPD2D`, `package/inference/grid/hpd.py`.  The root finder (`zbracket` and scipy's `brentq`, hpd.py:160-174) is not part of this model: the
part of `critlevel` after it is a function of the log ratio it returned.  Arrays are lists, so that the check of the array's dimension (hpd.py:109-110) is
represented by the type; the step argument is a flag, so that "Invalid step type!" cannot occur.
-/

set_option linter.unusedSectionVars false

namespace Verif.HPD

open Verif.Grid1 (LogExp listMax)
open Verif.Num (linStepper logStepper)

variable {K : Type} [Field K] [LinearOrder K] [IsStrictOrderedRing K]

/-- `spdf.min()` of a non-empty array. -/
def listMin : List K → K
  | [] => 0
  | a :: l => l.foldl min a

/-- An `HPD1D` object. `lml` is `none` when the logarithm taken is not finite. `probs`, `deltas`, `levels`, `bounds` are the lists `critlevel` appends to. -/
structure H1 (K : Type) where
  logpdf : List K
  xvals : List K
  dx : K
  lin : Bool
  max : K
  spdf : List K
  snorm : K
  lml : Option K
  probs : List K := []
  deltas : List K := []
  levels : List K := []
  bounds : List (List K) := []

/-- Scaled density: hpd.py:125-129. -/
def scaled (c : LogExp K) (logpdf xvals : List K) (lin : Bool) : List K :=
  let e := logpdf.map fun v => c.ex (v - listMax logpdf)
  if lin then e else List.zipWith (fun p x => p * x) e xvals

/-- `log(y)` of numpy: not finite for `y <= 0`. -/
def flog (c : LogExp K) (y : K) : Option K := if 0 < y then some (c.lg y) else none

/-- `HPD1D.__init__`: hpd.py:94-137.  An empty array makes `max()` raise (124); one point makes the spacing's denominator zero, which raises for linear steps
(`lin_stepper`, 116) and, for logarithmic steps, gives a spacing that is not finite: the model returns an error in both cases. -/
def H1.init (c : LogExp K) (logpdf : List K) (xlo xhi : K) (lin : Bool) : Except Err (H1 K) :=
  let n : ℤ := logpdf.length
  match if lin then linStepper xlo xhi n else logStepper c xlo xhi n with
  | .error e => .error e
  | .ok xvals =>
    if logpdf = [] then .error .value
    else if n = 1 then .error .zeroDiv
    else
      let dx := if lin then (xhi - xlo) / ((n : K) - 1) else c.lg (xhi / xlo) / ((n : K) - 1)
      let mx := listMax logpdf
      let spdf := scaled c logpdf xvals lin
      let snorm := qgt1d spdf (listMin spdf) * dx
      .ok { logpdf := logpdf, xvals := xvals, dx := dx, lin := lin, max := mx, spdf := spdf, snorm := snorm, lml := (flog c snorm).map (· + mx) }

/-- `norm`: hpd.py:139-146. -/
def H1.norm (c : LogExp K) (h : H1 K) : Option K := (flog c h.snorm).map (· + h.max)

/-- `fracgt`: hpd.py:148-153. -/
def H1.fracgt (c : LogExp K) (h : H1 K) (logratio : K) : Except Err K :=
  if h.snorm = 0 then .error .zeroDiv else .ok (qgt1d h.spdf (c.ex logratio) * h.dx / h.snorm)

/-- `critlevel` after the root finder has returned `logratio` for the target `p`: hpd.py:176-185; the answer is the boundaries,
of which `xvals` has room for 10. -/
def H1.critlevelTail (h : H1 K) (p logratio : K) : H1 K × Except Err (List K) :=
  let h := { h with probs := h.probs ++ [p], deltas := h.deltas ++ [logratio], levels := h.levels ++ [h.max + logratio] }
  let r := xvalues h.xvals (h.logpdf.map (· - h.max)) logratio 10
  if r.ok = false then (h, .error .runtime)
  else
    let b := (r.vals.take 10).take r.nx
    ({ h with bounds := h.bounds ++ [b] }, .ok b)

/-- `sig2ratio(nd, nsig)`: hpd.py:67-72. -/
def sig2ratio (c : LogExp K) (nd : ℕ) (nsig : K) : K := c.ex (-(1 / 2) * nd * nsig ^ 2)

/-- An `HPD2D` object (fields that matter for `fracgt`). -/
structure H2 (K : Type) where
  dx : K
  dy : K
  max : K
  spdf : List (List K)
  norm : K
  lml : Option K

/-- hpd.py:214-223, 226-235: abscissas and spacing in one direction. -/
def axis (c : LogExp K) (lo hi : K) (n : ℤ) (lin : Bool) : Except Err (List K × K) :=
  match if lin then linStepper lo hi n else logStepper c lo hi n with
  | .error e => .error e
  | .ok xs => if n = 1 then .error .zeroDiv else .ok (xs, if lin then (hi - lo) / ((n : K) - 1) else c.lg (hi / lo) / ((n : K) - 1))

/-- hpd.py:239-241: every row times its abscissa. -/
def scaleRows (e : List (List K)) (xs : List K) : List (List K) := List.zipWith (fun r x => r.map (· * x)) e xs
/-- hpd.py:242-244: every column times its abscissa. -/
def scaleCols (e : List (List K)) (ys : List K) : List (List K) := e.map fun r => List.zipWith (· * ·) r ys

/-- hpd.py:236-244. -/
def scaled2 (c : LogExp K) (logpdf : List (List K)) (xs ys : List K) (xlin ylin : Bool) : List (List K) :=
  let e := logpdf.map fun r => r.map fun v => c.ex (v - listMax logpdf.flatten)
  let e := if xlin then e else scaleRows e xs
  if ylin then e else scaleCols e ys

/-- `HPD2D.__init__`: hpd.py:208-251; the array has `ny` columns. -/
def H2.init (c : LogExp K) (logpdf : List (List K)) (ny : ℕ) (xlo xhi ylo yhi : K) (xlin ylin : Bool) : Except Err (H2 K) :=
  match axis c xlo xhi logpdf.length xlin with
  | .error e => .error e
  | .ok (xs, dx) =>
    match axis c ylo yhi ny ylin with
    | .error e => .error e
    | .ok (ys, dy) =>
      if logpdf.flatten = [] then .error .value
      else
        let mx := listMax logpdf.flatten
        let spdf := scaled2 c logpdf xs ys xlin ylin
        let norm := qgt2d spdf (listMin spdf.flatten) * dx * dy
        .ok { dx := dx, dy := dy, max := mx, spdf := spdf, norm := norm, lml := (flog c norm).map (· + mx) }

/-- `fracgt`: hpd.py:253-258. -/
def H2.fracgt (c : LogExp K) (h : H2 K) (logratio : K) : Except Err K :=
  if h.norm = 0 then .error .zeroDiv else .ok (qgt2d h.spdf (c.ex logratio) * h.dx * h.dy / h.norm)

end Verif.HPD
