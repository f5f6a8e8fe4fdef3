import Verif.Grid.Hpd
import Verif.Utils.NumUtils

/-!
# Critical levels, and densities given by a function

Model of the search in `critlevel` of `HPD1D` and `HPD2D`, `package/inference/grid/hpd.py:155-192, 260-289`, and of the constructors of `HPDGrid1D` and `HPDGrid2D`,
`package/inference/grid/hpdgrid.py`, whose methods are copies of those in `hpd.py` (hpdgrid.py:148-201, 271-307 for hpd.py:139-191, 253-289).
-/

set_option linter.unusedSectionVars false

namespace Verif.HPD

open Verif.Grid1 (LogExp listMax)
open Verif.Num (linStepper logStepper zbracket)

variable {K : Type} [Field K] [LinearOrder K] [IsStrictOrderedRing K]

/-- What the search uses from scipy: the distribution function of chi squared with `nd` degrees of freedom and its inverse, and the root finder `brentq(f, a, b, xtol)` with its relative tolerance. -/
structure Scipy (K : Type) where
  cdf : K → ℕ → K
  ppf : K → ℕ → K
  sqrt : K → K
  rtol : K
  brentq : (K → K) → K → K → K → Except Err K

/-- `prob2ratio(nd, p)`: hpd.py:57-63. -/
def prob2ratio (s : Scipy K) (c : LogExp K) (nd : ℕ) (p : K) : K := c.ex (-(1 / 2) * nd * s.sqrt (s.ppf p nd) ^ 2)

/-- The target probability and the first guess: hpd.py:161-169 (268-275 in two dimensions, also with one degree of freedom).  `snsig` and `p` count as absent when they are zero, except that a `p` of zero is used
when there is no `snsig`; without both, scipy raises `TypeError`. -/
def guess (s : Scipy K) (c : LogExp K) (p snsig : Option K) : Except Err (K × K) :=
  match snsig.filter (· ≠ 0) with
  | some sg =>
    match p.filter (· ≠ 0) with
    | some _ => .error .value
    | none => .ok (s.cdf (sg ^ 2) 1, c.lg (sig2ratio c 1 sg))
  | none =>
    match p with
    | some p => .ok (p, c.lg (prob2ratio s c 1 p))
    | none => .error .type

/-- `_diff(logratio)`: hpd.py:187-191.  (`fracgt` raises for every argument or for none.) -/
def diff (F : K → Except Err K) (target t : K) : K :=
  match F t with
  | .ok v => v - target
  | .error _ => 0

/-- The search of `critlevel`: hpd.py:160-175 (267-281), from `fracgt` to the target probability and the log ratio.  `zbracket` is called with its default 50 tries and expansion 1.6. -/
def search (s : Scipy K) (c : LogExp K) (F : K → Except Err K) (p snsig : Option K) (tol : K) : Except Err (K × K) :=
  match guess s c p snsig with
  | .error e => .error e
  | .ok (p, lr1) =>
    match F lr1 with
    | .error e => .error e
    | .ok _ =>
      match (zbracket (diff F p) lr1 (lr1 - 1 / 10) none 50 (8 / 5)).1 with
      | .error e => .error e
      | .ok (a, b) => (s.brentq (diff F p) a b tol).map fun r => (p, r)

/-- `HPD1D.critlevel(p, snsig, tol)`: hpd.py:155-185; the object and the log ratio and boundaries. -/
def H1.critlevel (s : Scipy K) (c : LogExp K) (h : H1 K) (p snsig : Option K) (tol : K) : H1 K × Except Err (K × List K) :=
  match search s c (h.fracgt c) p snsig tol with
  | .error e => (h, .error e)
  | .ok (p, r) => ((h.critlevelTail p r).1, (h.critlevelTail p r).2.map fun b => (r, b))

/-- `HPD2D.critlevel(p, snsig, tol)`: hpd.py:260-285; what it appends to `probs`, `deltas`, `levels`, and the log ratio it returns. -/
def H2.critlevel (s : Scipy K) (c : LogExp K) (h : H2 K) (p snsig : Option K) (tol : K) : Except Err (K × K × K) :=
  (search s c (h.fracgt c) p snsig tol).map fun q => (q.1, q.2, h.max + q.2)

/-- The step argument: hpd.py:114-122. -/
def stepFlag (step : String) : Except Err Bool :=
  if step = "linear" ∨ step = "lin" then .ok true
  else if step = "log" ∨ step = "logarithmic" then .ok false
  else .error .value

/-- `HPDGrid1D.__init__`: hpdgrid.py:97-146, for a function that does not raise; the array of `zeros(nx)` is filled from the list of abscissas, which has `nx` members.  For `nx = 1` with logarithmic steps the
spacing is not finite; the model returns an error.  A negative number makes `zeros` raise, zero makes `max()` raise. -/
def G1.init (c : LogExp K) (f : K → K) (xlo xhi : K) (nx : ℤ) (step : String) : Except Err (H1 K) :=
  match stepFlag step with
  | .error e => .error e
  | .ok lin =>
    match if lin then linStepper xlo xhi nx else logStepper c xlo xhi nx with
    | .error e => .error e
    | .ok xvals =>
      if nx = 1 then .error .zeroDiv
      else if nx ≤ 0 then .error .value
      else
        let logpdf := xvals.map f
        let dx := if lin then (xhi - xlo) / ((nx : K) - 1) else c.lg (xhi / xlo) / ((nx : K) - 1)
        let mx := listMax logpdf
        let spdf := scaled c logpdf xvals lin
        let snorm := qgt1d spdf (listMin spdf) * dx
        .ok { logpdf := logpdf, xvals := xvals, dx := dx, lin := lin, max := mx, spdf := spdf, snorm := snorm, lml := (flog c snorm).map (· + mx) }

/-- `HPDGrid2D.__init__`: hpdgrid.py:222-269. -/
def G2.init (c : LogExp K) (f : K → K → K) (xlo xhi : K) (nx : ℤ) (ylo yhi : K) (ny : ℤ) (xstep ystep : String) : Except Err (H2 K) :=
  match stepFlag xstep with
  | .error e => .error e
  | .ok xlin =>
    match axis c xlo xhi nx xlin with
    | .error e => .error e
    | .ok (xs, dx) =>
      match stepFlag ystep with
      | .error e => .error e
      | .ok ylin =>
        match axis c ylo yhi ny ylin with
        | .error e => .error e
        | .ok (ys, dy) =>
          if nx ≤ 0 ∨ ny ≤ 0 then .error .value
          else
            let logpdf := xs.map fun x => ys.map fun y => f x y
            let mx := listMax logpdf.flatten
            let spdf := scaled2 c logpdf xs ys xlin ylin
            let norm := qgt2d spdf (listMin spdf.flatten) * dx * dy
            .ok { dx := dx, dy := dy, max := mx, spdf := spdf, norm := norm, lml := (flog c norm).map (· + mx) }

end Verif.HPD
