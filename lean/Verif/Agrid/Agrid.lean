import Mathlib.Analysis.SpecialFunctions.Log.Basic
import Verif.Grid.GridQuad

/-!
# Analysis of posterior grids (expt/grid/agrid.f)

Over the reals. Reading of files, the command line and the root finders `zbrac2`, `zbrent2`, which are not in the repository, are not modelled. `pause` and logarithms that do not exist are `none`.
-/

noncomputable section

namespace Verif.Agrid

open Real

/-- A grid in one dimension as read: the logarithms of the posterior and the range (expt/grid/agrid.f:90-113). -/
structure G1 where
  lp : List ℝ
  xl : ℝ
  xh : ℝ

/-- A grid in two dimensions: `lp` are the rows of fixed `x` (expt/grid/agrid.f:114-133). -/
structure G2 where
  lp : List (List ℝ)
  ny : ℕ
  xl : ℝ
  xh : ℝ
  yl : ℝ
  yh : ℝ

/-- Step of an axis (expt/grid/agrid.f:139-149). -/
def stepOf (lg : Bool) (lo hi : ℝ) (n : ℕ) : ℝ := if lg then log (hi / lo) / (n - 1) else (hi - lo) / (n - 1)

/-- The range covered by all grids (expt/grid/agrid.f:98-106, 117-132): the first one, widened by the others. -/
def rangeOf : List (ℝ × ℝ) → Option (ℝ × ℝ)
  | [] => none
  | p :: l => some (l.foldl (fun r q => (min q.1 r.1, max q.2 r.2)) p)

/-- The factor of the prior for one axis (expt/grid/agrid.f:156-167). -/
def priorOf (lg : Bool) (lo hi : ℝ) : ℝ := if lg then 1 / log (hi / lo) else 1 / |hi - lo|

/-- The largest value (expt/grid/agrid.f:171-178). -/
def lpmaxOf : List ℝ → Option ℝ
  | [] => none
  | v :: l => some ((v :: l).foldl (fun m v => if v > m then v else m) v)

/-- The posterior relative to its mode (expt/grid/agrid.f:187-192, 207-212). -/
def scaled (m a : ℝ) : ℝ := if a - m > -200 then exp (a - m) else 0

/-- The sums with half weights at the ends (expt/grid/agrid.f:193-197, 213-223). -/
def wsum (l : List ℝ) : ℝ := (l.zipIdx.map fun p => (if p.2 = 0 ∨ p.2 + 1 = l.length then 1 / 2 else 1) * p.1).sum

/-- The normalisation in one dimension (expt/grid/agrid.f:182-200). -/
def norm1 (lg : Bool) (m : ℝ) (gs : List G1) : ℝ := (gs.map fun g => wsum (g.lp.map (scaled m)) * stepOf lg g.xl g.xh g.lp.length).sum

/-- The normalisation in two dimensions (expt/grid/agrid.f:202-226). -/
def norm2 (xlg ylg : Bool) (m : ℝ) (gs : List G2) : ℝ :=
  (gs.map fun g => wsum (g.lp.map fun r => wsum (r.map (scaled m))) * stepOf xlg g.xl g.xh g.lp.length * stepOf ylg g.yl g.yh g.ny).sum

/-- The logarithm of the global likelihood in one dimension (expt/grid/agrid.f:155-168, 228); `fp` is `use_fp`. -/
def lgl1 (fp lg : Bool) (gs : List G1) : Option ℝ :=
  (rangeOf (gs.map fun g => (g.xl, g.xh))).bind fun r =>
  (lpmaxOf (gs.flatMap G1.lp)).bind fun m =>
  let prior := if fp then priorOf lg r.1 r.2 else 1
  let v := prior * norm1 lg m gs
  if v > 0 then some (log v + m) else none

/-- The logarithm of the global likelihood in two dimensions (expt/grid/agrid.f:155-168, 228). -/
def lgl2 (fp xlg ylg : Bool) (gs : List G2) : Option ℝ :=
  (rangeOf (gs.map fun g => (g.xl, g.xh))).bind fun r =>
  (rangeOf (gs.map fun g => (g.yl, g.yh))).bind fun q =>
  (lpmaxOf (gs.flatMap fun g => g.lp.flatten)).bind fun m =>
  let prior := if fp then priorOf xlg r.1 r.2 * priorOf ylg q.1 q.2 else 1
  let v := prior * norm2 xlg ylg m gs
  if v > 0 then some (log v + m) else none

/-- The content above a level in one dimension (expt/grid/agrid.f:429-434 with `qgt` 343-377, which is `qgt1d`). -/
def tot1 (lg : Bool) (m : ℝ) (gs : List G1) (crit : ℝ) : ℝ := (gs.map fun g => stepOf lg g.xl g.xh g.lp.length * Verif.HPD.qgt1d (g.lp.map (scaled m)) crit).sum

/-- `lratio` in one dimension (expt/grid/agrid.f:404-443). -/
def lratio1 (lg : Bool) (m : ℝ) (gs : List G1) (cfrac lpcrit : ℝ) : ℝ :=
  let tot := tot1 lg m gs (exp lpcrit)
  if tot ≤ 0 then -500 else log (tot / norm1 lg m gs / cfrac)

/-- The points of an axis, in the coordinate in which they are equidistant (expt/grid/agrid.f:252-262). -/
def axis (lg : Bool) (lo hi : ℝ) (n : ℕ) : List ℝ := (List.range n).map fun i : ℕ => (if lg then log lo else lo) + (i : ℝ) * stepOf lg lo hi n

/-- `xvalues` (expt/grid/agrid.f:446-470). -/
def xvals (ycrit : ℝ) : List ℝ → List ℝ → List ℝ
  | x :: x' :: xs, y :: y' :: ys =>
      (if (y < ycrit ∧ y' > ycrit) ∨ (y' < ycrit ∧ y > ycrit) then [x + (x' - x) * (ycrit - y) / (y' - y)] else []) ++ xvals ycrit (x' :: xs) (y' :: ys)
  | _, _ => []

/-- The boundaries of the region for one grid in one dimension (expt/grid/agrid.f:251-272); a point at which the scaled posterior is zero has no logarithm. -/
def region (lg : Bool) (m : ℝ) (g : G1) (lpcrit : ℝ) : Option (List ℝ) :=
  let p := g.lp.map (scaled m)
  if p.all (fun v => decide (v > 0)) then
    let v := xvals lpcrit (axis lg g.xl g.xh g.lp.length) (p.map log)
    some (if lg then v.map exp else v)
  else none

end Verif.Agrid
