import Verif.Common
import Mathlib.Analysis.SpecialFunctions.Log.Basic
import Mathlib.Analysis.SpecialFunctions.Trigonometric.Basic
import Mathlib.MeasureTheory.Integral.IntervalIntegral.Basic

/-!
# Plots of functions of two arguments

Models package/inference/utils/plot_bivar.py and `ScalarGrid.plot` of package/inference/pie/containers.py over the real numbers.  What Matplotlib is asked to draw
is a list of commands; colours, fonts, line widths, the labels of contours and the colour bar are not modelled.
-/

noncomputable section

namespace Verif.PlotBivar

open Real

/-- A two-dimensional array: its shape and its elements (of which those within the shape matter). -/
structure Arr2 where
  rows : ℕ
  cols : ℕ
  val : ℕ → ℕ → ℝ

/-- All elements of an array. -/
def Arr2.elems (a : Arr2) : List ℝ := (List.range a.rows).flatMap fun i => (List.range a.cols).map fun j => a.val i j

/-- NumPy's `transpose`. -/
def Arr2.transpose (a : Arr2) : Arr2 := ⟨a.cols, a.rows, fun i j => a.val j i⟩

/-- NumPy's `max`: `ValueError` (here `none`) for an empty array. -/
def Arr2.max? (a : Arr2) : Option ℝ := a.elems.max?

/-- Subtraction of a number from every element. -/
def Arr2.sub (a : Arr2) (m : ℝ) : Arr2 := ⟨a.rows, a.cols, fun i j => a.val i j - m⟩

/-- NumPy's `meshgrid(x, y)`: element `[i,j]` of the two arrays is `x[j]`, `y[i]`. -/
def meshgrid (x y : List ℝ) : Arr2 × Arr2 := (⟨y.length, x.length, fun _ j => x.getD j 0⟩, ⟨y.length, x.length, fun i _ => y.getD i 0⟩)

/-- What is drawn.  `image` has the array (row 0 at the bottom), the values drawn in black and white, and the edges left, right, bottom, top;
`contour` has the points with their values and the levels in the order given. -/
inductive Draw where
  | figure
  | curve (x y : List ℝ)
  | image (data : Arr2) (vmin vmax : ℝ) (left right bottom top : ℝ)
  | contour (points : List (ℝ × ℝ × ℝ)) (levels : List ℝ)

/-- `pl.contour(xg, yg, z, levels)`: `TypeError` if the shapes differ or if there are less than two rows or columns. -/
def contour (xg yg z : Arr2) (levels : List ℝ) : Except Err Draw :=
  if xg.rows = z.rows ∧ xg.cols = z.cols ∧ yg.rows = z.rows ∧ yg.cols = z.cols ∧ 2 ≤ z.rows ∧ 2 ≤ z.cols then
    .ok (.contour ((List.range z.rows).flatMap fun i => (List.range z.cols).map fun j => (xg.val i j, yg.val i j, z.val i j)) levels)
  else .error .type

/-- SciPy's `stats.chi2(1).cdf` for arguments that are not negative: the probability that the square of a standard normal number is at most `t`. -/
def chi2cdf1 (t : ℝ) : ℝ := (∫ u in -√t..√t, exp (-u ^ 2 / 2)) / √(2 * π)

/-- SciPy's `stats.chi2(2).ppf` for probabilities below one: the inverse of `1 - exp(-t/2)`. -/
def chi2ppf2 (p : ℝ) : ℝ := -2 * log (1 - p)

/-- `normal_plevels`: plot_bivar.py:25-34. -/
def normalPlevels (n : ℕ) : List ℝ := (List.range' 1 n).map fun i : ℕ => chi2cdf1 ((i : ℝ) ^ 2)

/-- The argument `gscale`: `False`, `True` or a number. -/
inductive GScale where
  | off
  | on
  | factor (f : ℝ)

/-- `if gscale`, and the factor used: plot_bivar.py:95-97. -/
def GScale.use : GScale → Option ℝ
  | .off => none
  | .on => some 10
  | .factor f => if f = 0 then none else some f

/-- The levels relative to the greatest value: plot_bivar.py:84-92. -/
def theLevels (levels plevels : Option (List ℝ)) (logmax : ℝ) : List ℝ :=
  match levels with
  | none =>
    match plevels with
    | none => (normalPlevels 6).map fun p => -0.5 * chi2ppf2 p
    | some ps => ps.map fun p => -0.5 * chi2ppf2 p
  | some ls => ls.map fun l => l - logmax

/-- Python's `int` of a float. -/
def pyInt (x : ℝ) : ℤ := if 0 ≤ x then ⌊x⌋ else ⌈x⌉

/-- `format_coord`: plot_bivar.py:136-146.  The value shown beside the coordinates, if any.  With a single row or column the quotients are not numbers and `int` raises `ValueError`. -/
def formatCoord (xlo xhi ylo yhi : ℝ) (data : Arr2) (x y : ℝ) : Except Err (Option ℝ) :=
  if data.cols = 1 ∨ data.rows = 1 then .error .value
  else
    let dx := (xhi - xlo) / (data.cols - 1)
    let dy := (yhi - ylo) / (data.rows - 1)
    let col := pyInt ((x - xlo) / dx + 0.5)
    let row := pyInt ((y - ylo) / dy + 0.5)
    if 0 ≤ col ∧ col < data.cols ∧ 0 ≤ row ∧ row < data.rows then .ok (some (data.val row.toNat col.toNat)) else .ok none

/-- What a plot leaves behind: what has been drawn, and the exception raised or the function that formats coordinates. -/
abbrev Plot := List Draw × Except Err (ℝ → ℝ → Except Err (Option ℝ))

/-- `plot_bivar`: plot_bivar.py:47-148.  `xlim` and `ylim` of lines 124-125 are defined nowhere (`NameError`). -/
def plotBivar (x y : List ℝ) (logpdf : Arr2) (iorder : String) (levels plevels : Option (List ℝ)) (cross : Option (ℝ × ℝ)) (gscale : GScale) : Plot :=
  let (xg, yg) := meshgrid x y
  if x = [] ∨ y = [] then ([], .error .index)
  else
    let xlo := xg.val 0 0
    let xhi := xg.val 0 (x.length - 1)
    let ylo := yg.val 0 0
    let yhi := yg.val (y.length - 1) 0
    if iorder ≠ "xy" ∧ iorder ≠ "yx" then ([], .error .value)
    else
      let logpdf := if iorder = "xy" then logpdf.transpose else logpdf
      match logpdf.max? with
      | none => ([], .error .value)
      | some logmax =>
        let dlogpdf := logpdf.sub logmax
        let lv := theLevels levels plevels logmax
        let rest (d : List Draw) : Plot :=
          match contour xg yg dlogpdf lv with
          | .error e => (d, .error e)
          | .ok c => if cross.isSome then (d ++ [c], .error .name) else (d ++ [c], .ok (formatCoord xlo xhi ylo yhi dlogpdf))
        match gscale.use with
        | none => rest []
        | some g =>
          match lv.min? with
          | none => ([], .error .value)
          | some l => rest [.image dlogpdf (g * l) 0 xlo xhi ylo yhi]

/-- NumPy's `linspace(lo, hi, n)`. -/
def linspace (lo hi : ℝ) (n : ℕ) : List ℝ := (List.range n).map fun i : ℕ => if n = 1 then lo else lo + i * ((hi - lo) / (n - 1))

/-- An axis of a `ScalarGrid`: bounds, number of steps and whether the steps are linear (or logarithmic): containers.py:57-59. -/
structure Axis where
  lo : ℝ
  hi : ℝ
  steps : ℕ
  linear : Bool

/-- The keyword arguments of `ScalarGrid.plot` that are modelled.  For `overlay` and `ylabel`, `none` is that the keyword is absent; their values are never looked at, or are a text. -/
structure PlotArgs where
  gscale : GScale := .off
  overlay : Option Bool := none
  ylabel : Option String := none
  iorder : String := "xy"
  levels : Option (List ℝ) := none
  plevels : Option (List ℝ) := none
  cross : Option (ℝ × ℝ) := none

/-- `ScalarGrid.plot`: containers.py:79-118.  `vals` gives the value stored at a list of indices.  A keyword `ylabel` is passed on together with line 114's own (`TypeError`); line 113 does not pass
`gscale`.  The result of a one-dimensional plot has no function for coordinates. -/
def gridPlot (axes : List Axis) (vals : List ℕ → ℝ) (a : PlotArgs) : List Draw × Option Err :=
  let fig : List Draw := if a.overlay.isSome then [] else [.figure]
  match axes with
  | [x] =>
    if x.linear then (fig ++ [.curve (linspace x.lo x.hi x.steps) ((List.range x.steps).map fun i => vals [i])], none)
    else ([], some .notImplemented)
  | [x, y] =>
    if x.linear && y.linear then
      if a.ylabel.isSome then (fig, some .type)
      else
        match plotBivar (linspace x.lo x.hi x.steps) (linspace y.lo y.hi y.steps) ⟨x.steps, y.steps, fun i j => vals [i, j]⟩ a.iorder a.levels a.plevels a.cross .off with
        | (d, .error e) => (fig ++ d, some e)
        | (d, .ok _) => (fig ++ d, none)
    else ([], some .notImplemented)
  | _ => ([], some .value)

end Verif.PlotBivar
