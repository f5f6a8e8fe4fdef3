import Verif.Common
import Mathlib.Analysis.SpecialFunctions.Trigonometric.Basic
import Mathlib.Analysis.SpecialFunctions.Complex.Circle

/-!
# Clenshaw-Curtis and Fejer rules: the model

Models expt/integrate/ccf.py.  Double precision numbers are real (complex) numbers and `fft.ifft` is the inverse discrete Fourier transform it computes.  Arrays are lists, or functions of the index where the code fills them piece by piece.  A callable integrand is a function of one real number that numpy applies to each entry.  `ccrule2` (a stub without a result), the flag `err`, which only raises, the flag `dft` and `_explicit`, a check for the tests, are not modelled.  Integer division is that of Python 2.
-/

set_option linter.unusedSectionVars false

namespace Verif.Quad

open Real

noncomputable section

/-- `fft.ifft(v)[k]` for an array of `n` entries, ccf.py:48, 104. -/
def ifft (n : ℕ) (v : ℕ → ℂ) (k : ℕ) : ℂ :=
  (∑ j ∈ Finset.range n, v j * Complex.exp (2 * π * Complex.I * j * k / n)) / n

/-! ## The rules on [-1, 1] -/

/-- `odds`, ccf.py:34: `arange(1, order, 2)` has `order/2` entries. -/
def odds (k : ℕ) : ℝ := 1 + 2 * k

/-- `v0`, ccf.py:37-39, of `order+1` entries; `l` is the number of odd numbers (35). -/
def ccV0 (order : ℕ) (j : ℕ) : ℝ :=
  let l := order / 2
  if j < l then 2 / odds j / (odds j - 2)
  else if j = l then 1 / odds (l - 1)
  else 0

/-- `v2`, ccf.py:41: the second slice runs from the last entry down to entry 1. -/
def ccV2 (order : ℕ) (j : ℕ) : ℝ := -ccV0 order j - ccV0 order (order - j)

/-- `g0`, ccf.py:42-44, with `m` of line 36. -/
def ccG0 (order : ℕ) (j : ℕ) : ℝ :=
  let l := order / 2
  let m := order - l
  (-1 : ℝ) + (if j = l then (order : ℝ) else 0) + (if j = m then (order : ℝ) else 0)

/-- `g`, ccf.py:46. -/
def ccG (order : ℕ) (j : ℕ) : ℝ := ccG0 order j / ((order : ℝ) ^ 2 - 1 + ((order % 2 : ℕ) : ℝ))

/-- `wts`, ccf.py:47-49. -/
def ccWt (order : ℕ) (k : ℕ) : ℝ :=
  if k < order then (ifft order (fun j => ((ccV2 order j + ccG order j : ℝ) : ℂ)) k).re
  else (ifft order (fun j => ((ccV2 order j + ccG order j : ℝ) : ℂ)) 0).re

/-- `nodes`, ccf.py:32: the cosines, in reverse order. -/
def ccNode (order : ℕ) (k : ℕ) : ℝ := cos (π * (order - k : ℕ) / order)

/-- `ccrule`, ccf.py:15-54: nodes and weights.  For orders below two there are no odd numbers and `odds[-1]` (39) raises, unless `zeros(npts)` (37) has raised before. -/
def ccrule (order : ℤ) : Except Err (List ℝ × List ℝ) :=
  if order < -1 then .error .value
  else if order < 2 then .error .index
  else
    let n := order.toNat
    .ok ((List.range (n + 1)).map (ccNode n), (List.range (n + 1)).map (ccWt n))

/-- `v0`, ccf.py:97-101, of `npts+1` entries. -/
def f1V0 (npts : ℕ) (k : ℕ) : ℂ :=
  let l := npts / 2
  let m := npts - l
  if k < m then 2 * Complex.exp (Complex.I * π * k / npts) / (1 - 4 * (k : ℂ) ^ 2) else 0

/-- `v1`, ccf.py:103. -/
def f1V1 (npts : ℕ) (k : ℕ) : ℂ := f1V0 npts k + (starRingEnd ℂ) (f1V0 npts (npts - k))

/-- `wts`, ccf.py:104. -/
def f1Wt (npts : ℕ) (k : ℕ) : ℝ := (ifft npts (f1V1 npts) k).re

/-- `nodes`, ccf.py:95-96. -/
def f1Node (npts : ℕ) (k : ℕ) : ℝ := cos (π * ((npts - k : ℕ) - 0.5) / npts)

/-- `f1rule`, ccf.py:79-108.  For negative orders `zeros` (100) or `ifft` of an empty array (104) raises. -/
def f1rule (order : ℤ) : Except Err (List ℝ × List ℝ) :=
  if order < 0 then .error .value
  else
    let n := order.toNat + 1
    .ok ((List.range n).map (f1Node n), (List.range n).map (f1Wt n))

/-! ## The classes -/

/-- Which of the two classes an object belongs to. -/
inductive Kind where
  | cc
  | f1
deriving DecidableEq

/-- `ClenshawCurtis` and `Fejer1` objects: `base`, `wbase` are `_nodes`, `_wts`.  ccf.py:111-175, 188-243. -/
structure Rule where
  kind : Kind
  npts : ℤ
  base : List ℝ
  wbase : List ℝ
  l : ℝ
  u : ℝ
  nodes : List ℝ
  wts : List ℝ

/-- `set_range`, ccf.py:138-158 and 210-226. -/
def Rule.setRange (r : Rule) (l u : Option ℝ) : Res Rule :=
  match l, u with
  | none, none => ok { r with l := -1, u := 1, nodes := r.base, wts := r.wbase }
  | some l, some u =>
    let hw := 0.5 * (u - l)
    let nodes := r.base.map fun x => hw * x + 0.5 * (l + u)
    let nodes := match r.kind with
      | .cc => (nodes.set 0 l).set (nodes.length - 1) u
      | .f1 => nodes
    ok { r with l := l, u := u, nodes := nodes, wts := r.wbase.map fun w => hw * w }
  | _, _ => raise .value r

/-- The rule on [-1, 1] that a class uses, ccf.py:132 and 206. -/
def Kind.rule : Kind → ℤ → Except Err (List ℝ × List ℝ)
  | .cc, order => ccrule order
  | .f1, order => f1rule order

/-- The constructors, ccf.py:116-136 and 193-208. -/
def Rule.make (k : Kind) (order : ℤ) (l u : Option ℝ) : Except Err Rule :=
  match k.rule order with
  | .error e => .error e
  | .ok (nodes, wts) =>
    match Rule.setRange ⟨k, order + 1, nodes, wts, 0, 0, [], []⟩ l u with
    | (r, none) => .ok r
    | (_, some e) => .error e

/-- What can be handed to `quad`: a callable or an array of values. -/
inductive Arg where
  | fn (f : ℝ → ℝ)
  | vals (v : List ℝ)

/-- `sum(wts*vals)`: arrays of one entry are stretched, other arrays must agree in length. -/
def sumProd (w v : List ℝ) : Except Err ℝ :=
  if w.length = v.length then .ok (List.zipWith (· * ·) w v).sum
  else match w, v with
    | _, [x] => .ok (w.map (· * x)).sum
    | [x], _ => .ok (v.map (x * ·)).sum
    | _, _ => .error .value

/-- `quad`, ccf.py:160-175 and 228-243 (the same text twice).  With only one limit the difference of the limits raises. -/
def Rule.quad (r : Rule) (f : Arg) (l u : Option ℝ) : Except Err ℝ :=
  match l, u with
  | none, none =>
    match f with
    | .fn f => sumProd r.wts (r.nodes.map f)
    | .vals v => sumProd r.wts v
  | some l, some u =>
    let hw := 0.5 * (u - l)
    let nodes := r.base.map fun x => hw * x + 0.5 * (l + u)
    let wts := r.wbase.map fun w => hw * w
    match f with
    | .fn f => sumProd wts (nodes.map f)
    | .vals _ => .error .type
  | _, _ => .error .type

/-- A history of calls of `set_range`, exceptions caught: the object at the end. -/
def Rule.ranges (r : Rule) : List (Option ℝ × Option ℝ) → Rule
  | [] => r
  | c :: cs => Rule.ranges (r.setRange c.1 c.2).1 cs

end

end Verif.Quad
