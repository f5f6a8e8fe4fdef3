import Verif.Common
import Mathlib.Algebra.Order.Floor.Ring
import Mathlib.Algebra.Order.Field.Basic
import Mathlib.Analysis.SpecialFunctions.Log.Basic
import Mathlib.Analysis.SpecialFunctions.Pow.NNReal

/-!
# Piecewise linear densities

Model of `package/inference/mc/pwlinear.py`.

An array is its length and a function giving its entries; reading beyond the length is an error case of its own.  Floating point numbers are elements of an ordered field, real
numbers where the code takes logarithms or square roots.  A NaN is a result of its own.
-/

set_option linter.unusedSectionVars false

namespace Verif.PW

variable {K : Type*} [Field K] [LinearOrder K] [IsStrictOrderedRing K] [FloorRing K]

/-- What an evaluation gives. -/
inductive Num (K : Type*)
  | val (x : K)
  | nan
  | err (e : Err)

/-- Largest of the entries `0 … n`. -/
def maxTo (v : ℕ → K) : ℕ → K
  | 0 => v 0
  | n + 1 => max (maxTo v n) (v (n + 1))

/-- The entries of `linspace(lo, hi, n)`: pwlinear.py:49. -/
def linAbsc (lo hi : K) (n : ℕ) (i : ℕ) : K := lo + i * ((hi - lo) / (n - 1 : ℕ))

/-- Relative values: pwlinear.py:69; the largest is not zero. -/
def relVals (v : ℕ → K) (n : ℕ) (i : ℕ) : K := v i / maxTo v (n - 1)

/-- Relative values from logarithms, with the negligible ones set to zero: pwlinear.py:63-67. -/
noncomputable def relLogVals (v : ℕ → ℝ) (n : ℕ) (cut : ℝ) (i : ℕ) : ℝ :=
  if v i - maxTo v (n - 1) > Real.log cut then Real.exp (v i - maxTo v (n - 1)) else 0

/-- The runs of consecutive indices in the selection, each by its first and last index (only these are used): pwlinear.py:74-82. -/
def runs (first last : ℕ) : List ℕ → List (ℕ × ℕ)
  | [] => [(first, last)]
  | n :: rest => if n = last + 1 then runs first n rest else (first, last) :: runs n n rest

/-- The range of the first run: pwlinear.py:87-92. -/
def firstRange (n : ℕ) (w : ℕ → K) (r : ℕ × ℕ) : ℕ × ℕ :=
  (if 0 < r.1 ∧ w r.1 > 0 then r.1 - 1 else r.1, if r.2 < n - 1 ∧ w r.2 > 0 then r.2 + 1 else r.2)

/-- The range of a later run: pwlinear.py:95-100. -/
def nextRange (n : ℕ) (w : ℕ → K) (r : ℕ × ℕ) : ℕ × ℕ :=
  (if w r.1 > 0 then r.1 - 1 else r.1, if r.2 < n - 1 ∧ w r.2 > 0 then r.2 + 1 else r.2)

/-- A `PWLinear`: the attributes `n`, `absc`, `step` (as a flag for `'lin'`), `delta`, the values `wvals` and the index ranges; the others are functions of these. -/
structure PW (K : Type*) where
  n : ℕ
  absc : ℕ → K
  lin : Bool
  delta : K
  w : ℕ → K
  ranges : List (ℕ × ℕ)

/-- The second half of the constructor: pwlinear.py:62-100.  `sel` says which entries are selected; without any, `selected[0]` fails. -/
def build (n : ℕ) (absc : ℕ → K) (lin : Bool) (delta : K) (w : ℕ → K) (sel : ℕ → Bool) : Except Err (PW K) :=
  match (List.range n).filter sel with
  | [] => .error .index
  | s :: rest =>
    match runs s s rest with
    | [] => .error .index
    | r :: rs => .ok ⟨n, absc, lin, delta, w, firstRange n w r :: rs.map (nextRange n w)⟩

/-- `PWLinear(lo, hi, vals, cut=cut)`: pwlinear.py:45-100, with `lo` and `hi` given.  The values are not negative; if all of them are zero the relative values are NaN and
nothing is selected. -/
def newLin (lo hi : K) (n : ℕ) (v : ℕ → K) (cut : K) : Except Err (PW K) :=
  if n = 0 then .error .value
  else if maxTo v (n - 1) = 0 then .error .index
  else build n (linAbsc lo hi n) true ((hi - lo) / (n - 1 : ℕ)) (relVals v n) (fun i => relVals v n i > cut)

/-- `PWLinear(absc=absc, vals=vals, cut=cut)`: pwlinear.py:51-100. -/
def newAbsc (m : ℕ) (absc : ℕ → K) (n : ℕ) (v : ℕ → K) (cut : K) : Except Err (PW K) :=
  if m ≠ n then .error .value
  else if n = 0 then .error .index
  else if maxTo v (n - 1) = 0 then .error .index
  else build n absc false 0 (relVals v n) (fun i => relVals v n i > cut)

/-- `PWLinear(lo, hi, vals, logvals=True, cut=cut)`: pwlinear.py:45-100. -/
noncomputable def newLog (lo hi : ℝ) (n : ℕ) (v : ℕ → ℝ) (cut : ℝ) : Except Err (PW ℝ) :=
  if n = 0 then .error .value
  else build n (linAbsc lo hi n) true ((hi - lo) / (n - 1 : ℕ)) (relLogVals v n cut) (fun i => v i - maxTo v (n - 1) > Real.log cut)

/-- The left ends of the intervals kept, by index: pwlinear.py:110-117. -/
def PW.idx (P : PW K) : List ℕ := P.ranges.flatMap fun r => List.range' r.1 (r.2 - r.1)

/-- `nz_intvls`: pwlinear.py:113-117, 128. -/
def PW.intvls (P : PW K) : List (K × K) := P.idx.map fun i => (P.absc i, P.absc (i + 1))

/-- `nz_pdf`: pwlinear.py:121-124, 129. -/
def PW.ends (P : PW K) : List (K × K) := P.idx.map fun i => (P.w i, P.w (i + 1))

/-- The areas: pwlinear.py:119-120. -/
def PW.areas (P : PW K) : List K := P.idx.map fun i => 1 / 2 * (P.w i + P.w (i + 1)) * (P.absc (i + 1) - P.absc i)

/-- `norm`: pwlinear.py:126. -/
def PW.norm (P : PW K) : K := P.areas.sum

/-- `nz_wts`: pwlinear.py:127; for a vanishing norm NaNs. -/
def PW.wts (P : PW K) : Option (List K) := if P.norm = 0 then none else some (P.areas.map (· / P.norm))

/-- `pdf_vals`: pwlinear.py:128. -/
def PW.pdfVals (P : PW K) (i : ℕ) : K := P.w i / P.norm

/-- `pdf(x)` for a number: pwlinear.py:187-215.  A vanishing norm gives NaNs; `int` of a NaN or an infinity raises for a vanishing step. -/
def PW.pdf (P : PW K) (x : K) : Num K :=
  match P.ranges.find? (fun r => P.absc r.1 ≤ x ∧ x ≤ P.absc r.2) with
  | none => .val 0
  | some r =>
    if P.lin = false then .err .notImplemented
    else if P.delta = 0 then .err .value
    else
      let i := r.1 + ⌊(x - P.absc r.1) / P.delta⌋₊
      if P.n ≤ i + 1 then .err .index
      else if P.norm = 0 then .nan
      else .val (P.pdfVals i + (P.pdfVals (i + 1) - P.pdfVals i) * (x - P.absc i) / (P.absc (i + 1) - P.absc i))

/-- A number drawn inside an interval: pwlinear.py:143-153. -/
noncomputable def drawIn (lo hi plo phi u : ℝ) : ℝ :=
  if plo = phi then lo + (hi - lo) * u
  else
    let r := (hi - lo) / (phi - plo)
    lo - r * plo + r * Real.sqrt (plo ^ 2 + (phi ^ 2 - plo ^ 2) * u)

/-- `sample()` with the interval number that the population gives and the next number of `rand()`: pwlinear.py:141-153. -/
noncomputable def PW.sample (P : PW ℝ) (index : ℕ) (u : ℝ) : Num ℝ :=
  match P.intvls[index]?, P.ends[index]? with
  | some (lo, hi), some (plo, phi) => .val (drawIn lo hi plo phi u)
  | _, _ => .err .index

/-- One entry of `sample(n)`: pwlinear.py:155-172: the formula for sloped intervals for all (a NaN, `none`, if flat), then overwritten where flat. -/
noncomputable def drawVec (lo hi plo phi u : ℝ) : Option ℝ :=
  let v := if phi - plo = 0 then none
    else
      let r := (hi - lo) / (phi - plo)
      some (lo - r * plo + r * Real.sqrt (plo ^ 2 + (phi ^ 2 - plo ^ 2) * u))
  if phi = plo then some (lo + (hi - lo) * u) else v

/-- `sample(n)`: pwlinear.py:155-172, with the numbers of the population and of `rand(n)`. -/
noncomputable def PW.sampleVec (P : PW ℝ) : List (ℕ × ℝ) → Except Err (List (Option ℝ))
  | [] => .ok []
  | (index, u) :: rest =>
    match P.intvls[index]?, P.ends[index]? with
    | some (lo, hi), some (plo, phi) =>
      match P.sampleVec rest with
      | .ok vs => .ok (drawVec lo hi plo phi u :: vs)
      | .error e => .error e
    | _, _ => .error .index

end Verif.PW
