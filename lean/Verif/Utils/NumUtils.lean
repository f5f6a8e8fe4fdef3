import Verif.Common
import Mathlib.Algebra.Order.Field.Basic
import Mathlib.Analysis.SpecialFunctions.Log.Basic

/-!
# Flattening, bracketing of zeros, running sums of logarithms

Model of `flatten`, `zbracket` and `LogSummer`, `package/inference/utils/numutils.py`.
-/

set_option linter.unusedSectionVars false

namespace Verif.Num

/-! ### flatten -/

/-- Python values as `flatten` sees them: something that cannot be indexed, or a sequence (list or tuple).  Strings, whose first item is again a string, and numpy
arrays, whose truth value may raise, are not modelled. -/
inductive Nest (α : Type*)
  | leaf (a : α)
  | seq (l : List (Nest α))

/-- What the body of the loop adds to `result` for one item: numutils.py:15-20.  A leaf makes `item[0]` raise `TypeError`, an empty sequence makes it raise
`IndexError`; both are caught and the item itself is appended. -/
def flattenItem {α : Type*} : Nest α → List (Nest α)
  | .leaf a => [.leaf a]
  | .seq [] => [.seq []]
  | .seq [x] => flattenItem x
  | .seq (x :: y :: l) => flattenItem x ++ flattenItem (.seq (y :: l))

/-- `flatten(*args)`: numutils.py:11-21. -/
def flatten {α : Type*} (args : List (Nest α)) : List (Nest α) := args.flatMap flattenItem

/-! ### zbracket -/

section
variable {K : Type*} [Field K] [LinearOrder K] [IsStrictOrderedRing K]

/-- The loop of `zbracket`, with the number of tries left, the interval and the function values at its ends, and the arguments `func` has been called with so far
(last first): numutils.py:193-211. -/
def zLoop (f : K → K) (expand : K) : ℕ → K → K → K → K → List K → Except Err (K × K) × List K
  | 0, _, _, _, _, calls => (.error .runtime, calls)
  | tries + 1, x1, x2, f1, f2, calls =>
    if f1 * f2 < 0 then (.ok (x1, x2), calls)
    else if |f1| < |f2| then
      let x1 := x1 + expand * (x1 - x2)
      zLoop f expand tries x1 x2 (f x1) f2 (x1 :: calls)
    else
      let x2 := x2 + expand * (x2 - x1)
      zLoop f expand tries x1 x2 f1 (f x2) (x2 :: calls)

/-- `zbracket(func, x1, x2, vals, args, maxtries, expand)`: numutils.py:173-211, with the list of calls made; extra arguments `args` are taken to be part of `func`. -/
def zbracket (f : K → K) (x1 x2 : K) (vals : Option (K × K)) (maxtries : ℕ) (expand : K) : Except Err (K × K) × List K :=
  if x1 = x2 then (.error .value, [])
  else
    match vals with
    | some (f1, f2) => zLoop f expand maxtries x1 x2 f1 f2 []
    | none => zLoop f expand maxtries x1 x2 (f x1) (f x2) [x2, x1]

end

/-! ### LogSummer -/

/-- A `LogSummer`: numutils.py:79-97.  `sigSum` is used only if `dosig`. -/
structure LSum where
  n : ℕ
  logSum : Option ℝ
  dosig : Bool
  sigSum : Option ℝ

/-- `LogSummer(dosig, start)`: numutils.py:87-97. -/
def LSum.init (dosig : Bool) (start : Option (ℕ × ℝ)) : LSum :=
  match start with
  | none => ⟨0, none, dosig, none⟩
  | some (n, s) => ⟨n, some s, dosig, none⟩

/-- Adding a value to a running sum of logarithms, numutils.py:101-112; the same code is repeated for the sum of squares at 115-126. -/
noncomputable def addLog (s : Option ℝ) (val : ℝ) : ℝ :=
  match s with
  | none => val
  | some s =>
    if s ≥ val then
      let dif := val - s
      if dif > -40 then s + Real.log (1 + Real.exp dif) else s
    else
      let dif := s - val
      if dif > -40 then val + Real.log (1 + Real.exp dif) else val

/-- `__add__`: numutils.py:99-127. -/
noncomputable def LSum.add (s : LSum) (val : ℝ) : LSum :=
  { s with n := s.n + 1, logSum := some (addLog s.logSum val), sigSum := if s.dosig then some (addLog s.sigSum (2 * val)) else s.sigSum }

/-- `add_zero`: numutils.py:129-131. -/
def LSum.addZero (s : LSum) : LSum := { s with n := s.n + 1 }

/-- What `status` returns: count, log of the sum, log of the mean and, if asked for, log of the sum of squares and log of the standard deviation (`none` when the
logarithm taken is not finite). -/
structure LStat where
  n : ℕ
  logSum : ℝ
  lmean : ℝ
  sig : Option (ℝ × Option ℝ)

/-- `status`: numutils.py:133-149.  With `dosig` and nothing added since a `start`, `None - ln` raises `TypeError`. -/
noncomputable def LSum.status (s : LSum) : Except Err LStat :=
  match s.logSum with
  | none => .error .value
  | some t =>
    let ln := Real.log s.n
    let lmean := t - ln
    if s.dosig then
      match s.sigSum with
      | none => .error .type
      | some q =>
        let l2 := q - ln
        let dif := 2 * lmean - l2
        let lsig := 1 / 2 * l2
        if dif > -40 then
          .ok ⟨s.n, t, lmean, some (q, if 0 < 1 - Real.exp dif then some (lsig + 1 / 2 * Real.log (1 - Real.exp dif)) else none)⟩
        else .ok ⟨s.n, t, lmean, some (q, some lsig)⟩
    else .ok ⟨s.n, t, lmean, none⟩

end Verif.Num
