import Verif.Common
import Mathlib.Data.Rat.Floor

/-!
# Adaptive integration of vectors of functions

Model of `package/inference/integrate/adapt_vec.py` up to the call of the Fortran subroutine, and of the checks of arguments in `package/inference/integrate/dchhre.f`.  Floats are rational numbers.
-/

namespace Verif.AdaptVec

/-- A Python number: an integer or a float. -/
inductive PyNum
  | int (n : ℤ)
  | flt (q : ℚ)
  deriving DecidableEq

namespace PyNum

/-- The value. -/
def val : PyNum → ℚ
  | int n => n
  | flt q => q

/-- `x + y`. -/
def add : PyNum → PyNum → PyNum
  | int m, int n => int (m + n)
  | x, y => flt (x.val + y.val)

/-- `x - y`. -/
def sub : PyNum → PyNum → PyNum
  | int m, int n => int (m - n)
  | x, y => flt (x.val - y.val)

/-- `x * y`. -/
def mul : PyNum → PyNum → PyNum
  | int m, int n => int (m * n)
  | x, y => flt (x.val * y.val)

/-- `x / y`, which is always a float. -/
def div (x y : PyNum) : Except Err PyNum := if y.val = 0 then .error .zeroDiv else .ok (flt (x.val / y.val))

end PyNum

open PyNum

/-- integrate/adapt_vec.py:35-45: the number of evaluations for a region. -/
def ruleSize (key : ℤ) (ndim : ℕ) : Except Err PyNum :=
  if (key = 0 ∨ key = 1) ∧ ndim = 2 then .ok (int 65)
  else if (key = 0 ∨ key = 2) ∧ ndim = 3 then .ok (int 127)
  else if (key = 0 ∧ ndim ≥ 3) ∨ key = 3 then do
    let n : ℤ := ndim
    let t ← (int (4 * n * (n - 1) * (n - 2))).div (int 3)
    pure (((int (1 + 8 * n + 2 * n * (n - 1) + 4 * n * (n - 1))).add t).add (int (2 ^ ndim)))
  else if key = 4 then let n : ℤ := ndim; .ok (int (1 + 6 * n + 2 * n * (n - 1) + 2 ^ ndim))
  else .error .value

/-- integrate/adapt_vec.py:48-49: the length of the work array. -/
def workSize (num : PyNum) (ndim nfuncs : ℕ) (maxpts : ℤ) : Except Err PyNum := do
  let q ← ((int maxpts).sub num).div ((int 2).mul num)
  let maxsub := q.add (int 1)
  pure (((maxsub.mul (int (2 * ndim + 2 * nfuncs + 2))).add (int (17 * nfuncs))).add (int 1))

/-- `numpy.zeros(n, float)`: the length must be an integer that is not negative. -/
def zeros : PyNum → Except Err ℕ
  | int n => if n < 0 then .error .value else .ok n.toNat
  | flt _ => .error .type

/-- integrate/adapt_vec.py:28-50: from the start to the work array.  The result is the length of the array that is made. -/
def prepare (nfuncs ndim : ℕ) (key maxpts : ℤ) : Except Err ℕ :=
  if ndim < 2 then .error .value
  else if ndim > 15 then .error .value
  else do
    let num ← ruleSize key ndim
    let nw ← workSize num ndim nfuncs maxpts
    zeros nw

/-- integrate/adapt_vec.py:8-82, `adapt_vec`, where `dcuhre` stands for the rest of the function, given the length of the work array. -/
def adaptVec {α : Type} (dcuhre : ℕ → Except Err α) (nfuncs ndim : ℕ) (key maxpts : ℤ) : Except Err α := do
  let nw ← prepare nfuncs ndim key maxpts
  dcuhre nw

/-- integrate/dchhre.f:134-190: the number of evaluations for a region, or the failure indicator.  The largest dimension is 15 (dcuhre_py.f). -/
def chkRule (key : ℤ) (ndim : ℕ) : ℕ ⊕ ℤ :=
  if key < 0 ∨ key > 4 then .inl 2
  else if ndim < 2 ∨ ndim > 15 then .inl 3
  else if key = 1 ∧ ndim ≠ 2 then .inl 4
  else if key = 2 ∧ ndim ≠ 3 then .inl 5
  else
    let keyf : ℤ := if key = 0 then (if ndim = 2 then 1 else if ndim = 3 then 2 else 3) else key
    let n : ℤ := ndim
    .inr (if keyf = 1 then 65 else if keyf = 2 then 127 else if keyf = 3 then 1 + 4 * 2 * n + 2 * n * (n - 1) + 4 * n * (n - 1) + (4 * n * (n - 1) * (n - 2)).tdiv 3 + 2 ^ ndim
      else 1 + 3 * 2 * n + 2 * n * (n - 1) + 2 ^ ndim)

/-- integrate/dchhre.f:194, 243: the least length of the work array, with `MDIV` one. -/
def chkLimit (num : ℤ) (ndim nfuncs : ℕ) (maxpts : ℤ) : ℤ := ((maxpts - num).tdiv (2 * num) + 1) * (2 * ndim + 2 * nfuncs + 2) + 17 * 1 * nfuncs + 1

end Verif.AdaptVec
