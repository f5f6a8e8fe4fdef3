import Verif.Common
import Verif.Grid.Intervals

/-!
# Steppers

Model of `package/inference/utils/numutils.py:25-77`.  The generators are modelled by the list of the values they yield; an exception, raised when the first
value is asked for, by `Except.error`.  Floats are elements of an exact ordered field.
-/

set_option linter.unusedSectionVars false

namespace Verif.Num

open Verif.Grid1 (LogExp)

variable {K : Type} [Field K] [LinearOrder K] [IsStrictOrderedRing K]

/-- The loop of `lin_enum_stepper` over the remaining indices, with the current `offset` (unbound before `i == 0`): numutils.py:41-49. -/
def linGo (lo hi delta : K) (n : ℤ) : List ℕ → K → List (ℕ × K)
  | [], _ => []
  | i :: is, offset =>
    if i = 0 then (i, lo) :: linGo lo hi delta n is 0
    else if (i : ℤ) = n - 1 then (i, hi) :: linGo lo hi delta n is offset
    else (i, lo + (offset + delta)) :: linGo lo hi delta n is (offset + delta)

/-- `lin_enum_stepper(lo, hi, n)`: numutils.py:38-49; dividing by `n-1.` raises for `n = 1`. -/
def linEnumStepper (lo hi : K) (n : ℤ) : Except Err (List (ℕ × K)) :=
  if n = 1 then .error .zeroDiv
  else .ok (linGo lo hi ((hi - lo) / ((n : K) - 1)) n (List.range n.toNat) 0)

/-- The loop of `lin_stepper`: numutils.py:28-36. -/
def linGo' (lo hi delta : K) (n : ℤ) : List ℕ → K → List K
  | [], _ => []
  | i :: is, offset =>
    if i = 0 then lo :: linGo' lo hi delta n is 0
    else if (i : ℤ) = n - 1 then hi :: linGo' lo hi delta n is offset
    else (lo + (offset + delta)) :: linGo' lo hi delta n is (offset + delta)

/-- `lin_stepper(lo, hi, n)`: numutils.py:25-36. -/
def linStepper (lo hi : K) (n : ℤ) : Except Err (List K) :=
  if n = 1 then .error .zeroDiv
  else .ok (linGo' lo hi ((hi - lo) / ((n : K) - 1)) n (List.range n.toNat) 0)

/-- The loop of `log_stepper`, with `cur` (unbound before `i == 0`): numutils.py:55-63. -/
def logGo' (lo hi fac : K) (n : ℤ) : List ℕ → K → List K
  | [], _ => []
  | i :: is, cur =>
    if i = 0 then lo :: logGo' lo hi fac n is lo
    else if (i : ℤ) = n - 1 then hi :: logGo' lo hi fac n is cur
    else (cur * fac) :: logGo' lo hi fac n is (cur * fac)

/-- `log_stepper(lo, hi, n)`: numutils.py:51-63.  `hi/lo` raises for `lo = 0`; the logarithm is numpy's, so for `n = 1` dividing it by 0 gives an infinite or
undefined `fac`, which is not used.  (Arguments that are not positive, for which `fac` is `nan`, are not modelled.) -/
def logStepper (c : LogExp K) (lo hi : K) (n : ℤ) : Except Err (List K) :=
  if lo = 0 then .error .zeroDiv
  else .ok (logGo' lo hi (c.ex (c.lg (hi / lo) / ((n : K) - 1))) n (List.range n.toNat) lo)

/-- The loop of `log_enum_stepper`: numutils.py:69-77. -/
def logGo (lo hi fac : K) (n : ℤ) : List ℕ → K → List (ℕ × K)
  | [], _ => []
  | i :: is, cur =>
    if i = 0 then (i, lo) :: logGo lo hi fac n is lo
    else if (i : ℤ) = n - 1 then (i, hi) :: logGo lo hi fac n is cur
    else (i, cur * fac) :: logGo lo hi fac n is (cur * fac)

/-- `log_enum_stepper(lo, hi, n)`: numutils.py:65-77. -/
def logEnumStepper (c : LogExp K) (lo hi : K) (n : ℤ) : Except Err (List (ℕ × K)) :=
  if lo = 0 then .error .zeroDiv
  else .ok (logGo lo hi (c.ex (c.lg (hi / lo) / ((n : K) - 1))) n (List.range n.toNat) lo)

end Verif.Num
