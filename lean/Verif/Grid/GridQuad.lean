import Mathlib.Algebra.Order.Field.Basic

/-!
# Quadrature above a level and level crossings

Model of `package/inference/grid/_gridquad.f`.  Fortran `real*8` values are elements of an exact ordered field.
-/

set_option linter.unusedSectionVars false

namespace Verif.HPD

variable {K : Type*} [Field K] [LinearOrder K] [IsStrictOrderedRing K]

/-- What one cell adds to the quadrature: `_gridquad.f:24-32` (and, identically, `_gridquad.f:64-73`). -/
def cellGT (crit u v : K) : K :=
  if u > crit ∧ v > crit then 1 / 2 * (u + v)
  else if u > crit ∨ v > crit then 1 / 2 * (max u v + crit) * (max u v - crit) / (max u v - min u v)
  else 0

/-- The loop `do 70 i=1, nx-1` with the accumulated value: `_gridquad.f:22-33`. -/
def qgtLoop (crit : K) : K → List K → K
  | acc, u :: v :: l => qgtLoop crit (acc + cellGT crit u v) (v :: l)
  | acc, _ => acc

/-- `qgt1d`: `_gridquad.f:2-36`. -/
def qgt1d (a : List K) (crit : K) : K := qgtLoop crit 0 a

/-- The loop `do 90 i=1, nx` over the rows `array(i, :)`; `n` is `nx`, `i` the row about to be treated: `_gridquad.f:60-79`. -/
def qgt2Loop (crit : K) (n : ℕ) : ℕ → K → List (List K) → K
  | _, acc, [] => acc
  | i, acc, r :: rs => qgt2Loop crit n (i + 1) (acc + if i = 1 ∨ i = n then 1 / 2 * qgtLoop crit 0 r else qgtLoop crit 0 r) rs

/-- `qgt2d`: `_gridquad.f:39-82`.  The array is the list of its rows `array(i, :)`. -/
def qgt2d (a : List (List K)) (crit : K) : K := qgt2Loop crit a.length 1 0 a

/-- State of `xvalues`: the counter `nx`, the values stored so far (`xvals(1)` .. ), the flag `ok`, and whether a value has been stored beyond the end of
`xvals`.  What such a store does is undefined in Fortran; the model records that it happened and goes on. -/
structure XV (K : Type*) where
  nx : ℕ := 0
  vals : List K := []
  ok : Bool := true
  overrun : Bool := false
deriving DecidableEq, Repr

/-- `xvals(nx) = xarr(i) + (xarr(i+1)-xarr(i)) * (ycrit - yarr(i)) / (yarr(i+1) - yarr(i))`: `_gridquad.f:105-106, 113-114`. -/
def crossAt (ycrit x x' y y' : K) : K := x + (x' - x) * (ycrit - y) / (y' - y)

/-- Storing at position `nx`: inside the array or beyond it. -/
def XV.store (nmax : ℕ) (s : XV K) (x : K) : XV K := { s with vals := s.vals ++ [x], overrun := s.overrun || decide (nmax < s.nx) }

/-- The loop of `xvalues`: `_gridquad.f:102-116`. -/
def xvLoop (nmax : ℕ) (ycrit : K) : List K → List K → XV K → XV K
  | x :: x' :: xs, y :: y' :: ys, s =>
    if y < ycrit ∧ y' > ycrit then
      xvLoop nmax ycrit (x' :: xs) (y' :: ys) (XV.store nmax { s with nx := s.nx + 1 } (crossAt ycrit x x' y y'))
    else if y' < ycrit ∧ y > ycrit then
      let s := { s with nx := s.nx + 1 }
      if s.nx > nmax then { s with ok := false }
      else xvLoop nmax ycrit (x' :: xs) (y' :: ys) (XV.store nmax s (crossAt ycrit x x' y y'))
    else xvLoop nmax ycrit (x' :: xs) (y' :: ys) s
  | _, _, s => s

/-- `xvalues`: `_gridquad.f:85-119`; `xarr` and `yarr` both have the length `n`. -/
def xvalues (xarr yarr : List K) (ycrit : K) (nmax : ℕ) : XV K := xvLoop nmax ycrit xarr yarr {}

end Verif.HPD
