import Mathlib.Algebra.BigOperators.Intervals
import Mathlib.Algebra.Order.Field.Basic

/-!
# Model of sandbox/odiag/output.f: the Burg recursion `nxtarc`

Arrays are functions of a zero based index; arithmetic is exact in a linearly ordered field. The
triangular array `coef(p*(p-1)/2+s)` is a function of the lag `s` for each order.
-/

set_option linter.unusedSectionVars false

namespace Verif.Odiag

variable {K : Type} [Field K] [LinearOrder K] [IsStrictOrderedRing K]

/-- What `nxtarc` keeps between calls: the order, the two workspaces, the coefficients of that order by lag, the variance of that order (sandbox/odiag/output.f:208-245). -/
structure Ar (K : Type) where
  ord : ℕ
  wrk : ℕ → K
  wrks : ℕ → K
  coef : ℕ → K
  var : K

/-- A sum accumulated by a Fortran loop of `n` passes from zero. -/
def loopSum (f : ℕ → K) : ℕ → K
  | 0 => 0
  | n + 1 => loopSum f n + f n

/-- `2. * numer / denom` with the sums over `m` elements; `none` is a division of zero by zero (sandbox/odiag/output.f:267-273, 291-301). -/
def reflect (wrk wrks : ℕ → K) (m : ℕ) : Option K :=
  let numer := loopSum (fun t => wrk t * wrks t) m
  let denom := loopSum (fun t => wrk t ^ 2 + wrks t ^ 2) m
  if denom = 0 then none else some (2 * numer / denom)

/-- The first call, `cur` = 0 (sandbox/odiag/output.f:251-276). The workspaces hold `data(1..ndat-1)` and `data(2..ndat)`. -/
def first (n : ℕ) (x : ℕ → K) : Option (Ar K) :=
  let v := loopSum (fun t => x t ^ 2) n / n
  match reflect x (fun t => x (t + 1)) (n - 1) with
  | none => none
  | some k => some { ord := 1, wrk := x, wrks := fun t => x (t + 1), coef := fun _ => k, var := v * (1 - k ^ 2) }

/-- The loop that updates the workspaces in place, `m` passes (sandbox/odiag/output.f:293-296). -/
def update (c : K) : ℕ → (ℕ → K) × (ℕ → K) → (ℕ → K) × (ℕ → K)
  | 0, w => w
  | m + 1, w =>
      let u := update c m w
      let wrk := Function.update u.1 m (u.1 m - c * u.2 m)
      let wrks := Function.update u.2 m (u.2 (m + 1) - c * wrk (m + 1))
      (wrk, wrks)

/-- A later call, `cur` > 0 (sandbox/odiag/output.f:278-306). -/
def next (n : ℕ) (s : Ar K) : Option (Ar K) :=
  let cur := s.ord
  let w := update (s.coef cur) (n - cur - 1) (s.wrk, s.wrks)
  match reflect w.1 w.2 (n - (cur + 1)) with
  | none => none
  | some k => some
      { ord := cur + 1, wrk := w.1, wrks := w.2,
        coef := fun r => if r = cur + 1 then k else s.coef r - k * s.coef (cur + 1 - r),
        var := s.var * (1 - k ^ 2) }

/-- Successive calls of `nxtarc`: what is known after the call for order `m + 1` (sandbox/odiag/output.f:172-174). -/
def burg (n : ℕ) (x : ℕ → K) : ℕ → Option (Ar K)
  | 0 => first n x
  | m + 1 => (burg n x m).bind (next n)

end Verif.Odiag
