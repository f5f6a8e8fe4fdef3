import Mathlib.Algebra.Order.Field.Basic
import Mathlib.Data.Rat.Defs
import Mathlib.Algebra.Order.Ring.Rat

/-!
# `rombint`, `sandbox/integrate/rombint.m`

Simplifications: exact arithmetic for `double`, so that the range `a:step:b` has one point more than panels; an index error is `none`; the integrand is a total function applied to each point; indices count from 1 where a MATLAB array is indexed.
-/

namespace Verif.Romberg

variable {K : Type*} [Field K]

/-- The MATLAB range `lo:st:hi` of indices. -/
def mrange (lo st hi : ℕ) : List ℕ :=
  if hi < lo then [] else (List.range ((hi - lo) / st + 1)).map fun k => lo + k * st

/-- `sandbox/integrate/rombint.m:29` (`rombint`): `romall`, the function at the points of `a:(b-a)/2^(decdigs-1):b`; `j` counts from 1. -/
def romall (f : K → K) (a b : K) (D j : ℕ) : K := f (a + ((j - 1 : ℕ) : K) * ((b - a) / 2 ^ (D - 1)))

/-- `sandbox/integrate/rombint.m:33-34` (`rombint`): the indices summed at stage `i`. -/
def rombIdx (D i : ℕ) : List ℕ := mrange (2 ^ (D - i + 1) / 2 + 1) (2 ^ (D - i + 1)) (2 ^ (D - 1))

/-- `sandbox/integrate/rombint.m:35-37` (`rombint`): the new row, from its first entry; column `k` counts from 0. -/
def rombRow (prev : ℕ → K) (r1 : K) : ℕ → K
  | 0 => r1
  | k + 1 => (4 ^ (k + 1) * rombRow prev r1 k - prev k) / (4 ^ (k + 1) - 1)

/-- `sandbox/integrate/rombint.m:32-40` (`rombint`): `left` turns of the loop from stage `i` on; `rom(1,:)` and `h`. -/
def rombLoop (f : K → K) (a b : K) (D : ℕ) : ℕ → ℕ → (ℕ → K) → K → ℕ → K
  | 0, _, rom, _ => rom
  | left + 1, i, rom, h =>
    let r1 := (rom 0 + h * ((rombIdx D i).map (romall f a b D)).sum) / 2
    rombLoop f a b D left (i + 1) (fun k => if k < i then rombRow rom r1 k else rom k) (h / 2)

/-- `sandbox/integrate/rombint.m:24-42` (`rombint`), with the limits given: `D` is `decdigs`.  With equal limits the range `a:0:b` is empty, and with no digits the last line reads column 0: index errors. -/
def rombint [DecidableEq K] (f : K → K) (a b : K) (D : ℕ) : Option K :=
  if a = b ∨ D = 0 then none
  else
    let rom : ℕ → K := fun k => if k = 0 then (b - a) * (romall f a b D 1 + romall f a b D (2 ^ (D - 1) + 1)) / 2 else 0
    some (rombLoop f a b D (D - 1) 2 rom (b - a) (D - 1))

end Verif.Romberg
