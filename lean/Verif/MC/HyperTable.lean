import Mathlib.Algebra.Order.Floor.Semiring
import Mathlib.Algebra.Order.Field.Basic
import Mathlib.Data.Rat.Floor

/-!
# The hypergeometric table of `expt/mc/5tbl.c`

Simplifications: exact arithmetic for `double`; `long int` is unbounded; loops take fuel and give `none` when it runs out; the array is the list of the cells written, from index 0 on, next to the `size` that was allocated.
-/

namespace Verif.MC.FiveTable

variable {K : Type*} [Field K] [LinearOrder K]

/-- `expt/mc/5tbl.c:106-107` (`HyperGeometricP`): `(long int)modef + 1`; the conversion cuts towards zero.  (It is never negative: the quotient is above -1.) -/
def hyperMode (g b s : ℕ) : ℕ := (Int.tdiv ((g : ℤ) * s - b + s - 1) ((g : ℤ) + b + 2) + 1).toNat

/-- `expt/mc/5tbl.c:109-113` (`HyperGeometricP`): the loop for the probability at `mode`. -/
def hyperLoop (g b s mode : ℕ) : ℕ → ℕ → ℕ → ℕ → K → Option K
  | 0, i, j, k, pm => if i = mode ∧ (j : ℤ) = (s : ℤ) - mode ∧ k = s then some pm else none
  | fuel + 1, i, j, k, pm =>
    if i = mode ∧ (j : ℤ) = (s : ℤ) - mode ∧ k = s then some pm
    else if 1 < pm ∧ k < s then hyperLoop g b s mode fuel i j (k + 1) (pm / (((b : K) + g - s + k + 1) / ((k : K) + 1)))
    else if i < mode then hyperLoop g b s mode fuel (i + 1) j k (pm * (((g : K) - mode + i + 1) / ((i : K) + 1)))
    else if (j : ℤ) < (s : ℤ) - mode then hyperLoop g b s mode fuel i (j + 1) k (pm * (((b : K) - s + mode + j + 1) / ((j : K) + 1)))
    else if k < s then hyperLoop g b s mode fuel i j (k + 1) (pm / (((b : K) + g - s + k + 1) / ((k : K) + 1)))
    else hyperLoop g b s mode fuel i j k pm

/-- `expt/mc/5tbl.c:116`, `128` (`HyperGeometricP`): the factor at `i` on the way up. -/
def hyperUp (g b s i : ℕ) : K := ((g : K) - i + 1) * ((s : K) - i + 1) / i / ((b : K) - s + i)

/-- `expt/mc/5tbl.c:121`, `131` (`HyperGeometricP`): the divisor at `i` on the way down. -/
def hyperDown (g b s i : ℕ) : K := ((g : K) - i) * ((s : K) - i) / ((i : K) + 1) / ((b : K) - s + i + 1)

/-- `expt/mc/5tbl.c:116` (`HyperGeometricP`): the final `i` of the loop up. -/
def hyperUpLoop (g b s : ℕ) : ℕ → ℕ → K → Option ℕ
  | 0, i, t => if 1 < t * 2147483648 then none else some i
  | fuel + 1, i, t => if 1 < t * 2147483648 then hyperUpLoop g b s fuel (i + 1) (t * hyperUp g b s i) else some i

/-- `expt/mc/5tbl.c:119-123` (`HyperGeometricP`): `offset`; `i+1` here is the code's `i` before the step. -/
def hyperDownLoop (g b s : ℕ) : ℕ → K → ℕ
  | 0, _ => 0
  | i + 1, t =>
    let t := t / hyperDown g b s i
    if t * 2147483648 < 1 then i + 1 else hyperDownLoop g b s i t

/-- `expt/mc/5tbl.c:128-129` (`HyperGeometricP`): the cells above the mode. -/
def hyperUpP [FloorSemiring K] (g b s : ℕ) : ℕ → ℕ → K → List ℕ
  | 0, _, _ => []
  | cnt + 1, i, t => ⌊t * hyperUp g b s i * 1073741824 + 1 / 2⌋₊ :: hyperUpP g b s cnt (i + 1) (t * hyperUp g b s i)

/-- `expt/mc/5tbl.c:131-132` (`HyperGeometricP`): the cells below the mode, put in front. -/
def hyperDownP [FloorSemiring K] (g b s offset : ℕ) : ℕ → K → List ℕ → List ℕ
  | 0, _, acc => acc
  | i + 1, t, acc =>
    if offset ≤ i then hyperDownP g b s offset i (t / hyperDown g b s i) (⌊t / hyperDown g b s i * 1073741824 + 1 / 2⌋₊ :: acc) else acc

/-- `expt/mc/5tbl.c:103-133` (`HyperGeometricP`): the cells written, `offset`, and the number of cells allocated (`size = last-offset+1`, with `last = i-2`); `none`: some loop takes more than `fuel` rounds. -/
def hyperP (K : Type*) [Field K] [LinearOrder K] [FloorSemiring K] (fuel g b s : ℕ) : Option (List ℕ × ℕ × ℕ) :=
  let mode := hyperMode g b s
  match hyperLoop (K := K) g b s mode fuel 0 0 0 1 with
  | none => none
  | some pm =>
    match hyperUpLoop g b s fuel (mode + 1) pm with
    | none => none
    | some i =>
      let last := i - 2
      let offset := hyperDownLoop g b s mode pm
      some (hyperDownP g b s offset mode pm (⌊pm * 1073741824 + 1 / 2⌋₊ :: hyperUpP g b s (last - mode) (mode + 1) pm), offset, last + 1 - offset)

end Verif.MC.FiveTable
