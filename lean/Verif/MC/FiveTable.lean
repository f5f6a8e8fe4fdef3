import Mathlib.Algebra.Order.Floor.Semiring
import Mathlib.Algebra.Order.Field.Basic
import Mathlib.Data.Rat.Floor
import Mathlib.Data.Nat.Choose.Basic
import Mathlib.Data.Nat.Count

/-!
# The compact five-table sampler of `expt/mc/5tbl.c`

`get5tbls` expands the integers `P[i]` (probabilities in units of 2^-30) into five tables by their digits in base 64, and `Dran` looks a uniform 30-bit integer up in them.

Simplifications: `64` is a parameter `B` of the definitions (`B = 64` in the code; the shifts by 24, 18, 12, 6 are products with its powers); the tables are lists and reading outside of them is `none`; real arithmetic for `double` in `BinomP`; printing and the statistical tests are not modelled.  `PoissP` is here only for `lam < 21.4`; see `PoissTable` for the rest and `HyperTable` for `HyperGeometricP`.
-/

namespace Verif.MC.FiveTable

/-- `expt/mc/5tbl.c:21` (`dg`): the `k`th digit of `m`, `k` from 1 to 5: `(m>>(30-6*k))&63`. -/
def dg (B m k : ℕ) : ℕ := m / B ^ (5 - k) % B

/-- A C `short int` made from an `int` `k ≥ 0` (`expt/mc/5tbl.c:26`: the tables are of `short int`). -/
def short (k : ℕ) : ℤ := if k % 65536 < 32768 then (k % 65536 : ℕ) else (k % 65536 : ℕ) - 65536

/-- `expt/mc/5tbl.c:40-45`: the filling of one table, from index `i` of the array on: `dg(m,k)` copies of `i+offset` for each `m=P[i]`. -/
def fill (B k offset : ℕ) : ℕ → List ℕ → List ℤ
  | _, [] => []
  | i, m :: P => List.replicate (dg B m k) (short (i + offset)) ++ fill B k offset (i + 1) P

/-- The static tables and limits (`expt/mc/5tbl.c:24-26`). -/
structure Tables where
  AA : List ℤ
  BB : List ℤ
  CC : List ℤ
  DD : List ℤ
  EE : List ℤ
  t1 : ℕ
  t2 : ℕ
  t3 : ℕ
  t4 : ℕ

/-- `expt/mc/5tbl.c:29-47` (`get5tbls`).  The lengths `na` … `ne` are the sums of digits (line 32). -/
def get5tbls (B : ℕ) (P : List ℕ) (offset : ℕ) : Tables :=
  let na := (P.map fun m => dg B m 1).sum
  let nb := (P.map fun m => dg B m 2).sum
  let nc := (P.map fun m => dg B m 3).sum
  let nd := (P.map fun m => dg B m 4).sum
  let t1 := na * B ^ 4
  let t2 := t1 + nb * B ^ 3
  let t3 := t2 + nc * B ^ 2
  let t4 := t3 + nd * B
  { AA := fill B 1 offset 0 P, BB := fill B 2 offset 0 P, CC := fill B 3 offset 0 P, DD := fill B 4 offset 0 P, EE := fill B 5 offset 0 P
    t1 := t1, t2 := t2, t3 := t3, t4 := t4 }

/-- `expt/mc/5tbl.c:144-148` (`Dran`, from the line after the generator on): the value for the integer `j`; `none`: memory outside of a table is read. -/
def lookup (B : ℕ) (T : Tables) (j : ℕ) : Option ℤ :=
  if j < T.t1 then T.AA[j / B ^ 4]?
  else if j < T.t2 then T.BB[(j - T.t1) / B ^ 3]?
  else if j < T.t3 then T.CC[(j - T.t2) / B ^ 2]?
  else if j < T.t4 then T.DD[(j - T.t3) / B]?
  else T.EE[j - T.t4]?

/-- `expt/mc/5tbl.c:143` (`Dran`): one step of the generator on an `unsigned long` of `w` bits. -/
def xorshift (w x : ℕ) : ℕ :=
  let x := x ^^^ (x <<< 13 % 2 ^ w)
  let x := x ^^^ (x >>> 17)
  x ^^^ (x <<< 5 % 2 ^ w)

/-- `expt/mc/5tbl.c:141-149` (`Dran`): the state after a call, and the value returned, for an `unsigned long` of `w` bits. -/
def dran (w : ℕ) (T : Tables) (jxr : ℕ) : ℕ × Option ℤ := (xorshift w jxr, lookup 64 T (xorshift w jxr >>> 2))

variable {K : Type*} [Field K] [LinearOrder K]

/-- `expt/mc/5tbl.c:85-87` (`BinomP`): the loop for the largest probability; `nm` is `n-m`.  `none`: more than `fuel` steps. -/
def modeLoop (n nm m : ℕ) (p q : K) : ℕ → ℕ → ℕ → K → Option K
  | 0, i, j, pm => if i = nm ∧ j = m then some pm else none
  | fuel + 1, i, j, pm =>
    if i = nm ∧ j = m then some pm
    else if pm < 1 ∧ i < nm then modeLoop n nm m p q fuel (i + 1) j (pm * (q * ((n : K) - i) / ((nm : K) - i)))
    else modeLoop n nm m p q fuel i (j + 1) (pm * p)

/-- `expt/mc/5tbl.c:88-90` (`BinomP`): the loop `for(i=m+1,t=pm;t*2147483648.>1;i++) t *= h*(n-i+1)/i`; the final `i`. -/
def upLoop (n : ℕ) (h : K) : ℕ → ℕ → K → Option ℕ
  | 0, i, t => if 1 < t * 2147483648 then none else some i
  | fuel + 1, i, t => if 1 < t * 2147483648 then upLoop n h fuel (i + 1) (t * (h * ((n : K) - i + 1) / i)) else some i

/-- `expt/mc/5tbl.c:91-94` (`BinomP`): the loop downwards; `i` stands for the code's `i+1`; the result is `offset = j+1`. -/
def downLoop (n : ℕ) (h : K) : ℕ → K → ℕ
  | 0, _ => 0
  | i + 1, t =>
    let t := t * (((i : K) + 1) / h / ((n : K) - i))
    if t * 2147483648 < 1 then i + 1 else downLoop n h i t

/-- `expt/mc/5tbl.c:99` (`BinomP`): the entries above the mode, `cnt` of them from `i` on. -/
def upP [FloorSemiring K] (n : ℕ) (h : K) : ℕ → ℕ → K → List ℕ
  | 0, _, _ => []
  | cnt + 1, i, t =>
    let t := t * (h * ((n : K) - i + 1) / i)
    ⌊t * 1073741824 + 1 / 2⌋₊ :: upP n h cnt (i + 1) t

/-- `expt/mc/5tbl.c:100` (`BinomP`): the entries below the mode, from `i-1` down to the offset, put in front of those above. -/
def downP [FloorSemiring K] (n : ℕ) (h : K) (offset : ℕ) : ℕ → K → List ℕ → List ℕ
  | 0, _, acc => acc
  | i + 1, t, acc =>
    if offset ≤ i then
      let t := t / (h * ((n : K) - i) / ((i : K) + 1))
      downP n h offset i t (⌊t * 1073741824 + 1 / 2⌋₊ :: acc)
    else acc

/-- `expt/mc/5tbl.c:79-101` (`BinomP`): the array `P` and `offset`; `none`: some loop takes more than `fuel` steps. -/
def binomP [FloorSemiring K] (fuel n : ℕ) (p : K) : Option (List ℕ × ℕ) :=
  let m := ⌊((n : K) + 1) * p⌋₊
  let q := 1 - p
  let h := p / q
  match modeLoop n (n - m) m p q fuel 0 0 1 with
  | none => none
  | some pm =>
    match upLoop n h fuel (m + 1) pm with
    | none => none
    | some i =>
      let last := i - 2
      let offset := downLoop n h m pm
      some (downP n h offset m pm (⌊pm * 1073741824 + 1 / 2⌋₊ :: upP n h (last - m) (m + 1) pm), offset)

/-- `expt/mc/5tbl.c:53-54` (`PoissP`, `lam<21.4`): the loop for the size. -/
def poissSize (lam : K) : ℕ → ℕ → K → Option ℕ
  | 0, i, t => if 1 < t * 2147483648 then none else some (i - 1)
  | fuel + 1, i, t => if 1 < t * 2147483648 then poissSize lam fuel (i + 1) (t * (lam / i)) else some (i - 1)

/-- `expt/mc/5tbl.c:57` (`PoissP`, `lam<21.4`): the entries from `i` on, `cnt` of them. -/
def poissFill [FloorSemiring K] (lam : K) : ℕ → ℕ → K → List ℕ
  | 0, _, _ => []
  | cnt + 1, i, p => ⌊p * (lam / i) * 1073741824 + 1 / 2⌋₊ :: poissFill lam cnt (i + 1) (p * (lam / i))

/-- `expt/mc/5tbl.c:53-58` (`PoissP`, `lam<21.4`): `e` stands for `exp(-lam)`.  The static `offset` is not assigned: it is left as the previous call left it. -/
def poissP [FloorSemiring K] (fuel : ℕ) (lam e : K) (offset : ℕ) : Option (List ℕ × ℕ) :=
  match poissSize lam fuel 1 e with
  | none => none
  | some size => some (⌊e * 1073741824 + 1 / 2⌋₊ :: poissFill lam (size - 1) 1 e, offset)

end Verif.MC.FiveTable
