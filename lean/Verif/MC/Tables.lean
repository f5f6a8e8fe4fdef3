import Verif.Common
import Mathlib.Algebra.Order.Field.Basic
import Mathlib.Algebra.Order.Floor.Ring
import Mathlib.Algebra.Order.Floor.Semiring

/-!
# The five-table sampler

Model of `package/inference/mc/compact5table.c`.  Weights are elements of an ordered field; the integers of the C code are natural numbers (`C49_no_overflow` shows that
they stay within 31 bits).  The generator is the list of 32-bit words it is going to produce; a call that would need more words than the list has gives `none`.
-/

set_option linter.unusedSectionVars false

namespace Verif.MC

variable {K : Type*} [Field K] [LinearOrder K] [IsStrictOrderedRing K] [FloorRing K]

/-- `dg(m,k)`: compact5table.c:22. -/
def dg (m k : ℕ) : ℕ := m >>> (30 - 6 * k) &&& 63

/-- A `Sampler`: tables, thresholds and the index of a certain event. -/
structure Sampler where
  AA : List ℕ
  BB : List ℕ
  CC : List ℕ
  DD : List ℕ
  EE : List ℕ
  t1 : ℕ
  t2 : ℕ
  t3 : ℕ
  t4 : ℕ
  prob1 : Option ℕ

/-- `sum`: compact5table.c:40-44. -/
def wsum (w : List K) : K := w.foldl (· + ·) 0

/-- `P`: compact5table.c:56-58. -/
def quant (w : List K) : List ℕ := w.map fun x => ⌊x / wsum w * 2 ^ 30⌋₊

/-- The size of table `k`: compact5table.c:68-76. -/
def tsize (P : List ℕ) (k : ℕ) : ℕ := P.foldl (fun s m => s + dg m k) 0

/-- Filling table `k`, from index `i` on: compact5table.c:127-149. -/
def fill (k : ℕ) : List ℕ → ℕ → List ℕ
  | [], _ => []
  | m :: P, i => List.replicate (dg m k) i ++ fill k P (i + 1)

/-- The search for the certain event: compact5table.c:82-91. -/
def findOne : List ℕ → ℕ → Option ℕ
  | [], _ => none
  | m :: P, i => if m >>> 30 &&& 63 = 1 then some i else findOne P (i + 1)

/-- `init_sampler5tbl(weights, n)`: compact5table.c:30-153.  `none` if the weights have no positive sum.  If all tables are empty they are not allocated, nor are the
thresholds set; they are given as empty and zero here (they are not used if there is a certain event). -/
def initSampler (w : List K) : Option Sampler :=
  if wsum w ≤ 0 then none
  else
    let P := quant w
    if tsize P 1 + tsize P 2 + tsize P 3 + tsize P 4 + tsize P 5 = 0 then some ⟨[], [], [], [], [], 0, 0, 0, 0, findOne P 0⟩
    else
      let t1 := tsize P 1 <<< 24
      let t2 := t1 + tsize P 2 <<< 18
      let t3 := t2 + tsize P 3 <<< 12
      let t4 := t3 + tsize P 4 <<< 6
      some ⟨fill 1 P 0, fill 2 P 0, fill 3 P 0, fill 4 P 0, fill 5 P 0, t1, t2, t3, t4, none⟩

/-- What a 30-bit number gives: compact5table.c:186-204. -/
inductive Pick
  /-- an entry of a table -/
  | item (i : ℕ)
  /-- a number beyond all tables: another one is drawn -/
  | again
  /-- an index outside a table (undefined behaviour in C) -/
  | wild
deriving DecidableEq

/-- Reading a table. -/
def entry (t : List ℕ) (i : ℕ) : Pick :=
  match t[i]? with
  | some k => .item k
  | none => .wild

/-- The lookup. -/
def Sampler.look (s : Sampler) (j : ℕ) : Pick :=
  if j < s.t1 then entry s.AA (j >>> 24)
  else if j < s.t2 then entry s.BB ((j - s.t1) >>> 18)
  else if j < s.t3 then entry s.CC ((j - s.t2) >>> 12)
  else if j < s.t4 then entry s.DD ((j - s.t3) >>> 6)
  else if j - s.t4 ≥ s.EE.length then .again
  else entry s.EE (j - s.t4)

/-- `Dran(sampler, rng_state)`: compact5table.c:174-205; the item and the words left.  A wild read also gives `none`. -/
def dran (s : Sampler) (ws : List ℕ) : Option (ℕ × List ℕ) :=
  match s.prob1 with
  | some i => some (i, ws)
  | none =>
    match ws with
    | [] => none
    | w :: ws =>
      match s.look (w >>> 2) with
      | .item i => some (i, ws)
      | .again => dran s ws
      | .wild => none
termination_by ws.length

/-- The loop of `Dran_array` when there is no certain event: compact5table.c:223-255, with `n` outputs to go. -/
def dranLoop (s : Sampler) : ℕ → List ℕ → Option (List ℕ × List ℕ)
  | 0, ws => some ([], ws)
  | _ + 1, [] => none
  | n + 1, w :: ws =>
    match s.look (w >>> 2) with
    | .item i =>
      match dranLoop s n ws with
      | none => none
      | some (out, ws) => some (i :: out, ws)
    | .again => dranLoop s (n + 1) ws
    | .wild => none

/-- `Dran_array(sampler, output, samplesize, rng_state)`: compact5table.c:210-256; outputs and words left. -/
def dranArray (s : Sampler) (n : ℕ) (ws : List ℕ) : Option (List ℕ × List ℕ) :=
  match s.prob1 with
  | some i => some (List.replicate n i, ws)
  | none => dranLoop s n ws

end Verif.MC
