import Mathlib.Algebra.Order.Field.Basic
import Mathlib.Data.Rat.Defs
import Mathlib.Algebra.Order.Ring.Rat
import Mathlib.Logic.Function.Basic

/-!
# The classes of the goodness-of-fit test of `expt/mc/5tbl.c`

Simplifications: exact arithmetic for `double`; the arrays are functions on the indices and the indices used are recorded; the values drawn are a list of `j-offset`; the printing is not modelled.
-/

namespace Verif.MC.Dtest

variable {K : Type*} [Field K] [LinearOrder K]

/-- `expt/mc/5tbl.c:181` (`Dtest`): `s=0; for(i=0;i<size;i++) {s+=E[i]; if(s>10){kb=i;E[kb]=s;break;} }` over the `r` indices from `i` on: `kb` and the new `E[kb]`, or `none` if the loop runs to its end. -/
def kbLoop (E : ℕ → K) : ℕ → ℕ → K → Option (ℕ × K)
  | 0, _, _ => none
  | r + 1, i, s => if 10 < s + E i then some (i, s + E i) else kbLoop E r (i + 1) (s + E i)

/-- `expt/mc/5tbl.c:182` (`Dtest`): the same from the other end, down to index 1. -/
def keLoop (E : ℕ → K) : ℕ → K → Option (ℕ × K)
  | 0, _ => none
  | i + 1, s => if 10 < s + E (i + 1) then some (i + 1, s + E (i + 1)) else keLoop E i (s + E (i + 1))

/-- `kb`, `ke` and the expectations after pooling. -/
structure Classes (K : Type*) where
  kb : ℕ
  ke : ℕ
  E : ℕ → K

/-- The assignment of the loops: the index found, or the initial value. -/
def pool (E : ℕ → K) (dflt : ℕ) : Option (ℕ × K) → ℕ × (ℕ → K)
  | none => (dflt, E)
  | some (k, s) => (k, Function.update E k s)

/-- `expt/mc/5tbl.c:177`, `181-182` (`Dtest`): the two loops, from `kb=0`, `ke=1000`; the second loop sees what the first one stored. -/
def classes (E : ℕ → K) (size : ℕ) : Classes K :=
  let a := pool E 0 (kbLoop E size 0 0)
  let b := pool a.2 1000 (keLoop a.2 (size - 1) 0)
  ⟨a.1, b.1, b.2⟩

/-- `expt/mc/5tbl.c:184` (`Dtest`): the class of a value: `if(j<kb+offset) j=kb+offset; if(j>ke+offset) j=ke+offset;`. -/
def clamp (c : Classes K) (v : ℕ) : ℕ :=
  let v := if v < c.kb then c.kb else v
  if c.ke < v then c.ke else v

/-- `expt/mc/5tbl.c:183-185` (`Dtest`): the counts `M[i]`. -/
def counts (c : Classes K) (vs : List ℕ) (i : ℕ) : ℕ := (vs.map (clamp c)).count i

/-- `expt/mc/5tbl.c:189` (`Dtest`): the indices at which `M` and `E` are read for chi-square. -/
def readAt (c : Classes K) : List ℕ := List.range' c.kb (c.ke + 1 - c.kb)

end Verif.MC.Dtest
