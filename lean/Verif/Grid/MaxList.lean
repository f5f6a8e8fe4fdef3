import Verif.Common
import Mathlib.Algebra.Order.Group.Defs
import Mathlib.Algebra.Order.Field.Basic

/-!
# `LabeledMaxList`: the model

Models package/inference/grid/grid1d.py:48-123. Values are elements of a linearly ordered field; labels are arbitrary.
`dyn` is the attribute `dynrange`, i.e. the *logarithm* of the constructor's argument (line 58).
-/

namespace Verif.Grid1

variable {K ι : Type} [Field K] [LinearOrder K]

/-- A `LabeledMaxList`, grid1d.py:52-59. -/
structure LML (K ι : Type) where
  nmax : Option ℕ
  dyn : Option K
  list : List (K × ι) := []

/-- The bisection loop, grid1d.py:89-95. `none` stands for an `IndexError`. -/
def bisect (q : K) (l : List (K × ι)) (lo hi : ℕ) : Option ℕ :=
  if h : lo < hi then
    match l[(lo + hi) / 2]? with
    | none => none
    | some e => if q > e.1 then bisect q l lo ((lo + hi) / 2) else bisect q l ((lo + hi) / 2 + 1) hi
  else some lo
termination_by hi - lo

/-- The pruning loop, grid1d.py:105-109 and 119-123. -/
def prune (top d : K) (l : List (K × ι)) (i : ℕ) : List (K × ι) :=
  if h : i < l.length then
    if top - l[i].1 > d then prune top d (l.eraseIdx i) i else prune top d l (i + 1)
  else l
termination_by l.length - i
decreasing_by
  · rw [List.length_eraseIdx_of_lt h]; omega
  · omega

/-- Lines 96-99: insertion and removal of what is beyond the capacity. -/
def LML.insertAt (s : LML K ι) (lo : ℕ) (e : K × ι) : List (K × ι) :=
  let l := s.list.insertIdx lo e
  match s.nmax with
  | none => l
  | some n => if l.length > n then l.eraseIdx n else l

/-- Lines 88-109. -/
def LML.insert (s : LML K ι) (q : K) (label : ι) : Res (LML K ι) :=
  match bisect q s.list 0 s.list.length with
  | none => raise .index s
  | some lo =>
    let s := { s with list := s.insertAt lo (q, label) }
    match s.dyn with
    | none => ok s
    | some d =>
      if d = 0 then ok s
      else
        match s.list.head? with
        | none => raise .index s
        | some top => ok { s with list := prune top.1 d s.list lo }

/-- `update`, grid1d.py:79-109. -/
def LML.update (s : LML K ι) (q : K) (label : ι) : Res (LML K ι) :=
  if s.nmax = some s.list.length then
    match s.list.getLast? with
    | none => raise .index s
    | some e => if q ≤ e.1 then ok s else s.insert q label
  else s.insert q label

/-- `limitRange`, grid1d.py:111-123; `r` is the logarithm of the argument. -/
def LML.limitRange (s : LML K ι) (r : K) : Res (LML K ι) :=
  match s.list.head? with
  | none => raise .index s
  | some top => ok { s with list := prune top.1 r s.list 1 }

/-- A sequence of `update` calls; stops at the first exception. -/
def LML.updates (s : LML K ι) : List (K × ι) → Res (LML K ι)
  | [] => ok s
  | o :: os => (s.update o.1 o.2).andThen fun s => s.updates os

end Verif.Grid1
