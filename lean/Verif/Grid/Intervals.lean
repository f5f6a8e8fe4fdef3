import Verif.Common
import Mathlib.Algebra.Order.Floor.Ring
import Mathlib.Algebra.Order.Field.Basic

/-!
# Refined interval lists: the model

Models `BasicInterval` and `RefinedIntervalList1D`, package/inference/grid/grid1d.py:127-449. Numbers are elements of a
linearly ordered field with a floor function (exact arithmetic); `log` and `exp` are parameters, instantiated by the real
functions where a property is about logarithmic intervals. Interval sampling types are a flag (`isLin`), so the
"must be Lin or Log" errors cannot occur.
-/

namespace Verif.Grid1

/-- `log` and `exp`. -/
structure LogExp (K : Type) where
  lg : K → K
  ex : K → K

/-- A `BasicInterval`, grid1d.py:130-148. `fac` is used only if not `isLin`. -/
structure Intv (K : Type) where
  lo : K
  hi : K
  n : ℤ
  isLin : Bool
  step : K
  fac : K
  deriving DecidableEq, Repr

section
variable {K : Type} [Field K] [LinearOrder K] [IsStrictOrderedRing K] [FloorRing K]

/-- `BasicInterval.__init__`, grid1d.py:130-150. -/
def mkIntv (c : LogExp K) (lo hi : K) (n : ℤ) (isLin : Bool) : Except Err (Intv K) :=
  if n ≤ 1 then .error .value
  else if isLin then .ok { lo := lo, hi := hi, n := n, isLin := true, step := (hi - lo) / ((n : K) - 1), fac := 0 }
  else if lo * hi ≤ 0 then .error .value
  else
    let step := c.lg (hi / lo) / ((n : K) - 1)
    .ok { lo := lo, hi := hi, n := n, isLin := false, step := step, fac := c.ex step }

/-- `BasicInterval.locate`, grid1d.py:159-174. -/
def Intv.locate (c : LogExp K) (I : Intv K) (x : K) : ℤ × K × K :=
  let r : ℤ × K × K :=
    if I.isLin then
      let i := ⌊(x - I.lo) / I.step⌋
      let l := I.lo + i * I.step
      (i, l, l + I.step)
    else
      let i := ⌊c.lg (x / I.lo) / I.step⌋
      let l := I.lo * c.ex (i * I.step)
      (i, l, l * I.fac)
  if r.1 = I.n - 1 then (r.1, r.2.1, r.2.1) else r

/-- `BasicInterval.resample`, grid1d.py:176-183. (The division by zero for `n = 1` is not modelled: the only caller passes
at least 2.) -/
def Intv.resample (c : LogExp K) (I : Intv K) (n : ℤ) : Intv K :=
  if I.isLin then { I with n := n, step := (I.hi - I.lo) / ((n : K) - 1) }
  else { I with n := n, step := c.lg (I.hi / I.lo) / ((n : K) - 1) }

/-- A `RefinedIntervalList1D`, grid1d.py:192-225. The attribute `nint` is always `len(ilist)`: both are changed together in
`_del` and `_insert`; it is not kept separately. -/
structure RIL (K : Type) where
  isPos : Bool
  lo : K
  hi : K
  isLin : Bool
  base : Intv K
  ilist : List (Intv K)
  npts : ℤ
  cumpts : List ℤ

/-- `RefinedIntervalList1D.__init__`, grid1d.py:192-225. -/
def RIL.init (c : LogExp K) (lo hi : K) (n : ℤ) (isLin : Bool) : Except Err (RIL K) :=
  if n ≤ 1 then .error .value
  else if lo = hi then .error .value
  else
    let pos := decide (lo < hi)
    let lo' := if pos then lo else hi
    let hi' := if pos then hi else lo
    if isLin = false ∧ lo * hi ≤ 0 then .error .value
    else
      match mkIntv c lo' hi' n isLin with
      | .error e => .error e
      | .ok b => .ok { isPos := pos, lo := lo', hi := hi', isLin := isLin, base := b, ilist := [b], npts := n, cumpts := [n] }

/-- `_stepSize`, grid1d.py:258-264. -/
def RIL.stepSize (c : LogExp K) (s : RIL K) (lo hi : K) (n : ℤ) : K :=
  if s.isLin then (hi - lo) / ((n : K) - 1) else c.lg (hi / lo) / ((n : K) - 1)

/-- `_numPts`, grid1d.py:267-273. -/
def RIL.numPts (c : LogExp K) (s : RIL K) (lo hi step : K) : ℤ :=
  if s.isLin then ⌈(hi - lo) / step⌉ + 1 else ⌈c.lg (hi / lo) / step⌉ + 1

/-- `_del`, grid1d.py:243-248. -/
def RIL.del (s : RIL K) (i : ℕ) : RIL K := { s with ilist := s.ilist.eraseIdx i }

/-- `self._insert(i, BasicInterval(lo, hi, n))`: the constructor first (with the default type *linear* whatever the type of
the list), then grid1d.py:250-255. -/
def RIL.insertNew (c : LogExp K) (s : RIL K) (i : ℕ) (lo hi : K) (n : ℤ) : Res (RIL K) :=
  match mkIntv c lo hi n true with
  | .error e => raise e s
  | .ok I => ok { s with ilist := s.ilist.insertIdx i I }

/-- The loop of `merge`, grid1d.py:371-388, at list position `i`. -/
def mergeLoop (c : LogExp K) (s : RIL K) (i : ℕ) : Res (RIL K) :=
  if h : i + 1 < s.ilist.length then
    let I := s.ilist[i]
    let J := s.ilist[i + 1]
    let npts := s.npts + J.n - 1
    let s' := { s with npts := npts, cumpts := s.cumpts ++ [npts] }
    if I.step = J.step then
      match mkIntv c I.lo J.hi (I.n + J.n - 1) true with
      | .error e => raise e { s' with ilist := (s'.ilist.eraseIdx i).eraseIdx i }
      | .ok M =>
        mergeLoop c { s' with ilist := ((s'.ilist.eraseIdx i).eraseIdx i).insertIdx i M,
                              cumpts := (s'.cumpts.set i (s'.cumpts.getD (i + 1) 0)).dropLast } i
    else mergeLoop c s' (i + 1)
  else ok { s with npts := s.npts + 1, cumpts := s.cumpts.dropLast ++ [s.npts + 1] }
termination_by s.ilist.length - i
decreasing_by
  · have h1 : (s.ilist.eraseIdx i).length = s.ilist.length - 1 := List.length_eraseIdx_of_lt (by omega)
    have h2 : ((s.ilist.eraseIdx i).eraseIdx i).length = s.ilist.length - 2 := by
      rw [List.length_eraseIdx_of_lt (by omega), h1]; omega
    have h3 : (((s.ilist.eraseIdx i).eraseIdx i).insertIdx i M).length ≤ s.ilist.length - 2 + 1 := by
      rw [List.length_insertIdx, h2]; split_ifs <;> omega
    omega
  · omega

/-- `merge`, grid1d.py:362-388. -/
def RIL.merge (c : LogExp K) (s : RIL K) : Res (RIL K) :=
  match s.ilist with
  | [] => raise .index s
  | I :: _ => mergeLoop c { s with npts := I.n - 1, cumpts := [I.n - 1] } 0

/-- Lines 320-333: the new interval lies in one existing interval `I`, number `nlo`. -/
def RIL.updateInside (c : LogExp K) (s : RIL K) (nlo : ℕ) (I : Intv K) (lo hi : K) (n : ℤ) (step : K) : Res (RIL K) :=
  if step ≥ I.step then ok s
  else
    let s := s.del nlo
    (if lo > I.lo then s.insertNew c nlo I.lo lo (s.numPts c I.lo lo I.step) else ok s).andThen fun s =>
    let nlo := if lo > I.lo then nlo + 1 else nlo
    (s.insertNew c nlo lo hi n).andThen fun s =>
    (if I.hi > hi then s.insertNew c (nlo + 1) hi I.hi (s.numPts c hi I.hi I.step) else ok s).andThen fun s =>
    s.merge c

/-- Lines 337-346: break up the interval `I`, number `nlo`, that contains the lower end. -/
def RIL.splitLo (c : LogExp K) (s : RIL K) (nlo : ℕ) (I : Intv K) (lo step : K) : Res (RIL K) :=
  let s := s.del nlo
  (if lo > I.lo then s.insertNew c nlo I.lo lo (s.numPts c I.lo lo I.step) else ok s).andThen fun s =>
  s.insertNew c (if lo > I.lo then nlo + 1 else nlo) lo I.hi (s.numPts c lo I.hi step)

/-- Lines 347-353: break up the interval `J`, number `nhi`, that contains the upper end. -/
def RIL.splitHi (c : LogExp K) (s : RIL K) (nhi : ℕ) (J : Intv K) (hi step : K) : Res (RIL K) :=
  let s := s.del nhi
  (s.insertNew c nhi J.lo hi (s.numPts c J.lo hi step)).andThen fun s =>
  if J.hi > hi then s.insertNew c (nhi + 1) hi J.hi (s.numPts c hi J.hi J.step) else ok s

/-- Lines 355-359: resample the intervals numbered `nlo` to `nhi - 1` whose step is larger. -/
def RIL.resampleRange (c : LogExp K) (s : RIL K) (nlo nhi : ℕ) (step : K) : RIL K :=
  { s with ilist := s.ilist.mapIdx fun i I =>
      if nlo ≤ i ∧ i < nhi ∧ I.step > step then I.resample c (s.numPts c I.lo I.hi step) else I }

/-- Lines 337-360: the new interval reaches from interval `I`, number `nlo`, to interval `J`, number `nhi`. -/
def RIL.updateAcross (c : LogExp K) (s : RIL K) (nlo nhi : ℕ) (I J : Intv K) (lo hi step : K) : Res (RIL K) :=
  (if step < I.step then s.splitLo c nlo I lo step else ok s).andThen fun s =>
  -- the numbers after lines 342-346
  let nlo' := if step < I.step then (if lo > I.lo then nlo + 2 else nlo + 1) else nlo
  let nhi' := if step < I.step ∧ lo > I.lo then nhi + 1 else nhi
  (if step < J.step then s.splitHi c nhi' J hi step else ok s).andThen fun s =>
  (s.resampleRange c nlo' nhi' step).merge c

/-- `update`, grid1d.py:275-360. For `n = 1` line 305 divides by zero (Python floats). -/
def RIL.update (c : LogExp K) (s : RIL K) (lo hi : K) (n : ℤ) : Res (RIL K) :=
  -- lines 280-285; in the second case `hi` is computed from the new `lo`
  let lo1 := if s.isPos then max lo s.lo else max hi s.lo
  let hi1 := if s.isPos then min hi s.hi else min lo1 s.hi
  if hi1 ≤ lo1 then raise .value s
  else
    -- lines 290-299
    match s.ilist.findIdx? (fun I => decide (I.lo ≤ lo1 ∧ I.hi > lo1)), s.ilist.findIdx? (fun I => decide (I.lo < hi1 ∧ I.hi ≥ hi1)) with
    | some nlo, some nhi =>
      match s.ilist[nlo]?, s.ilist[nhi]? with
      | some I, some J =>
        if n = 1 then raise .zeroDiv s
        else
          let step := s.stepSize c lo1 hi1 n
          let li := I.locate c lo1
          let lo2 := li.2.1
          let hj := J.locate c hi1
          let hi2 := if hi1 ≠ hj.2.1 then hj.2.2 else hi1
          let n2 := if 5 * step > li.2.2 - li.2.1 then s.numPts c lo2 hi2 step else n
          let step2 := s.stepSize c lo2 hi2 n2
          if nlo = nhi then s.updateInside c nlo I lo2 hi2 n2 step2
          else s.updateAcross c nlo nhi I J lo2 hi2 step2
      | _, _ => raise .index s
    | _, _ => raise .name s

/-- `locate`, grid1d.py:399-422: the bisection loop with `fuel` iterations left; `none` means it has not ended. -/
def locateLoop (l : List (Intv K)) (x : K) : ℕ → ℕ → ℕ → Option (Except Err (Intv K))
  | 0, _, _ => none
  | fuel + 1, lo, hi =>
    match l[(lo + hi) / 2]? with
    | none => some (.error .index)
    | some I =>
      if I.lo ≤ x ∧ x < I.hi then some (.ok I)
      else if x < I.lo then locateLoop l x fuel lo ((lo + hi) / 2)
      else locateLoop l x fuel ((lo + hi) / 2) hi

/-- `locate`, grid1d.py:399-422, run for at most `fuel` iterations of the loop. -/
def RIL.locate (s : RIL K) (x : K) (fuel : ℕ) : Option (Except Err (Intv K)) :=
  if x < s.lo ∨ x > s.hi then some (.error .value)
  else if x = s.hi then
    match s.ilist.getLast? with
    | none => some (.error .index)
    | some I => some (.ok I)
  else locateLoop s.ilist x fuel 0 s.ilist.length

/-- The bisection of `nlocate`, grid1d.py:437-444. -/
def nlocLoop (cum : List ℤ) (n : ℤ) (lo hi : ℕ) : Option ℕ :=
  if h : lo < hi then
    match cum[(lo + hi) / 2]? with
    | none => none
    | some m => if n + 1 > m then nlocLoop cum n ((lo + hi) / 2 + 1) hi else nlocLoop cum n lo ((lo + hi) / 2)
  else some lo
termination_by hi - lo

/-- `nlocate`, grid1d.py:424-449: interval number, index in the interval, interval. -/
def RIL.nlocate (s : RIL K) (n : ℤ) : Except Err (ℕ × ℤ × Intv K) :=
  if n < 0 ∨ n > s.npts - 1 then .error .value
  else if n = s.npts - 1 then
    match s.ilist.getLast? with
    | none => .error .index
    | some I => .ok (s.ilist.length - 1, I.n - 1, I)
  else
    match nlocLoop s.cumpts n 0 s.ilist.length with
    | none => .error .index
    | some lo =>
      match s.ilist[lo]? with
      | none => .error .index
      | some I => .ok (lo, if lo = 0 then n else n - s.cumpts.getD (lo - 1) 0, I)

/-- A history of `update` calls, whatever they raise. -/
def RIL.run (c : LogExp K) (s : RIL K) (ops : List (K × K × ℤ)) : RIL K :=
  ops.foldl (fun s o => (s.update c o.1 o.2.1 o.2.2).1) s

end
end Verif.Grid1
