import Verif.Grid.Intervals
import Verif.Grid.MaxList

/-!
# One-dimensional grids: the model

Models `IsPeak`, `PeakParams`, `BasicGrid1D` and `Grid1D`, package/inference/grid/grid1d.py:19-44 and 453-989, for
scalar-valued functions (`valSeq` is `None` and `select` is not passed). Functions to be evaluated are pure. Numbers are elements
of a linearly ordered field with a floor function; `log`, `exp`, `sqrt` and `rt2pi` are parameters. Divisions are those of the field; numpy's
own (values are numpy numbers) never raise.
-/

set_option linter.unusedSectionVars false

namespace Verif.Grid1

/-- The functions of numpy that are used, and line 15. -/
structure Fns (K : Type) extends LogExp K where
  sqrt : K → K
  rt2pi : K

section
variable {K : Type} [Field K] [LinearOrder K] [IsStrictOrderedRing K] [FloorRing K]

/-- `IsPeak`, grid1d.py:19-22. -/
def isPeak (y0 y1 y2 : K) : Bool := decide ((y0 < y1 ∧ y1 > y2) ∨ (y0 < y1 ∧ y1 = y2))

/-- `PeakParams` before the square root, grid1d.py:32-43: log amplitude, mean, variance. -/
def peakVar (x0 x1 x2 y0 y1 y2 : K) : K × K × K :=
  let w := x2 - x0
  let alpha := (x1 - x0) / w
  let alpha2 := alpha ^ 2
  let fac := 1 - 2 * alpha2
  let a12 := y0 - y1
  let C := alpha2 / fac + a12 / (a12 - y1 + y2)
  let d := C * w * fac ^ 2 / (2 * alpha * (1 - alpha) + C * (2 - 4 * alpha) * fac)
  let mean := x0 + d
  let alpha2 := w * alpha
  let sig := alpha2 * (1 / 2 * alpha2 - d) / a12
  let logA := y1 + 1 / 2 * (x1 - mean) ^ 2 / sig
  (logA, mean, sig)

/-- `PeakParams`, grid1d.py:25-44. -/
def peakParams (fn : Fns K) (x0 x1 x2 y0 y1 y2 : K) : K × K × K :=
  let r := peakVar x0 x1 x2 y0 y1 y2
  (r.1, r.2.1, fn.sqrt r.2.2)

/-- A `BasicGrid1D`, grid1d.py:460-496. The list of maxima it refers to is passed separately. -/
structure BGrid (K : Type) where
  lo : K
  hi : K
  n : ℤ
  isLin : Bool
  rankPeak : Bool
  step : K
  absc : Option (List K) := none
  vals : Option (List K) := none

/-- `BasicGrid1D.__init__`, grid1d.py:460-496 (the names of types and ranks are flags here). -/
def mkGrid (c : LogExp K) (lo hi : K) (n : ℤ) (isLin rankPeak : Bool) : Except Err (BGrid K) :=
  if n ≤ 1 then .error .value
  else if isLin = false ∧ lo * hi ≤ 0 then .error .value
  else .ok { lo := lo, hi := hi, n := n, isLin := isLin, rankPeak := rankPeak,
             step := if isLin then (hi - lo) / ((n : K) - 1) else c.lg (hi / lo) / ((n : K) - 1) }

/-- Lines 517-520, 583-586, 651-654: the abscissa of point `i`. -/
def BGrid.x (c : LogExp K) (g : BGrid K) (i : ℕ) : K :=
  if g.isLin then g.lo + i * g.step else g.lo * c.ex (i * g.step)

/-- A label in the list of maxima: index, log amplitude, location, width. -/
abbrev Label (K : Type) := ℕ × K × K × K

/-- The measure by which a peak is ranked, grid1d.py:553-556 etc. -/
def BGrid.measure (g : BGrid K) (logA area : K) : K := if g.rankPeak then logA else area

/-- Lines 550-575 (and 605-636): what is offered to the list of maxima at index `i > 1`, given the last three abscissas and ordinates. -/
def BGrid.offers (fn : Fns K) (g : BGrid K) (i : ℕ) (x0 x1 x2 y0 y1 y2 : K) : List (K × Label K) :=
  (if isPeak y0 y1 y2 then
    let p := peakParams fn x0 x1 x2 y0 y1 y2
    [(g.measure p.1 (p.1 + fn.lg (p.2.2 * fn.rt2pi)), (i - 1, p.1, p.2.1, p.2.2))] else []) ++
  (if i = 2 ∧ y0 > y1 then
    let sig := -(1 / 2) * (x1 - x0) / (y1 - y0)
    [(g.measure y0 (y0 + fn.lg (1 / 2 * sig * fn.rt2pi)), (i - 2, y0, x0, sig))] else []) ++
  (if (i : ℤ) = g.n - 1 ∧ y1 < y2 then
    let sig := 1 / 2 * (x2 - x1) / (y2 - y1)
    [(g.measure y2 (y2 + fn.lg (1 / 2 * sig * fn.rt2pi)), (i, y2, x2, sig))] else [])

/-- The state of the loop of `stepfunc`: values so far (numpy zeros beyond) and the list of maxima. -/
abbrev Fill (K : Type) := List K × Option (LML K (Label K))

/-- Offer peaks to the list of maxima. -/
def Fill.offer (st : Fill K) (os : List (K × Label K)) : Res (Fill K) :=
  match st.2 with
  | none => ok st
  | some l =>
    let r := l.updates os
    ((st.1, some r.1), r.2)

/-- One pass through the loop of `stepfunc`, grid1d.py:514-576. Line 516 is overridden by lines 517-520. -/
def BGrid.stepOne (fn : Fns K) (g : BGrid K) (f : K → K) (i : ℕ) (st : Fill K) : Res (Fill K) :=
  let vals := st.1.set i (f (g.x fn.toLogExp i))
  if i > 1 then
    Fill.offer (vals, st.2) (g.offers fn i (g.x fn.toLogExp (i - 2)) (g.x fn.toLogExp (i - 1)) (g.x fn.toLogExp i)
      (vals.getD (i - 2) 0) (vals.getD (i - 1) 0) (vals.getD i 0))
  else ok (vals, st.2)

/-- Passes `i`, `i + 1`, ..., `i + k - 1` through the loop of `stepfunc`. -/
def BGrid.stepLoop (fn : Fns K) (g : BGrid K) (f : K → K) : ℕ → ℕ → Fill K → Res (Fill K)
  | _, 0, st => ok st
  | i, k + 1, st => (g.stepOne fn f i st).andThen fun st => g.stepLoop fn f (i + 1) k st

/-- `stepfunc`, grid1d.py:506-576: the grid, the list of maxima, the exception. -/
def BGrid.stepfunc (fn : Fns K) (g : BGrid K) (f : K → K) (lml : Option (LML K (Label K))) :
    Res (BGrid K × Option (LML K (Label K))) :=
  let r := g.stepLoop fn f 0 g.n.toNat (List.replicate g.n.toNat 0, lml)
  (({ g with vals := some r.1.1 }, r.1.2), r.2)

/-- The loop of `vecfunc`, grid1d.py:599-636, at indices `i`, ..., `i + k - 1`. -/
def BGrid.vecLoop (fn : Fns K) (g : BGrid K) (absc : List K) : ℕ → ℕ → Fill K → Res (Fill K)
  | _, 0, st => ok st
  | i, k + 1, st =>
    (st.offer (g.offers fn i (absc.getD (i - 2) 0) (absc.getD (i - 1) 0) (absc.getD i 0)
      (st.1.getD (i - 2) 0) (st.1.getD (i - 1) 0) (st.1.getD i 0))).andThen fun st => g.vecLoop fn absc (i + 1) k st

/-- The abscissas of `vecfunc`, grid1d.py:583-587. -/
def BGrid.vecAbsc (c : LogExp K) (g : BGrid K) : List K :=
  ((List.range g.n.toNat).map (g.x c)).set (g.n.toNat - 1) g.hi

/-- `vecfunc`, grid1d.py:579-636, for a function that returns as many values as there are abscissas. `if self.lml:` is false for `None` *and* for
an empty list (`LabeledMaxList` has a length). -/
def BGrid.vecfunc (fn : Fns K) (g : BGrid K) (func : List K → List K) (lml : Option (LML K (Label K))) :
    Res (BGrid K × Option (LML K (Label K))) :=
  let absc := g.vecAbsc fn.toLogExp
  let vals := func absc
  let g := { g with absc := some absc, vals := some vals }
  match lml with
  | none => ok (g, lml)
  | some l =>
    if l.list.isEmpty then ok (g, lml)
    else
      let r := g.vecLoop fn absc 2 (g.n.toNat - 2) (vals, some l)
      ((g, r.1.2), r.2)

/-- `point`, grid1d.py:638-671: abscissa, width, and value if there is one. -/
def BGrid.point (c : LogExp K) (g : BGrid K) (i : ℤ) : Except Err (K × K × Option K) :=
  if i < 0 ∨ i ≥ g.n then .error .value
  else
    let x := match g.absc with
      | none => g.x c i.toNat
      | some a => a.getD i.toNat 0
    let v := match g.vals with
      | none => none
      | some v => v[i.toNat]?
    let w := if i = g.n - 1 then 0 else if g.isLin then g.step else x * (c.ex g.step - 1)
    .ok (x, w, v)

/-- `w[1:] - w[:-1]`. -/
def diffs : List K → List K
  | a :: b :: l => (b - a) :: diffs (b :: l)
  | _ => []

/-- `sum(0.5 * w * (v[:-1] + v[1:]))`. -/
def trapSum : List K → List K → K
  | w :: ws, a :: b :: l => 1 / 2 * w * (a + b) + trapSum ws (b :: l)
  | _, _ => 0

/-- Lines 696-699, 714-717: widths of the cells of a log grid. -/
def BGrid.logWidths (c : LogExp K) (g : BGrid K) : List K :=
  match g.absc with
  | some a => diffs a
  | none => diffs ((List.range g.n.toNat).map fun i : ℕ => g.lo * c.ex (i * g.step))

/-- `trapzd`, grid1d.py:673-700. -/
def BGrid.trapzd (c : LogExp K) (g : BGrid K) : Except Err K :=
  match g.vals with
  | none => .error .runtime
  | some v =>
    if g.isLin then .ok (g.step * (v.sum - 1 / 2 * (v.headD 0 + v.getLastD 0)))
    else .ok (trapSum (g.logWidths c) v)

/-- Lines 711-717: an array of step sizes. -/
def BGrid.widths (c : LogExp K) (g : BGrid K) : List K :=
  if g.isLin then List.replicate (g.n - 1).toNat g.step else g.logWidths c

/-- `exp(clip(vals - fmax, smallExp, 0))`, lines 730-731. -/
def clipExp (c : LogExp K) (fmax : K) (v : List K) : List K := v.map fun y => c.ex (min (max (y - fmax) (-725)) 0)

/-- `max(vals)`. -/
def listMax : List K → K
  | [] => 0
  | a :: l => l.foldl max a

/-- `logtrapzd`, grid1d.py:702-733. -/
def BGrid.logtrapzd (c : LogExp K) (g : BGrid K) : Except Err K :=
  match g.vals with
  | none => .error .runtime
  | some v =>
    let fmax := listMax v
    .ok (fmax + c.lg (trapSum (g.widths c) (clipExp c fmax v)))

/-- Lines 752-756: the abscissas, computed and stored if they were not. -/
def BGrid.abscissas (c : LogExp K) (g : BGrid K) : List K :=
  match g.absc with
  | some a => a
  | none => (List.range g.n.toNat).map (g.x c)

/-- `logtrapzd_mom`, grid1d.py:735-787, for `nmom` 2 (`nmom = 1` returns the first two numbers). -/
def BGrid.logtrapzdMom (c : LogExp K) (g : BGrid K) : Except Err (K × K × K) :=
  match g.vals with
  | none => .error .runtime
  | some v =>
    let absc := g.abscissas c
    let w := diffs absc
    let fmax := listMax v
    let fvals := clipExp c fmax v
    let quad := fmax + c.lg (trapSum w fvals)
    let fvals := fvals.map (· * c.ex (fmax - quad))
    let ignd := List.zipWith (· * ·) absc fvals
    let ignd2 := List.zipWith (· * ·) absc ignd
    .ok (quad, trapSum w ignd, trapSum w ignd2)

/-- `int(round(r, 2))`: rounding to two decimals (ties upwards; Python's go to even, which makes no difference to the whole part), then truncation. -/
def round2 (r : K) : ℤ :=
  let h := ⌊r * 100 + 1 / 2⌋
  if h ≥ 0 then h / 100 else -((-h) / 100)

/-- `subgrid`, grid1d.py:789-825. -/
def BGrid.subgrid (c : LogExp K) (g : BGrid K) (lo hi : K) : Except Err (BGrid K) :=
  if lo < g.lo ∨ hi > g.hi then .error .value
  else
    let lnum := if g.isLin then lo - g.lo else c.lg (lo / g.lo)
    let hnum := if g.isLin then hi - g.lo else c.lg (hi / g.lo)
    let nlo := round2 (lnum / g.step)
    let nhi := round2 (hnum / g.step)
    if |(nlo : K) * g.step - lnum| > 1 / 1000 * g.step then .error .value
    else if |(nhi : K) * g.step - hnum| > 1 / 1000 * g.step then .error .value
    else
      match mkGrid c lo hi (nhi - nlo + 1) g.isLin g.rankPeak with
      | .error e => .error e
      | .ok s =>
        let cut (l : List K) : List K := (l.drop nlo.toNat).take (nhi - nlo + 1).toNat
        .ok { s with absc := g.absc.map cut, vals := g.vals.map cut }

/-- A `Grid1D`, grid1d.py:833-856. Until `refine` runs (`refined` is false) `glist` holds the *same object* as `base`. -/
structure Grid1D (K : Type) where
  nmax : Option ℕ
  lml : LML K (Label K)
  base : BGrid K
  ilist : RIL K
  nsig : K
  rpts : ℤ
  totpts : ℤ
  glist : List (BGrid K)
  refined : Bool := false
  rlml : Option (LML K (Label K)) := none

/-- `Grid1D.__init__`, grid1d.py:833-856; `dyn` is the logarithm of `dynrange`; `nsig` and `sigpts` are whole numbers. -/
def Grid1D.init (c : LogExp K) (lo hi : K) (n : ℤ) (isLin : Bool) (nmax : Option ℕ) (dyn : Option K) (sigpts nsig : ℤ) (rankPeak : Bool) :
    Except Err (Grid1D K) :=
  match mkGrid c lo hi n isLin rankPeak with
  | .error e => .error e
  | .ok b =>
    match RIL.init c lo hi n isLin with
    | .error e => .error e
    | .ok r => .ok { nmax := nmax, lml := { nmax := nmax, dyn := dyn }, base := b, ilist := r, nsig := nsig, rpts := nsig * (sigpts - 1) + 1,
                     totpts := n, glist := [b] }

/-- `firstpass`, grid1d.py:881-886. -/
def Grid1D.firstpass (fn : Fns K) (g : Grid1D K) (f : K → K) : Res (Grid1D K) :=
  let r := g.base.stepfunc fn f (some g.lml)
  ({ g with base := r.1.1, lml := r.1.2.getD g.lml, glist := if g.refined then g.glist else [r.1.1] }, r.2)

/-- Lines 902-905: refine the interval list around each maximum. -/
def refineLoop (c : LogExp K) (nsig : K) (rpts : ℤ) (r : RIL K) : List (K × Label K) → Res (RIL K)
  | [] => ok r
  | e :: es => (r.update c (e.2.2.2.1 - nsig * e.2.2.2.2) (e.2.2.2.1 + nsig * e.2.2.2.2) rpts).andThen fun r => refineLoop c nsig rpts r es

/-- Lines 913-917: the grid for an interval. -/
def Grid1D.gridFor (c : LogExp K) (g : Grid1D K) (I : Intv K) : Except Err (BGrid K) :=
  if I.step = g.ilist.base.step then g.base.subgrid c I.lo I.hi
  else mkGrid c I.lo I.hi I.n g.base.isLin g.base.rankPeak

/-- Lines 913-917: the grids for all intervals. -/
def Grid1D.gridsFor (c : LogExp K) (g : Grid1D K) : List (Intv K) → Except Err (List (BGrid K))
  | [] => .ok []
  | I :: l =>
    match g.gridFor c I with
    | .error e => .error e
    | .ok b =>
      match g.gridsFor c l with
      | .error e => .error e
      | .ok bs => .ok (b :: bs)

/-- Lines 923-927: evaluate the function on the grids with another step than the base grid's. -/
def evalGrids (fn : Fns K) (base : BGrid K) (f : K → K) : List (BGrid K) → LML K (Label K) → Res (List (BGrid K) × LML K (Label K))
  | [], l => ok ([], l)
  | b :: bs, l =>
    if b.step ≠ base.step then
      match b.stepfunc fn f (some l) with
      | ((b', l'), some e) => ((b' :: bs, l'.getD l), some e)
      | ((b', l'), none) =>
        let r := evalGrids fn base f bs (l'.getD l)
        ((b' :: r.1.1, r.1.2), r.2)
    else
      let r := evalGrids fn base f bs l
      ((b :: r.1.1, r.1.2), r.2)

/-- `refine`, grid1d.py:888-927, after `firstpass` with `f`, without `dynrange`. -/
def Grid1D.refine (fn : Fns K) (g : Grid1D K) (f : K → K) : Res (Grid1D K) :=
  let r := refineLoop fn.toLogExp g.nsig g.rpts g.ilist g.lml.list
  match r.2 with
  | some e => raise e { g with ilist := r.1 }
  | none =>
    let g := { g with ilist := r.1, totpts := r.1.npts, glist := [], refined := true, rlml := some { nmax := g.nmax, dyn := none } }
    match g.gridsFor fn.toLogExp g.ilist.ilist with
    | .error e => raise e g
    | .ok bs =>
      let r := evalGrids fn g.base f bs { nmax := g.nmax, dyn := none }
      ({ g with glist := r.1.1, rlml := some r.1.2 }, r.2)

/-- `point` and `__getitem__`, grid1d.py:863-870 and 929-934. -/
def Grid1D.point (c : LogExp K) (g : Grid1D K) (n : ℤ) : Except Err (K × K × Option K) :=
  match g.ilist.nlocate n with
  | .error e => .error e
  | .ok (i, indx, _) =>
    match g.glist[i]? with
    | none => .error .index
    | some b => b.point c indx

/-- `trapzd`, grid1d.py:936-943. -/
def Grid1D.trapzd (c : LogExp K) (g : Grid1D K) : Except Err K :=
  g.glist.foldl (fun acc b => do let a ← acc; let t ← b.trapzd c; pure (a + t)) (.ok 0)

/-- One step of the log-sum, grid1d.py:955-957. -/
def logAdd (c : LogExp K) (lsum l : K) : K :=
  if l > lsum then l + c.lg (1 + c.ex (lsum - l)) else lsum + c.lg (1 + c.ex (l - lsum))

/-- The loop of `logtrapzd`, grid1d.py:952-957. -/
def logSumLoop (c : LogExp K) (lsum : K) : List (BGrid K) → Except Err K
  | [] => .ok lsum
  | b :: bs =>
    match b.logtrapzd c with
    | .error e => .error e
    | .ok l => logSumLoop c (logAdd c lsum l) bs

/-- `logtrapzd`, grid1d.py:945-963. -/
def Grid1D.logtrapzd (c : LogExp K) (g : Grid1D K) : Except Err K :=
  match g.glist with
  | [] => .error .index
  | b :: bs =>
    match b.logtrapzd c with
    | .error e => .error e
    | .ok l => logSumLoop c l bs

/-- Collect the results of `logtrapzd_mom`, lines 974-977. -/
def collectMom (c : LogExp K) : List (BGrid K) → Except Err (List (K × K × K))
  | [] => .ok []
  | b :: bs =>
    match b.logtrapzdMom c with
    | .error e => .error e
    | .ok m =>
      match collectMom c bs with
      | .error e => .error e
      | .ok ms => .ok (m :: ms)

/-- `logtrapzd_mom`, grid1d.py:965-989; without `nmom` line 971 calls a method that does not exist. -/
def Grid1D.logtrapzdMom (c : LogExp K) (g : Grid1D K) (nmom : Option ℕ) : Except Err (K × K × K) :=
  match nmom with
  | none => .error .attribute
  | some _ =>
    match collectMom c g.glist with
    | .error e => .error e
    | .ok ms =>
      let q := ms.map (·.1)
      let qmax := listMax q
      let lquad := qmax + c.lg ((q.map fun x => c.ex (x - qmax)).sum)
      .ok (lquad, (ms.map fun m => c.ex (m.1 - lquad) * m.2.1).sum, (ms.map fun m => c.ex (m.1 - lquad) * m.2.2).sum)

end
end Verif.Grid1
