import Verif.Common
import Verif.Km.Spec
import Mathlib.Data.List.Sort
import Mathlib.Data.Int.Order.Basic

/-!
# Model of sandbox/asurv/KM.py and sandbox/asurv/_asurvkm.f

Reals are an exact linearly ordered field.  Errors are kept as their squares (the code takes the square root, `DSQRT`, last).  Not modelled: the
error of the mean, `plot`, `plot_diff`, the direct interface `plestm`, and the arrays `ATIE`, `RISK` that nothing reads.
-/

set_option linter.unusedSectionVars false

namespace Verif.Km

open Verif

variable {K : Type*} [Field K] [LinearOrder K]

/-- Ascending order.  `SORT1` (_asurvkm.f:899-954) exchanges elements until each is the largest of those up to it; only the resulting order of
the values is modelled. -/
def sorted (l : List K) : List K := l.insertionSort (· ≤ ·)

/-- Changing the largest limits to detections, `PLEST1`: _asurvkm.f:589-604.  `cr` are the limits from the largest down.  Result: the
detections, the limits left, and `NCHANGE`. -/
def moveTail (u : List K) : List K → List K × List K × ℕ
  | [] => (u, [], 0)
  | c :: cs =>
    if u.getLastD 0 ≤ c then
      let r := moveTail (u ++ [c]) cs
      (r.1, r.2.1, r.2.2 + 1)
    else (u, (c :: cs).reverse, 0)

/-- The ranks `L(I)`: _asurvkm.f:606-625; `i` is the position, `kk` the limits passed, `cs` the limits left. -/
def ranks (i kk : ℕ) : List K → List K → List ℕ
  | [], _ => []
  | u :: us, cs =>
    let m := (cs.takeWhile fun c => decide (c < u)).length
    (i + kk + m) :: ranks (i + 1) (kk + m) us (cs.drop m)

/-- `S(I)` and the square of `V(I)`: _asurvkm.f:629-643. -/
def plSteps (nt : ℕ) (pt v1 : K) : List ℕ → List (K × K)
  | [] => []
  | l :: ls =>
    let pt' := pt * (((nt : K) - l) / ((nt : K) - l + 1))
    if (nt : K) - l ≤ 0 then (pt', 0) :: plSteps nt pt' v1 ls
    else
      let v1' := v1 + 1 / (((nt : K) - l) * ((nt : K) - l + 1))
      (pt', pt' ^ 2 * v1') :: plSteps nt pt' v1' ls

/-- The sum for the mean: _asurvkm.f:651-663, from the detection `up` with estimate `sp` on.  (Where the last detections are tied the code
also reads the storage after them; it is taken to hold something else.) -/
def meanGo (up sp : K) : List (K × K) → K
  | [] => 0
  | (u, s) :: r => if u ≠ up then sp * (u - up) + meanGo u s r else meanGo up s r

/-- `SMEAN`: _asurvkm.f:651-663. -/
def meanOf : List (K × K) → K
  | [] => 0
  | (u, s) :: r => u + meanGo u s r

/-- A row of results: value, estimate, squared error. -/
structure Row (K : Type*) where
  z : K
  s : K
  v : K
deriving DecidableEq

/-- The jumps `F(I)`: _asurvkm.f:167-170. -/
def jumps (s0 : K) : List K → List K
  | [] => []
  | s :: r => (s0 - s) :: jumps s r

/-- `S(I)` from the jumps: _asurvkm.f:214-219. -/
def survive (s0 : K) : List K → List K
  | [] => []
  | f :: r => (s0 - f) :: survive (s0 - f) r

/-- The errors after the exchanges of _asurvkm.f:185-189, which turn round all but the last. -/
def vswap (v : List K) : List K := v.dropLast.reverse ++ v.getLast?.toList

/-- Three lists as rows. -/
def zipRows : List K → List K → List K → List (Row K)
  | z :: zs, s :: ss, v :: vs => ⟨z, s, v⟩ :: zipRows zs ss vs
  | _, _, _ => []

/-- Turning the results for upper limits round: `KMADJ`, _asurvkm.f:166-220. -/
def adjust (r : List (Row K)) : List (Row K) :=
  zipRows ((r.map Row.z).reverse.map fun z => -z) (survive 1 (jumps 1 (r.map Row.s)).reverse) (vswap (r.map Row.v))

/-- Removing ties, `KMADJ`: _asurvkm.f:226-239; the last row of each group of equal values stays. -/
def dedupe : List (Row K) → List (Row K)
  | [] => []
  | [a] => [a]
  | a :: b :: r => if a.z = b.z then dedupe (b :: r) else a :: dedupe (b :: r)

/-- The loop tests once even when there is one value only, against the storage after it, which the wrapper has filled with zero if there is
any: _asurvkm.f:228, 239. -/
def dedupe1 (ntot : ℕ) : List (Row K) → List (Row K)
  | [a] => if 2 ≤ ntot ∧ a.z = 0 then [] else [a]
  | l => dedupe l

/-- `ISIGN`: _asurvkm.f:817, 825-830. -/
def xsign (ind : List ℤ) : ℤ := ind.foldl (fun s i => if i = 0 then s else i.sign) 1

/-- The check for mixed limits: _asurvkm.f:835-844. -/
def xmixed (ind : List ℤ) : Bool := ind.any fun i => decide (i ≠ 0) && decide (i.sign ≠ xsign ind)

/-- Detections, times `ISIGN`: _asurvkm.f:849-854, 865-869. -/
def xdets (sg : ℤ) (ind : List ℤ) (x : List K) : List K := (ind.zip x).filterMap fun p => if p.1 = 0 then some ((sg : K) * p.2) else none

/-- Limits, times `ISIGN`: _asurvkm.f:849-854, 884-886. -/
def xlims (sg : ℤ) (ind : List ℤ) (x : List K) : List K := (ind.zip x).filterMap fun p => if p.1 = 0 then none else some ((sg : K) * p.2)

/-- What `kmestm` returns of interest. -/
structure Out (K : Type*) where
  rows : List (Row K)
  mean : K
  cens : List K
deriving DecidableEq

/-- `out`: results; `bad`: the error indicator is set; `undef`: storage outside the arrays' contents is read as data (no detections at all, or
fewer rows than points to be changed back). -/
inductive KmRes (K : Type*) where
  | out (o : Out K)
  | bad
  | undef

/-- `PLEST1` for sorted data: _asurvkm.f:540-643. -/
def plest (u c : List K) : List (Row K) × List K × ℕ :=
  let m := moveTail u c.reverse
  let sv := plSteps (m.1.length + m.2.1.length) 1 0 (ranks 1 0 m.1 m.2.1)
  (zipRows m.1 (sv.map Prod.fst) (sv.map Prod.snd), m.2.1, m.2.2)

/-- `KMESTM` for signed, separated data: _asurvkm.f:72-132, and the arrays trimmed as KM.py:58-61 do.  Limits changed to
detections stay in storage after the limits left, and are counted again. -/
def kmCore (sg : ℤ) (ntot : ℕ) (d c : List K) : KmRes K :=
  let u := sorted d
  let cc := sorted c
  if u = [] then .undef
  else
    let p := plest u cc
    let rows := dedupe1 ntot (if sg < 0 then adjust p.1 else p.1)
    let cens := (if sg < 0 then p.2.1.reverse.map fun z => -z else p.2.1) ++ cc.drop p.2.1.length
    if rows.length < p.2.2 then .undef
    else .out ⟨rows.take (rows.length - p.2.2), (sg : K) * meanOf (p.1.map fun r => (r.z, r.s)), cens⟩

/-- `KMESTM`: _asurvkm.f:5-132, `XVAR`: _asurvkm.f:777-892. -/
def kmestm (ind : List ℤ) (x : List K) : KmRes K :=
  if xmixed ind then .bad
  else kmCore (xsign ind) x.length (xdets (xsign ind) ind x) (xlims (xsign ind) ind x)

/-- The weights: KM.py:65-68. -/
def kmWts : List K → List K
  | [] => []
  | [a] => [a]
  | a :: b :: r => (a - b) :: kmWts (b :: r)

/-- `cumsum`: population.py:201. -/
def cumsum (t : K) : List K → List K
  | [] => []
  | w :: r => (t + w) :: cumsum (t + w) r

/-- The attributes of a `KM` object. -/
structure KM (K : Type*) where
  ntot : ℕ
  kmCdf : List K
  errSq : List K
  mean : K
  uncens : List K
  cens : List K
  weights : List K
  cdf : List K
deriving DecidableEq

/-- What constructing a `KM` object comes to. -/
inductive Made (K : Type*) where
  | obj (o : KM K)
  | err (e : Err)
  | undef
deriving DecidableEq

/-- From the indicators and data on: KM.py:53-69, population.py:191-201 (the values are in ascending order already, so that sorting
leaves them).  Without any uncensored value left, line 68 is an `IndexError`. -/
def kmFinish (ind : List ℤ) (x : List K) : Made K :=
  match kmestm ind x with
  | .bad => .err .value
  | .undef => .undef
  | .out o =>
    if o.rows = [] then .err .index
    else
      let km := o.rows.map Row.s
      .obj ⟨x.length, km, o.rows.map Row.v, o.mean, o.rows.map Row.z, o.cens, kmWts km, cumsum 0 (kmWts km)⟩

/-- `KM.__init__`: KM.py:17-69, with lists for arguments.  The name `dtxs` at line 43 is not defined. -/
def kmInit (dtxns ulims llims all : Option (List K)) (ind : Option (List ℤ)) : Made K :=
  let truthy (x : Option (List K)) : Bool := x.any fun l => !l.isEmpty
  match all with
  | some a =>
    if truthy dtxns || truthy ulims || truthy llims then .err .value
    else
      match ind with
      | none => .err .value
      | some i => if i.length ≠ a.length then .err .value else kmFinish i a
  | none =>
    if ulims.isSome && llims.isSome then .err .value
    else
      match ulims with
      | some u =>
        match dtxns with
        | none => .err .value
        | some d => kmFinish (List.replicate d.length 0 ++ List.replicate u.length 1) (d ++ u)
      | none =>
        match llims with
        | some _ => .err .name
        | none => .err .value

/-- The masses `F(I)`: _asurvkm.f:291-295. -/
def massOf : List K → List K
  | [] => []
  | s :: r => (1 - s) :: ((s :: r).zip r).map fun p => |p.2 - p.1|

/-- One bin: _asurvkm.f:309-332; the points from the current one on, and those left.  The last point is never passed. -/
def fillBin (bs bl acc : K) : List (K × K) → K × List (K × K)
  | [] => (acc, [])
  | [p] => if p.1 < bs then (acc, [p]) else if bl ≤ p.1 then (acc, [p]) else (acc + p.2, [p])
  | p :: q :: r =>
    if p.1 < bs then fillBin bs bl acc (q :: r)
    else if bl ≤ p.1 then (acc, p :: q :: r)
    else fillBin bs bl (acc + p.2) (q :: r)

/-- Bins from the `j`-th (from zero) on, `n` of them: _asurvkm.f:300-333.  `mem` is the storage from `DIFF(1)` on; line 309 zeroes the next
element before line 314 looks whether there is such a bin. -/
def fillBins (start binsiz : K) (pts : List (K × K)) (mem : ℕ → K) (j : ℕ) : ℕ → (ℕ → K)
  | 0 => Function.update mem j 0
  | n + 1 =>
    let r := fillBin (start + binsiz * j) (start + binsiz * (j + 1)) 0 pts
    fillBins start binsiz r.2 (Function.update mem j r.1) (j + 1) n

/-- `KMDIF`: _asurvkm.f:250-349: the storage from `DIFF(1)` on, afterwards. -/
def kmdif (s zu : List K) (ntot : ℕ) (start binsiz : K) (lstep : ℕ) (mem : ℕ → K) : ℕ → K :=
  let m := fillBins start binsiz (zu.zip (massOf s)) mem 0 lstep
  fun i => if i < lstep then m i * ntot else m i

/-- `KM.diff`: KM.py:71-78: the values of the bins. -/
def KM.diff (o : KM K) (nb : ℕ) (start w : K) (mem : ℕ → K) : List K :=
  (List.range nb).map (kmdif o.cdf o.uncens o.ntot start w nb mem)

/-- The search for a percentile: _asurvkm.f:759-765, from the `j`-th point on. -/
def scanQ (ty : K) : ℕ → List (K × K) → Option (K × ℕ)
  | j, a :: b :: r =>
    if ty ≤ a.2 ∧ b.2 ≤ ty then some (a.1 - (a.2 - ty) / (a.2 - b.2) * (a.1 - b.1), j + 1)
    else scanQ ty (j + 1) (b :: r)
  | _, _ => none

/-- One percentile: _asurvkm.f:756-766, with the place to start from; the place the next starts from. -/
def quart1 (pts : List (K × K)) (ty : K) (l : ℕ) : K × ℕ :=
  match pts with
  | [] => (0, l)
  | p :: _ =>
    if p.2 < ty then (p.1 - (ty - p.2) / (1 - p.2) * (p.1 - 0), l)
    else
      match scanQ ty l (pts.drop l) with
      | some r => r
      | none => (0, l)

/-- `QUART`: _asurvkm.f:713-770. -/
def quart (u s : List K) : K × K × K :=
  let pts := u.zip s
  let a := quart1 pts (3 / 4) 0
  let b := quart1 pts (1 / 2) a.2
  let c := quart1 pts (1 / 4) b.2
  (a.1, b.1, c.1)

/-- `KM.quartiles`: KM.py:80-88. -/
def KM.quartiles (o : KM K) : Except Err (K × K × K) :=
  if o.uncens.length < 4 then .error .value else .ok (quart o.uncens o.kmCdf)

/-- The pairs of points at each jump: KM.py:100-104; `y` is the ordinate so far. -/
def stepPts (y : K) : List (K × K) → List (K × K)
  | [] => []
  | (x, p) :: r => (x, y) :: (x, p) :: stepPts p r

/-- `KM.cdf_pts`: KM.py:90-115; the points of the curve. -/
def KM.cdfPts (o : KM K) (start fin : K) : Except Err (List (K × K)) :=
  if o.uncens.headD 0 < start ∨ fin < o.uncens.getLastD 0 then .error .value
  else .ok ((start, 1) :: stepPts 1 (o.uncens.zip o.kmCdf) ++ [(fin, 0)])

end Verif.Km
