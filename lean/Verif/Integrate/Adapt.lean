import Verif.Common
import Mathlib.Algebra.Order.Field.Basic
import Mathlib.Algebra.Order.Group.Abs
import Mathlib.Data.Rat.Floor

/-!
# Adaptive integration over a box

Model of `package/inference/integrate/adapt.py` and of the subroutines `ADAPT` and `BSRL` of `package/inference/integrate/adapt_py.f`.

Doubles are elements of a linearly ordered field, and integers do not overflow.  The integrand does not raise: when it does the wrapper leaves the subroutine and nothing of it is seen.  The subroutine
`SYMRL`, which computes a sequence of values for a box, is an argument of the model (`SymRule.lean` models it), and the model leaves the half widths as they are: C92 shows that `SYMRL` does so unless limits are
reversed.  The array `WRKSTR` is modelled by the records it holds: record `r` is in the `RGNSTR` cells that end at `r * RGNSTR`,
and `WRKSTR(LENWRK)` is a separate variable; C72 shows that the records and that cell do not overlap.
-/

set_option linter.unusedSectionVars false

namespace Verif.Adapt

variable {K : Type*} [Field K] [LinearOrder K]

/-- A box: its centre and its half widths, at indices from one to the dimension. -/
structure Box (K : Type*) where
  center : ℕ → K
  width : ℕ → K

/-- What `SYMRL` finds for a box: `val m` is `INTVLS(m)`, and `cls m` is `INTCLS` after order `m`. -/
structure Sym (K : Type*) where
  val : ℕ → K
  cls : ℕ → ℕ

/-- integrate/adapt.py:60-64, `adapt_sizes`.  The third number is a float, of which the wrapper takes the integer part. -/
def adaptSizes (ndim maxfac : ℕ) : ℕ × ℕ × ℚ :=
  let rulcls := 2 ^ ndim + 2 * ndim ^ 2 + 6 * ndim + 1
  (rulcls, maxfac * rulcls, (2 * ndim + 3) * (1 + maxfac) / 2)

/-! ## The basic rule -/

/-- integrate/adapt_py.f:237-240: the error estimate after order `m`, and the difference before it. -/
def orderErr (I : ℕ → K) (m : ℕ) : K × K :=
  let e := |I m - I (m - 1)|
  let o := |I (m - 1) - I (m - 2)|
  (if e ≠ 0 then e * max (1 / 10) (e / max (e / 2) o) else e, o)

/-- integrate/adapt_py.f:233-244: the loop over the order, from order `m` for `cnt` orders.  The result is the error and the order reached. -/
def orders (s : Sym K) (maxvls : ℕ) (errmin : K) : ℕ → ℕ → K × ℕ
  | 0, m => ((orderErr s.val m).1, m)
  | cnt + 1, m =>
    let (e, o) := orderErr s.val m
    if o ≤ 5 * e then (e, m)
    else if 2 * s.cls m > maxvls then (e, m)
    else if e < errmin then (e, m)
    else orders s maxvls errmin cnt (m + 1)

/-- Store an entry of a vector. -/
def put {α : Type*} (x : ℕ → α) (i : ℕ) (v : α) : ℕ → α := fun k => if k = i then v else x k

/-- integrate/adapt_py.f:246-267: the fourth difference of the integrand along axis `i`. -/
def fourth (f : (ℕ → K) → K) (b : Box K) (i : ℕ) : K :=
  let at' (t : K) := f (put b.center i (b.center i + t * b.width i))
  let x1 : K := 1 / 2 ^ 2
  let x2 : K := 3 * x1
  let sum0 := f b.center
  let sum1 := at' (-x1) + at' x1
  let sum2 := at' (-x2) + at' x2
  |(sum1 - 2 * sum0) - (x1 / x2) ^ 2 * (sum2 - 2 * sum0)|

/-- integrate/adapt_py.f:253-271: the loop over the axes, from `i` for `cnt` axes; the state is the largest difference and its axis. -/
def axes (f : (ℕ → K) → K) (b : Box K) : ℕ → ℕ → K × ℕ → K × ℕ
  | 0, _, s => s
  | cnt + 1, i, s => axes f b cnt (i + 1) (if fourth f b i < s.1 then s else (fourth f b i, i))

/-- What the basic rule returns. -/
structure Rule (K : Type*) where
  err : K
  val : K
  calls : ℕ
  axis : ℕ

/-- integrate/adapt_py.f:215-276, `BSRL`.  `DIVAXN` has no value before the loop over the axes. -/
def bsrl (symrl : ((ℕ → K) → K) → Box K → Sym K) (ndim : ℕ) (f : (ℕ → K) → K) (b : Box K) (maxvls : ℕ) (errmin : K) (divaxo : ℕ) : Rule K :=
  let s := symrl f b
  let (e, m) := orders s maxvls errmin 8 4
  let (d, ax) := axes f b ndim 1 (-1, 0)
  let ax := if f b.center = f b.center + d / 2 then divaxo % ndim + 1 else ax
  ⟨e, s.val m, s.cls m + 4 * ndim, ax⟩

/-! ## The list of regions -/

/-- A record of the list: the result of the basic rule, and the box. -/
structure Rec (K : Type*) where
  err : K
  val : K
  axis : ℕ
  box : Box K

/-- integrate/adapt_py.f:132-143: move down the tree from the record `r` to the place for a record with the error `e`, with at most `fuel` moves. -/
def down (n : ℕ) (e : K) : ℕ → (ℕ → Rec K) → ℕ → (ℕ → Rec K) × ℕ
  | 0, h, r => (h, r)
  | fuel + 1, h, r =>
    let t := 2 * r
    if t > n then (h, r)
    else
      let t := if t = n then t else if (h t).err < (h (t + 1)).err then t + 1 else t
      if e ≥ (h t).err then (h, r) else down n e fuel (put h r (h t)) t

/-- integrate/adapt_py.f:148-156: move up the tree from the record `r` to the place for a record with the error `e`, with at most `fuel` moves. -/
def up (e : K) : ℕ → (ℕ → Rec K) → ℕ → (ℕ → Rec K) × ℕ
  | 0, h, r => (h, r)
  | fuel + 1, h, r =>
    let t := r / 2
    if t < 1 then (h, r)
    else if e ≤ (h t).err then (h, r)
    else up e fuel (put h r (h t)) t

/-- integrate/adapt_py.f:158-164: store a record. -/
def store (p : (ℕ → Rec K) × ℕ) (x : Rec K) : ℕ → Rec K := put p.1 p.2 x

/-! ## The main loop -/

/-- The variables of `ADAPT` between iterations: the records, how many there are, the estimate, the total of the errors, the number of evaluations. -/
structure St (K : Type*) where
  heap : ℕ → Rec K
  n : ℕ
  finest : K
  toterr : K
  funcls : ℕ

/-- The arguments of `ADAPT`, with the basic rule in place of the integrand. -/
structure Args (K : Type*) where
  ndim : ℕ
  a : ℕ → K
  b : ℕ → K
  minpts : ℕ
  maxpts : ℕ
  eps : K
  lenwrk : ℕ
  rule : Box K → ℕ → K → ℕ → Rule K

/-- integrate/adapt_py.f:96-123, 158-164: the first application of the basic rule.  `init` is what the working storage holds before. -/
def start (g : Args K) (init : ℕ → Rec K) : St K :=
  let maxcls := min (2 ^ g.ndim + 2 * g.ndim ^ 2 + 6 * g.ndim + 1) g.maxpts
  let width := fun j => (g.b j - g.a j) * (1 / 2)
  let box : Box K := ⟨fun j => g.a j + width j, width⟩
  let r := g.rule box maxcls 0 0
  ⟨store (up r.err 1 init 1) ⟨r.err, r.val, r.axis, box⟩, 1, 0 + r.val, 0 + r.err, 0 + r.calls⟩

/-- integrate/adapt_py.f:178-181: the total of the errors and the relative error. -/
def relerr (s : St K) : K × K :=
  let t := if s.toterr ≤ 0 then 0 else s.toterr
  let r := if |s.finest| ≠ 0 then t / |s.finest| else 1
  (t, if r > 1 then 1 else r)

/-- integrate/adapt_py.f:182-184: the failure indicator. -/
def ifail (g : Args K) (s : St K) : ℕ :=
  let rgnstr := 2 * g.ndim + 3
  let f := 3
  let f := if s.n * rgnstr + rgnstr + 2 > g.lenwrk then 2 else f
  let f := if s.funcls + s.funcls * rgnstr / (s.n * rgnstr) > g.maxpts then 1 else f
  if (relerr s).2 < g.eps ∧ s.funcls ≥ g.minpts then 0 else f

/-- integrate/adapt_py.f:189-202, 119-172: divide the first region of the list. -/
def split (g : Args K) (s : St K) : St K :=
  let subtmp := 2 * s.n
  let maxcls := g.maxpts / subtmp
  let errmin := |s.finest| * g.eps / (subtmp : K)
  let top := s.heap 1
  let w := put top.box.width top.axis (top.box.width top.axis * (1 / 2))
  let left : Box K := ⟨put top.box.center top.axis (top.box.center top.axis - w top.axis), w⟩
  let l := g.rule left maxcls errmin top.axis
  let h := store (down s.n l.err s.n s.heap 1) ⟨l.err, l.val, l.axis, left⟩
  let right : Box K := ⟨put left.center top.axis (left.center top.axis + 2 * w top.axis), w⟩
  let r := g.rule right maxcls errmin top.axis
  ⟨store (up r.err (s.n + 1) h (s.n + 1)) ⟨r.err, r.val, r.axis, right⟩, s.n + 1, s.finest - top.val + l.val + r.val, (relerr s).1 - top.err + l.err + r.err, s.funcls + l.calls + r.calls⟩

/-- integrate/adapt_py.f:178-206: the main loop, with at most `fuel` iterations. -/
def loop (g : Args K) : ℕ → St K → Option (St K)
  | 0, _ => none
  | fuel + 1, s => if ifail g s < 3 then some s else loop g fuel (split g s)

/-- What `ADAPT` returns. -/
structure Out (K : Type*) where
  minpts : ℕ
  relerr : K
  finest : Option K
  ifail : ℕ

/-- integrate/adapt_py.f:12-213, `ADAPT`, for `MINPTS` not negative.  When it fails at once the estimate has no value. -/
def adaptSub (fuel : ℕ) (g : Args K) (init : ℕ → Rec K) : Option (Out K) :=
  if g.ndim < 2 ∨ g.ndim > 20 then some ⟨0, 1, none, 3⟩
  else if g.minpts > g.maxpts then some ⟨0, 1, none, 3⟩
  else (loop g fuel (start g init)).map fun s => ⟨s.funcls, (relerr s).2, some s.finest, ifail g s⟩

/-- What `adapt` gives: a result, the error and the number of evaluations; nothing (`None`); or an exception. -/
inductive Ans (K : Type*)
  | result (val err : K) (npts : ℕ)
  | none
  | raises (e : Err)

/-- integrate/adapt.py:67-93, `adapt`, for limits of the same length `ndim`. -/
def adapt (fuel : ℕ) (symrl : ((ℕ → K) → K) → Box K → Sym K) (init : ℕ → Rec K) (f : (ℕ → K) → K) (ndim : ℕ) (lower upper : ℕ → K) (relacc : K) (_maxfac : ℕ) (_wrkfac : K) : Option (Ans K) :=
  let (minpts, maxpts, lenwrk) := adaptSizes ndim 100
  (adaptSub fuel ⟨ndim, lower, upper, minpts, maxpts, relacc, ⌊lenwrk⌋₊, bsrl symrl ndim f⟩ init).map fun o =>
    if o.ifail = 0 then (match o.finest with | some v => .result v o.relerr o.minpts | Option.none => .none)
    else if o.ifail = 1 then .raises .runtime
    else if o.ifail = 2 then .raises .runtime
    else .none

end Verif.Adapt
