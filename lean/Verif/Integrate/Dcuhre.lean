import Verif.Integrate.Adapt
import Verif.Integrate.AdaptVec

/-!
# The vector integrator DCUHRE

Model of the subroutines `DCUHRE` (`package/inference/integrate/dcuhre_py.f`), `DCHHRE` (`dchhre.f`), `DADHRE` (`dadhre.f`) and `DTRHRE` (`dtrhre.f`), with the bindings of `dcuhre.pyf`.

Doubles are elements of a linearly ordered field, and integers do not overflow.  A column of the arrays `VALUES`, `ERRORS`, `CENTRS`, `HWIDTS`, `GREATE` and `DIR` is a record; vectors are functions of the index, of which only the
values from one to `NUMFUN` or `NDIM` matter.  What memory holds before it is set is arbitrary.  `MDIV` is one, as `DCUHRE` has it (dcuhre_py.f:376), so that `NDIV` is one.  The basic rule `DRLHRE` is an argument here; it is modelled in
`Verif.Integrate.Drlhre`.  The integrand does not raise.
-/

set_option linter.unusedSectionVars false

namespace Verif.Dcuhre

open Verif.Adapt (put Box)

variable {K : Type*} [Field K] [LinearOrder K]

/-- A region: column `I` of `GREATE`, `DIR`, `VALUES`, `ERRORS`, `CENTRS` and `HWIDTS`. -/
structure Rg (K : Type*) where
  great : K
  dir : ℕ
  val : ℕ → K
  err : ℕ → K
  box : Box K

/-- What the basic rule finds: `BASVAL`, `RGNERR` and `DIRECT`. -/
structure Out (K : Type*) where
  val : ℕ → K
  err : ℕ → K
  dir : ℕ

/-! ## The heap -/

/-- integrate/dtrhre.f:95-126: from label 20, with `n` for `SBRGNS`, `e` for `GREAT` and `r` for `SUBRGN`.  `fuel` limits the number of rounds; `SBRGNS` is enough. -/
def down (n : ℕ) (e : K) : ℕ → (ℕ → Rg K) → ℕ → (ℕ → Rg K) × ℕ
  | 0, h, r => (h, r)
  | fuel + 1, h, r =>
    let t := 2 * r
    if t ≤ n then
      let t := if t ≠ n then (if (h t).great < (h (t + 1)).great then t + 1 else t) else t
      if e < (h t).great then down n e fuel (put h r (h t)) t else (h, r)
    else (h, r)

/-- integrate/dtrhre.f:132-155: from label 40. -/
def up (e : K) : ℕ → (ℕ → Rg K) → ℕ → (ℕ → Rg K) × ℕ
  | 0, h, r => (h, r)
  | fuel + 1, h, r =>
    let t := r / 2
    if t ≥ 1 then
      if e > (h t).great then up e fuel (put h r (h t)) t else (h, r)
    else (h, r)

/-- integrate/dtrhre.f:78-126, 160-171, `DTRHRE` with `DVFLAG` one: the first region is removed.  The result is the heap; `SBRGNS` becomes `n - 1`. -/
def remove (n : ℕ) (h : ℕ → Rg K) : ℕ → Rg K :=
  let x := h n
  let p := down (n - 1) x.great n h 1
  if n - 1 > 0 then put p.1 p.2 x else p.1

/-- integrate/dtrhre.f:78-87, 127-171, `DTRHRE` with `DVFLAG` two: region `n` is put into its place. -/
def insert (n : ℕ) (h : ℕ → Rg K) : ℕ → Rg K :=
  let x := h n
  let p := up x.great n h n
  if n > 0 then put p.1 p.2 x else p.1

/-! ## The loop -/

/-- The arguments of `DADHRE`: `NDIM`, `NUMFUN`, `A`, `B`, `MINSUB`, `MAXSUB`, `EPSABS`, `EPSREL`, `NUM`, the basic rule, `ERRCOF(5)` and `ERRCOF(6)`. -/
structure Args (K : Type*) where
  ndim : ℕ
  numfun : ℕ
  a : ℕ → K
  b : ℕ → K
  minsub : ℤ
  maxsub : ℤ
  epsabs : K
  epsrel : K
  num : ℕ
  rule : Box K → Out K
  c5 : K
  c6 : K

/-- The variables at label 110: the regions, `SBRGNS`, `RESULT`, `ABSERR` and `NEVAL`. -/
structure St (K : Type*) where
  heap : ℕ → Rg K
  n : ℕ
  res : ℕ → K
  abserr : ℕ → K
  neval : ℕ

/-- integrate/dadhre.f:213-218: the loop over `J` for `cnt` values from `j`; `INTSGN`. -/
def intsgn (a b : ℕ → K) : ℕ → ℕ → ℤ → ℤ
  | 0, _, s => s
  | cnt + 1, j, s => intsgn a b cnt (j + 1) (if b j < a j then -s else s)

/-- integrate/dadhre.f:235-238: the first region. -/
def whole (g : Args K) : Box K := ⟨fun j => (g.a j + g.b j) / 2, fun j => |g.b j - g.a j| / 2⟩

/-- integrate/drlhre.f, as it is called: the outcome of the basic rule is stored in the region. -/
def apply (g : Args K) (x : Rg K) : Rg K :=
  let o := g.rule x.box
  { x with val := o.val, err := o.err, dir := o.dir }

/-- integrate/dadhre.f:234-268: from the start to label 110; `mem` is what the arrays hold before. -/
def start (g : Args K) (mem : ℕ → Rg K) : St K :=
  let h := put mem 1 { mem 1 with box := whole g }
  let h := put h 1 (apply g (h 1))
  ⟨insert 1 h, 1, fun j => 0 + (h 1).val j, fun j => 0 + (h 1).err j, 0 + g.num⟩

/-- integrate/dadhre.f:370, 372, 386-389: `GREATE` of a new region, the loop over `J` for `cnt` values from `j`. -/
def greatest (err : ℕ → K) : ℕ → ℕ → K → K
  | 0, _, e => e
  | cnt + 1, j, e => greatest err cnt (j + 1) (if err j > e then err j else e)

/-- integrate/dadhre.f:373-385: `ERRORS` of one of the two new regions, from its error `e`, for component values `old` of the region before and `v₁`, `v₂`, `e₁`, `e₂` of the new ones. -/
def adjust (g : Args K) (old v₁ v₂ e₁ e₂ e : K) : K :=
  let est1 := |old - (v₁ + v₂)|
  let est2 := e₁ + e₂
  let e := if est2 > 0 then e * (1 + g.c5 * est1 / est2) else e
  e + g.c6 * est1

/-- integrate/dadhre.f:292-406, with `NDIV` one: the first region is divided. -/
def split (g : Args K) (s : St K) : St K :=
  let h := s.heap
  let top := h 1
  let res := fun j => s.res j - top.val j
  let abserr := fun j => s.abserr j - top.err j
  -- POINTR is `s.n + 1`
  let d := top.dir
  let w := put top.box.width d (top.box.width d / 2)
  let left : Box K := ⟨put top.box.center d (top.box.center d - w d), w⟩
  let h := put h (s.n + 1) { h (s.n + 1) with box := left, dir := d }
  let h := remove s.n h
  let n := s.n - 1
  let right : Box K := ⟨put left.center d (top.box.center d + w d), put left.width d (left.width d)⟩
  let h := put h s.n { h s.n with box := right, dir := d }
  -- lines 348-355
  let h := put h (n + 1) (apply g (h (n + 1)))
  let h := put h (n + 2) (apply g (h (n + 2)))
  let neval := s.neval + 2 * g.num
  let r := h (n + 1)
  let l := h (n + 2)
  let res := fun j => res j + r.val j + l.val j
  -- lines 369-396
  let er := fun j => adjust g (top.val j) (r.val j) (l.val j) (r.err j) (l.err j) (r.err j)
  let el := fun j => adjust g (top.val j) (r.val j) (l.val j) (r.err j) (l.err j) (l.err j)
  let h := put h (n + 1) { r with err := er, great := greatest er g.numfun 1 0 }
  let h := put h (n + 2) { l with err := el, great := greatest el g.numfun 1 0 }
  let abserr := fun j => abserr j + er j + el j
  let h := insert (n + 1) h
  let h := insert (n + 2) h
  ⟨h, n + 2, res, abserr, neval⟩

/-- integrate/dadhre.f:413-418: the loop over `J` for `cnt` values from `j`: true if there is no jump. -/
def accurate (g : Args K) (s : St K) : ℕ → ℕ → Bool
  | 0, _ => true
  | cnt + 1, j => if s.abserr j > g.epsrel * |s.res j| ∧ s.abserr j > g.epsabs then false else accurate g s cnt (j + 1)

/-- integrate/dadhre.f:275-427: from label 110; the result is `IFAIL` and the variables.  None if `fuel` divisions are not enough. -/
def loop (g : Args K) : ℕ → St K → Option (ℕ × St K)
  | 0, _ => none
  | fuel + 1, s =>
    if (s.n : ℤ) + 1 ≤ g.maxsub then
      let s := split g s
      if (s.n : ℤ) < g.minsub then loop g fuel s
      else if accurate g s g.numfun 1 then some (0, s)
      else loop g fuel s
    else some (1, s)

/-- What `DADHRE` returns: `RESULT`, `ABSERR`, `NEVAL`, `IFAIL`, `NSUB`, and the regions. -/
structure Ans (K : Type*) where
  res : ℕ → K
  abserr : ℕ → K
  neval : ℕ
  ifail : ℕ
  nsub : ℕ
  heap : ℕ → Rg K

/-- integrate/dadhre.f:432-441: a total, the loop over `I` for `cnt` values from `i`. -/
def total (v : ℕ → K) : ℕ → ℕ → K → K
  | 0, _, t => t
  | cnt + 1, i, t => total v cnt (i + 1) (t + v i)

/-- integrate/dadhre.f:431-449: from label 499. -/
def finish (g : Args K) (ifail : ℕ) (s : St K) : Ans K :=
  ⟨fun j => total (fun i => (s.heap i).val j) s.n 1 0 * (intsgn g.a g.b g.ndim 1 1 : ℤ), fun j => total (fun i => (s.heap i).err j) s.n 1 0, s.neval, ifail, s.n, s.heap⟩

/-- integrate/dadhre.f:213-449, `DADHRE`, with `RESTAR` zero. -/
def dadhre (fuel : ℕ) (g : Args K) (mem : ℕ → Rg K) : Option (Ans K) := (loop g fuel (start g mem)).map fun r => finish g r.1 r.2

/-- integrate/dadhre.f:213-230, 275-449, `DADHRE`, with `RESTAR` one: `mem` and `nsub` are what the run before left, and `res`, `abserr` and `neval` what these arguments hold. -/
def dadhreRestart (fuel : ℕ) (g : Args K) (mem : ℕ → Rg K) (nsub : ℕ) (res abserr : ℕ → K) (neval : ℕ) : Option (Ans K) :=
  (loop g fuel ⟨mem, nsub, res, abserr, neval⟩).map fun r => finish g r.1 r.2

/-! ## The checks, and the driver -/

/-- The arguments of `DCUHRE`. -/
structure Call (K : Type*) where
  ndim : ℕ
  numfun : ℤ
  a : ℕ → K
  b : ℕ → K
  minpts : ℤ
  maxpts : ℤ
  epsabs : K
  epsrel : K
  key : ℤ
  nw : ℤ
  restar : ℤ

/-- What `DCHHRE` finds when there is no failure: `KEYF`, `NUM`, `WTLENG`, `MAXSUB` and `MINSUB`. -/
structure Plan where
  keyf : ℤ
  num : ℤ
  wtleng : ℕ
  maxsub : ℤ
  minsub : ℤ

/-- integrate/dchhre.f:162-172: `KEYF`. -/
def keyf (key : ℤ) (ndim : ℕ) : ℤ :=
  if key = 0 then (if ndim = 2 then 1 else if ndim = 3 then 2 else 3) else key

/-- integrate/dchhre.f:176-190: `NUM` and `WTLENG`. -/
def ruleLen (keyf : ℤ) (ndim : ℕ) : ℤ × ℕ :=
  let n : ℤ := ndim
  if keyf = 1 then (65, 14)
  else if keyf = 2 then (127, 13)
  else if keyf = 3 then (1 + 4 * 2 * n + 2 * n * (n - 1) + 4 * n * (n - 1) + (4 * n * (n - 1) * (n - 2)).tdiv 3 + 2 ^ ndim, if ndim = 2 then 8 else 9)
  else (1 + 3 * 2 * n + 2 * n * (n - 1) + 2 ^ ndim, 6)

/-- integrate/dchhre.f:213-218: the loop over `J` for `cnt` values from `j`: whether a width is zero. -/
def flat (a b : ℕ → K) : ℕ → ℕ → Bool
  | 0, _ => false
  | cnt + 1, j => if a j - b j = 0 then true else flat a b cnt (j + 1)

/-- integrate/dchhre.f:130-255, `DCHHRE`, with `MAXDIM` 15 and `MDIV` one: `IFAIL` or the plan. -/
def dchhre (c : Call K) : ℕ ⊕ Plan :=
  if c.key < 0 ∨ c.key > 4 then .inl 2
  else if c.ndim < 2 ∨ c.ndim > 15 then .inl 3
  else if c.key = 1 ∧ c.ndim ≠ 2 then .inl 4
  else if c.key = 2 ∧ c.ndim ≠ 3 then .inl 5
  else
    let kf := keyf c.key c.ndim
    let num := (ruleLen kf c.ndim).1
    let wtleng := (ruleLen kf c.ndim).2
    let maxsub := (c.maxpts - num).tdiv (2 * num) + 1
    let minsub := (c.minpts - num).tdiv (2 * num) + 1
    let minsub := if (c.minpts - num).tmod (2 * num) ≠ 0 then minsub + 1 else minsub
    let minsub := max 2 minsub
    if c.numfun < 1 then .inl 6
    else if flat c.a c.b c.ndim 1 then .inl 7
    else if c.maxpts < 3 * num then .inl 8
    else if c.maxpts < c.minpts then .inl 9
    else if c.epsabs < 0 ∧ c.epsrel < 0 then .inl 10
    else if c.nw < maxsub * (2 * c.ndim + 2 * c.numfun + 2) + 17 * 1 * c.numfun + 1 then .inl 11
    else if c.restar ≠ 0 ∧ c.restar ≠ 1 then .inl 12
    else .inr ⟨kf, num, wtleng, maxsub, minsub⟩

/-- integrate/dcuhre_py.f:391: `WRKSUB`. -/
def wrksub (c : Call K) : ℤ := (c.nw - 1 - 17 * 1 * c.numfun).tdiv (2 * c.ndim + 2 * c.numfun + 2)

/-- integrate/dcuhre_py.f:398-405, 424: where each part of `WORK` begins, and how long `DADHRE` takes it to be (dadhre.f:181-187), with `MDIV` one: `VALUES`, `ERRORS`, `CENTRS`, `HWIDTS`, `GREATE`, `DIR`, `OLDRES`, `WORK`. -/
def workParts (c : Call K) (p : Plan) : List (ℤ × ℤ) :=
  let i1 := 1
  let i2 := i1 + wrksub c * c.numfun
  let i3 := i2 + wrksub c * c.numfun
  let i4 := i3 + wrksub c * c.ndim
  let i5 := i4 + wrksub c * c.ndim
  let i6 := i5 + wrksub c
  let i7 := i6 + wrksub c
  let i8 := i7 + c.numfun * 1
  [(i1, c.numfun * p.maxsub), (i2, c.numfun * p.maxsub), (i3, c.ndim * p.maxsub), (i4, c.ndim * p.maxsub), (i5, p.maxsub), (i6, p.maxsub), (i7, c.numfun * 1), (i8, 16 * 1 * c.numfun)]

/-- integrate/dcuhre_py.f:406-413: where each part of `WORK2` begins, and how long `DADHRE` takes it to be (dadhre.f:186-190): `G`, `W`, `RULPTS`, `CENTER`, `HWIDTH`, `X`, `SCALES`, `NORMS`. -/
def work2Parts (ndim wtleng : ℕ) : List (ℕ × ℕ) :=
  let k1 := 1
  let k2 := k1 + 2 * 1 * wtleng * ndim
  let k3 := k2 + wtleng * 5
  let k4 := k3 + wtleng
  let k5 := k4 + ndim
  let k6 := k5 + ndim
  let k7 := k6 + 2 * 1 * ndim
  let k8 := k7 + 3 * wtleng
  [(k1, ndim * wtleng * (2 * 1)), (k2, 5 * wtleng), (k3, wtleng), (k4, ndim), (k5, ndim), (k6, ndim * (2 * 1)), (k7, 3 * wtleng), (k8, 3 * wtleng)]

/-- integrate/dcuhre_py.f:376-379: `LENW2`. -/
def lenw2 : ℕ := 2 * 1 * 15 * (14 + 1) + 12 * 14 + 2 * 15

/-- integrate/dcuhre_py.f:388-431: the arguments of `DADHRE`; `rule` gives the basic rule for `KEYF`, and `c5` and `c6` are `ERRCOF(5)` and `ERRCOF(6)`. -/
def args (c : Call K) (p : Plan) (rule : ℤ → Box K → Out K) (c5 c6 : K) : Args K :=
  ⟨c.ndim, c.numfun.toNat, c.a, c.b, p.minsub, p.maxsub, c.epsabs, c.epsrel, p.num.toNat, rule p.keyf, c5, c6⟩

/-- integrate/dcuhre_py.f:388-432, `DCUHRE`, with `RESTAR` zero: `IFAIL` of the checks, or the answer. -/
def dcuhre (fuel : ℕ) (c : Call K) (rule : ℤ → Box K → Out K) (c5 c6 : K) (mem : ℕ → Rg K) : Option (ℕ ⊕ Ans K) :=
  match dchhre c with
  | .inl i => some (.inl i)
  | .inr p => (dadhre fuel (args c p rule c5 c6) mem).map .inr

/-- integrate/dcuhre_py.f:388-432, `DCUHRE`, with `RESTAR` one; `mem` and `nsub` are what `WORK` holds. -/
def dcuhreRestart (fuel : ℕ) (c : Call K) (rule : ℤ → Box K → Out K) (c5 c6 : K) (mem : ℕ → Rg K) (nsub : ℕ) (res abserr : ℕ → K) (neval : ℕ) : Option (ℕ ⊕ Ans K) :=
  match dchhre c with
  | .inl i => some (.inl i)
  | .inr p => (dadhreRestart fuel (args c p rule c5 c6) mem nsub res abserr neval).map .inr

/-- integrate/dcuhre.pyf:34-36 and dcuhre_py.f:388-432: a restart from Python.  `RESULT` is passed in, and the wrapper makes a new array of zeros for `ABSERR` and a zero for `NEVAL`. -/
def pyRestart (fuel : ℕ) (c : Call K) (rule : ℤ → Box K → Out K) (c5 c6 : K) (mem : ℕ → Rg K) (nsub : ℕ) (res : ℕ → K) : Option (ℕ ⊕ Ans K) :=
  dcuhreRestart fuel c rule c5 c6 mem nsub res (fun _ => 0) 0

end Verif.Dcuhre
