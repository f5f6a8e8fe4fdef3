import Verif.Integrate.Dcuhre

/-!
# The basic rules of DCUHRE

Model of the subroutines `DFSHRE` (`package/inference/integrate/dfshre.f`), `DRLHRE` (`drlhre.f`) and the part of `DINHRE` (`dinhre.f`) that scales and normalises the null rules.

Doubles are elements of a linearly ordered field.  Points are lists of `NDIM` numbers, and the integrand is a function of the point and of the index of the component, from one.  The model keeps the list of the points where the
subroutine `FUNSUB` is called.  What memory holds before it is set is arbitrary.
-/

set_option linter.unusedSectionVars false

namespace Verif.Drl

open Verif.Adapt (put Box)
open Verif.Dcuhre (Out)

variable {K : Type*} [Field K] [LinearOrder K]

/-! ## Fully symmetric sums -/

/-- The sums that are accumulated (`FULSMS`), and the points where `FUNSUB` has been called. -/
structure Acc (K : Type*) where
  sum : ℕ → K
  pts : List (List K)

/-- integrate/dfshre.f:78-81: a call of `FUNSUB`, and the loop over `J`. -/
def call (f : List K → ℕ → K) (x : List K) (a : Acc K) : Acc K := ⟨fun j => a.sum j + f x j, a.pts ++ [x]⟩

/-- The variables `CENTER(I)`, `G(I)`, `HWIDTH(I)` and `X(I)`. -/
structure Coord (K : Type*) where
  c : K
  g : K
  h : K
  x : K

/-- integrate/dfshre.f:82-86: the loop over `I`; the flag says whether there is a jump to label 40. -/
def flip : List (Coord K) → List (Coord K) × Bool
  | [] => ([], false)
  | q :: qs =>
    let g := -q.g
    let x := q.c + g * q.h
    if g < 0 then (⟨q.c, g, q.h, x⟩ :: qs, true)
    else
      let r := flip qs
      (⟨q.c, g, q.h, x⟩ :: r.1, r.2)

/-- integrate/dfshre.f:78-86: from label 40.  The results are the sums and `G`.  `fuel` limits the number of jumps. -/
def signs (f : List K → ℕ → K) : ℕ → List (Coord K) → Acc K → Option (Acc K × List K)
  | 0, _, _ => none
  | fuel + 1, qs, acc =>
    let acc := call f (qs.map (·.x)) acc
    match flip qs with
    | (qs, true) => signs f fuel qs acc
    | (qs, false) => some (acc, qs.map (·.g))

/-- integrate/dfshre.f:95-101: the loop over `L`, from `l` for `cnt` values, with the variables `G`, `IXCHNG` and `LXCHNG`. -/
def reverse (i : ℕ) (gi : K) : ℕ → ℕ → (ℕ → K) × ℕ × ℕ → (ℕ → K) × ℕ × ℕ
  | 0, _, s => s
  | cnt + 1, l, (g, ix, lx) =>
    let gl := g l
    let g := put g l (g (i - l))
    let g := put g (i - l) gl
    reverse i gi cnt (l + 1) (g, if gl ≤ gi then ix - 1 else ix, if g l > gi then l else lx)

/-- integrate/dfshre.f:93-104: `pre` holds `G(1)`, …, `G(I-1)` and `gi` is `G(I)`; the results are the first `I` values of `G`, and `LXCHNG`, which keeps its value from one permutation to the next, and has none at first. -/
def exchange (pre : List K) (gi : K) (lx : ℕ) : List K × ℕ :=
  let i := pre.length + 1
  let g : ℕ → K := put (fun j => pre.getD (j - 1) 0) i gi
  let (g, ix, lx) := reverse i gi ((i - 1) / 2) 1 (g, i - 1, lx)
  let ix := if g ix ≤ gi then lx else ix
  let g := put g i (g ix)
  let g := put g ix gi
  ((List.range i).map fun j => g (j + 1), lx)

/-- integrate/dfshre.f:91-107: the loop over `I`; `pre` holds `G(1)`, …, `G(I-1)`, with `last` the last of them, and the list what follows.  None if there is no jump to label 20. -/
def next (pre : List K) (last : K) (lx : ℕ) : List K → Option (List K × ℕ)
  | [] => none
  | a :: rest => if last > a then some ((exchange pre a lx).1 ++ rest, (exchange pre a lx).2) else next (pre ++ [a]) a lx rest

/-- integrate/dfshre.f:75-77: `X` and the other coordinates, at label 20. -/
def coords : List K → List K → List K → List (Coord K)
  | c :: cs, h :: hs, g :: gs => ⟨c, g, h, c + g * h⟩ :: coords cs hs gs
  | _, _, _ => []

/-- integrate/dfshre.f:75-115: from label 20.  The results are the sums and `G`; the loop over `I` at the end reverses the order. -/
def perms (fuel : ℕ) (f : List K → ℕ → K) (c h : List K) : ℕ → List K → ℕ → Acc K → Option (Acc K × List K)
  | 0, _, _, _ => none
  | n + 1, g, lx, acc =>
    match signs f fuel (coords c h g) acc with
    | none => none
    | some (acc, g) =>
      match g with
      | [] => some (acc, [])
      | m :: ms =>
        match next [m] m lx ms with
        | none => some (acc, (m :: ms).reverse)
        | some (g, lx) => perms fuel f c h n g lx acc

/-- integrate/dfshre.f:66-119, `DFSHRE`; `lx` is what `LXCHNG` holds at first, `pts` the points before.  The results are `FULSMS` with the points, and `G`. -/
def dfshre (fuel : ℕ) (f : List K → ℕ → K) (lx : ℕ) (c h g : List K) (pts : List (List K)) : Option (Acc K × List K) :=
  perms fuel f c h fuel g lx ⟨fun _ => 0, pts⟩

/-! ## The rule -/

/-- The tables of a rule, as `D132RE`, `D113RE`, `D09HRE` and `D07HRE` set them: `WTLENG`, `W(K,I)`, the first `NDIM` values of `G(.,I)`, `RULPTS(I)` and `ERRCOF(I)`. -/
structure Tab (K : Type*) where
  wtleng : ℕ
  w : ℕ → ℕ → K
  g : ℕ → List K
  rulpts : ℕ → K
  errcof : ℕ → K

/-- integrate/dinhre.f:92-96: `SCALES(K,I)`. -/
def scales (t : Tab K) (k i : ℕ) : K := if t.w (k + 1) i ≠ 0 then -t.w (k + 2) i / t.w (k + 1) i else 100

/-- integrate/dinhre.f:97-104: `NORMS(K,I)`; sums over `J` of `WTLENG` values. -/
def norms (t : Tab K) (n k i : ℕ) : K :=
  2 ^ n / ((List.range t.wtleng).map fun j => t.rulpts (j + 1) * |t.w (k + 2) (j + 1) + scales t k i * t.w (k + 1) (j + 1)|).sum

/-- integrate/drlhre.f:117-123: the loop over `I` for the widths that follow, from `i`; `RGNVOL` and `DIVAXN`, with `hd` for `HWIDTH(DIVAXN)`. -/
def volume : List K → ℕ → K → ℕ → K → K × ℕ
  | [], _, vol, d, _ => (vol, d)
  | h :: hs, i, vol, d, hd => if h > hd then volume hs (i + 1) (vol * h) i h else volume hs (i + 1) (vol * h) d hd

/-- The variables in the loop over the axes: `sums 1` is `BASVAL`, `sums (k+1)` is `NULL(.,k)` for `k` from one to four, and `DIFMAX`, `DIVAXN` and the points so far. -/
structure Ax (K : Type*) where
  sums : ℕ → ℕ → K
  difmax : K
  divaxn : ℕ
  pts : List (List K)

/-- integrate/drlhre.f:145-146: `FRTHDF`, from the value at the centre and the sums of values at the inner and the outer pair. -/
def frthdf (ratio mid near far : K) : K := 2 * (1 - ratio) * mid - far + ratio * near

/-- integrate/drlhre.f:133-164: one round of the loop, for axis `i` with centre `ci` and half width `hi`; `ct` is the centre and `mid` the value there. -/
def axis (t : Tab K) (numfun : ℕ) (f : List K → ℕ → K) (ct : List K) (ratio : K) (mid : ℕ → K) (i : ℕ) (ci hi : K) (s : Ax K) : Ax K :=
  let g2 := (t.g 2).getD 0 0
  let g3 := (t.g 3).getD 0 0
  let x5 := ct.set (i - 1) (ci - hi * g2)
  let x6 := ct.set (i - 1) (ci + hi * g2)
  let x7 := ct.set (i - 1) (ci - hi * g3)
  let x8 := ct.set (i - 1) (ci + hi * g3)
  let d := fun j => frthdf ratio (mid j) (f x5 j + f x6 j) (f x7 j + f x8 j)
  let difsum := (List.range numfun).foldl (fun z j => if mid (j + 1) + d (j + 1) / 4 ≠ mid (j + 1) then z + |d (j + 1)| else z) 0
  ⟨fun k j => s.sums k j + t.w k 2 * (f x5 j + f x6 j) + t.w k 3 * (f x7 j + f x8 j),
    if difsum > s.difmax then difsum else s.difmax, if difsum > s.difmax then i else s.divaxn, s.pts ++ [x5, x6, x7, x8]⟩

/-- integrate/drlhre.f:133-164: the loop over `I`, for the axes that follow, from `i`. -/
def axes (t : Tab K) (numfun : ℕ) (f : List K → ℕ → K) (ct : List K) (ratio : K) (mid : ℕ → K) : List K → List K → ℕ → Ax K → Ax K
  | c :: cs, h :: hs, i, s => axes t numfun f ct ratio mid cs hs (i + 1) (axis t numfun f ct ratio mid i c h s)
  | _, _, _, s => s

/-- integrate/drlhre.f:169-178: the loop over `I` for `cnt` values from `i`, with the sums, the points and the generators; `lx i` is what `LXCHNG` holds in the call of `DFSHRE` for `i`. -/
def orbits (fuel : ℕ) (t : Tab K) (f : List K → ℕ → K) (lx : ℕ → ℕ) (c h : List K) : ℕ → ℕ → (ℕ → ℕ → K) → List (List K) → (ℕ → List K) → Option ((ℕ → ℕ → K) × List (List K) × (ℕ → List K))
  | 0, _, sums, pts, g => some (sums, pts, g)
  | cnt + 1, i, sums, pts, g =>
    match dfshre fuel f (lx i) c h (g i) pts with
    | none => none
    | some (a, gi) => orbits fuel t f lx c h cnt (i + 1) (fun k j => sums k j + t.w k i * a.sum j) a.pts (put g i gi)

/-- integrate/drlhre.f:189-196: `SEARCH`, from `NULL(J,I)` and `NULL(J,I+1)`. -/
def search (t : Tab K) (n i : ℕ) (here next : K) : K :=
  (List.range t.wtleng).foldl (fun s k => max s (|next + scales t i (k + 1) * here| * norms t n i (k + 1))) 0

/-- integrate/drlhre.f:189-202: `RGNERR(J)`, without the volume, from `NULL(J,1)`, …, `NULL(J,4)`.  `NULL(J,I)` is overwritten only after it has been used. -/
def error (t : Tab K) (n : ℕ) (n1 n2 n3 n4 : K) : K :=
  let s1 := search t n 1 n1 n2
  let s2 := search t n 2 n2 n3
  let s3 := search t n 3 n3 n4
  if t.errcof 1 * s1 ≤ s2 ∧ t.errcof 2 * s2 ≤ s3 then t.errcof 3 * s1 else t.errcof 4 * max (max s1 s2) s3

/-- What `DRLHRE` leaves: `BASVAL`, `RGNERR`, `DIRECT`, the points where the integrand was called, and the generators. -/
structure Ruled (K : Type*) where
  out : Out K
  pts : List (List K)
  g : ℕ → List K

/-- integrate/drlhre.f:117-206, `DRLHRE`; `NDIM` is the length of the centre.  With no coordinates at all the code reads outside its arrays; here `HWIDTH(1)` is then zero. -/
def drlhre (fuel : ℕ) (t : Tab K) (numfun : ℕ) (f : List K → ℕ → K) (lx : ℕ → ℕ) (c h : List K) : Option (Ruled K) :=
  let v := volume h 1 1 1 (h.getD 0 0)
  let mid := f c
  let g2 := (t.g 2).getD 0 0
  let g3 := (t.g 3).getD 0 0
  let s := axes t numfun f c ((g3 / g2) ^ 2) mid c h 1 ⟨fun k j => t.w k 1 * mid j, 0, v.2, [c]⟩
  match orbits fuel t f lx c h (t.wtleng - 3) 4 s.sums s.pts t.g with
  | none => none
  | some (sums, pts, g) =>
    some ⟨⟨fun j => v.1 * sums 1 j, fun j => v.1 * error t c.length (sums 2 j) (sums 3 j) (sums 4 j) (sums 5 j), s.divaxn⟩, pts, g⟩

/-- The centre and the half widths of a region as lists of `n` numbers. -/
def vec (n : ℕ) (x : ℕ → K) : List K := (List.range n).map fun i => x (i + 1)

/-- The rule as `DADHRE` calls it (dadhre.f:250-252, 351-354). -/
def rule (fuel : ℕ) (t : Tab K) (n numfun : ℕ) (f : List K → ℕ → K) (lx : ℕ → ℕ) (b : Box K) : Out K :=
  match drlhre fuel t numfun f lx (vec n b.center) (vec n b.width) with
  | none => ⟨fun _ => 0, fun _ => 0, 0⟩
  | some r => r.out

end Verif.Drl
