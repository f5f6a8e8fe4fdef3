import Verif.Integrate.Adapt

/-!
# Fully symmetric rules

Model of the subroutines `SYMRL`, `WHT`, `FLSM` and `NXPRT` of `package/inference/integrate/adapt_py.f`, and of the calls of `SYMRL` in `BSRL`.

Doubles are elements of a linearly ordered field, and integers do not overflow.  The generators `G` are an argument `g` of the model, with `g 0` for `G(1)`; so is the tolerance `MOMTOL`, a multiple of the
smallest number that makes a difference when added to one, which does not exist in a field.  Arrays of length `S` are lists.  Each loop that ends by a `GO TO` has as its first argument the largest number of
rounds, and gives `none` if this is not enough.  The integrand does not raise.
-/

set_option linter.unusedSectionVars false

namespace Verif.SymRl

open Verif.Adapt

variable {K : Type*} [Field K] [LinearOrder K]

/-! ## Moments -/

/-- integrate/adapt_py.f:375-379: the loop over `I`; `a` is `INTMPA`. -/
def sweep (gl a : K) : List K → List K
  | [] => []
  | m :: ms => (m - gl * a) :: sweep gl m ms

/-- integrate/adapt_py.f:372-381: the loop over `L`, for `cnt` values; `a` is `MOMENT(L-1)`, the list holds `MOMENT(L)` and what follows, and `l` is the index of `G(L-1)`. -/
def modify (g : ℕ → K) (cut : K) : ℕ → ℕ → K → List K → List K
  | 0, _, _, ms => ms
  | cnt + 1, l, a, ms =>
    match sweep (g l ^ 2) a ms with
    | [] => []
    | m :: ms =>
      let m := if m ^ 2 < cut ^ 2 then 0 else m
      m :: modify g cut cnt (l + 1) m ms

/-- integrate/adapt_py.f:367-381: the array `MOMENT`, for `MAXORD` equal to `maxord`. -/
def moments (g : ℕ → K) (tol : K) (maxord : ℕ) : List K :=
  match (List.range maxord).map fun l => 2 / ((2 * l + 1 : ℕ) : K) with
  | [] => []
  | m :: ms => m :: modify g (tol * m) (maxord - 1) 0 m ms

/-- integrate/adapt_py.f:388-394: the loop over `I`, from the index `i` (`I` is `i + 1`, `L` is `l + 1`); `nk` is `MOMNKN`, and the list holds the moments from there on.  None if two generators have the
same square. -/
def row (g : ℕ → K) (l : ℕ) : ℕ → K → List K → Option (List K)
  | _, _, [] => some []
  | i, nk, m :: ms =>
    let gi := if i ≤ l then g (i - 1) else g i
    if g l ^ 2 = gi ^ 2 then none
    else
      let nk := nk / (g l ^ 2 - gi ^ 2)
      (row g l (i + 1) nk ms).map (nk * m :: ·)

/-- integrate/adapt_py.f:382-395: the loop over `L`, from the index `l` for `cnt` values. -/
def rows (g : ℕ → K) (ms : List K) : ℕ → ℕ → Option (List (List K))
  | 0, _ => some []
  | cnt + 1, l =>
    if g l < 0 then none
    else
      match ms with
      | [] => none
      | m :: ms' =>
        match row g l 1 1 ms' with
        | none => none
        | some r => (rows g ms cnt (l + 1)).map ((m :: r) :: ·)

/-- An entry of `MOMPRD`. -/
def prd (R : List (List K)) (l i : ℕ) : K := (R.getD l []).getD i 0

/-! ## Weights -/

/-- The variables `M(I)`, `K(I)` and `INTRPS(I)` of `WHT` for an `I` above one. -/
structure Comp (K : Type*) where
  m : ℕ
  k : ℕ
  v : K

/-- integrate/adapt_py.f:449-459: the loop over `I`; `prev` is `INTRPS(I-1)` and `r` is `K1 - M1`, both before the round.  Either the loop ends with the value of `INTRPS(S)`, or there is a jump to label 20. -/
def whtPass (P : ℕ → ℕ → K) : K → ℕ → List (Comp K) → K ⊕ (ℕ × List (Comp K))
  | prev, _, [] => .inl prev
  | prev, r, c :: cs =>
    let v := c.v + P c.m (c.k + c.m) * prev
    if r ≥ 1 then .inr (r - 1, ⟨c.m, c.k + 1, v⟩ :: cs)
    else
      match whtPass P v (r + c.k) cs with
      | .inl w => .inl w
      | .inr (r, cs) => .inr (r, ⟨c.m, 0, 0⟩ :: cs)

/-- integrate/adapt_py.f:447-460: from label 20. -/
def whtLoop (P : ℕ → ℕ → K) (m1 : ℕ) : ℕ → ℕ → List (Comp K) → Option K
  | 0, _, _ => none
  | fuel + 1, r, cs =>
    match whtPass P (P m1 (r + m1)) r cs with
    | .inl w => some w
    | .inr (r, cs) => whtLoop P m1 fuel r cs

/-- integrate/adapt_py.f:435-462, `WHT`; `r` is `D - MODOFM`. -/
def wht (fuel : ℕ) (P : ℕ → ℕ → K) (M : List ℕ) (r : ℕ) : Option K :=
  match M with
  | [] => none
  | m1 :: ms => whtLoop P m1 fuel r (ms.map fun m => ⟨m, 0, 0⟩)

/-! ## Sums of function values -/

/-- The variables `CENTER(I)`, `G(MP(I)+1)`, `HWIDTH(I)` and `X(I)` of `FLSM`. -/
structure Coord (K : Type*) where
  c : K
  g : K
  h : K
  x : K

/-- integrate/adapt_py.f:495-500: the loop over `I`; the flag says whether there is a jump to label 40. -/
def flip : List (Coord K) → List (Coord K) × Bool
  | [] => ([], false)
  | q :: qs =>
    let h := if q.g ≠ 0 then -q.h else q.h
    let x := q.c + q.g * h
    if x < q.c then (⟨q.c, q.g, h, x⟩ :: qs, true)
    else
      let r := flip qs
      (⟨q.c, q.g, h, x⟩ :: r.1, r.2)

/-- A point as the integrand gets it. -/
def vec (x : List K) : ℕ → K := fun i => x.getD (i - 1) 0

/-- integrate/adapt_py.f:492-500: from label 40.  The results are `INTSUM`, `SUMCLS` and `HWIDTH`. -/
def signs (f : (ℕ → K) → K) : ℕ → List (Coord K) → K → ℕ → Option (K × ℕ × List K)
  | 0, _, _, _ => none
  | fuel + 1, qs, sum, cls =>
    let sum := sum + f (vec (qs.map (·.x)))
    match flip qs with
    | (qs, true) => signs f fuel qs sum (cls + 1)
    | (qs, false) => some (sum, cls + 1, qs.map (·.h))

/-- integrate/adapt_py.f:514-521: the loop over `L`, from `l` for `cnt` values, with the variables `MP`, `IXCHNG` and `LXCHNG`. -/
def reverse (i mpi : ℕ) : ℕ → ℕ → (ℕ → ℕ) × ℕ × ℕ → (ℕ → ℕ) × ℕ × ℕ
  | 0, _, s => s
  | cnt + 1, l, (mp, ix, lx) =>
    let mpl := mp l
    let mp := put mp l (mp (i - l))
    let mp := put mp (i - l) mpl
    reverse i mpi cnt (l + 1) (mp, if mpl ≤ mpi then ix - 1 else ix, if mp l > mpi then l else lx)

/-- integrate/adapt_py.f:510-525: `pre` holds `MP(1)`, …, `MP(I-1)` and `mpi` is `MP(I)`.  `LXCHNG` has no value at first. -/
def exchange (pre : List ℕ) (mpi : ℕ) : List ℕ :=
  let i := pre.length + 1
  let mp : ℕ → ℕ := put (fun j => pre.getD (j - 1) 0) i mpi
  let (mp, ix) :=
    if i = 2 then (mp, i - 1)
    else
      let (mp, ix, lx) := reverse i mpi ((i - 1) / 2) 1 (mp, i - 1, 0)
      (mp, if mp ix ≤ mpi then lx else ix)
  let mp := put mp i (mp ix)
  let mp := put mp ix mpi
  (List.range i).map fun j => mp (j + 1)

/-- integrate/adapt_py.f:508-526: the loop over `I`; `pre` holds `MP(1)`, …, `MP(I-1)`, with `last` the last of them, and the list what follows.  None if there is no jump to label 20. -/
def next (pre : List ℕ) (last : ℕ) : List ℕ → Option (List ℕ)
  | [] => none
  | a :: rest => if last ≤ a then next (pre ++ [a]) a rest else some (exchange pre a ++ rest)

/-- integrate/adapt_py.f:478-482: `INTWGT`. -/
def weight : List ℕ → List K → K → K
  | m :: M, h :: hs, w => weight M hs ((if m ≠ 0 then w / 2 else w) * h)
  | _, _, w => w

/-- integrate/adapt_py.f:488-491: `X` and the other coordinates, at label 20. -/
def coords (g : ℕ → K) : List K → List K → List ℕ → List (Coord K)
  | c :: cs, h :: hs, m :: mp => ⟨c, g m, h, c + g m * h⟩ :: coords g cs hs mp
  | _, _, _ => []

/-- integrate/adapt_py.f:487-526: from label 20.  The results are `FLSM`, `SUMCLS` and `HWIDTH`. -/
def perms (fuel : ℕ) (g : ℕ → K) (f : (ℕ → K) → K) (c : List K) (w : K) : ℕ → List K → List ℕ → K → ℕ → Option (K × ℕ × List K)
  | 0, _, _, _, _ => none
  | n + 1, hw, mp, tot, cls =>
    match signs f fuel (coords g c hw mp) 0 cls with
    | none => none
    | some (sum, cls, hw) =>
      let tot := tot + w * sum
      match mp with
      | [] => some (tot, cls, hw)
      | m :: ms =>
        match next [m] m ms with
        | none => some (tot, cls, hw)
        | some mp => perms fuel g f c w n hw mp tot cls

/-- integrate/adapt_py.f:464-530, `FLSM`. -/
def flsm (fuel : ℕ) (g : ℕ → K) (f : (ℕ → K) → K) (c hw : List K) (M : List ℕ) : Option (K × ℕ × List K) :=
  perms fuel g f c (weight M hw 1) fuel hw M 0 0

/-! ## Partitions -/

/-- integrate/adapt_py.f:546-555: the loop over `I`; `m1` is `M(1)`, `n` is `I - 1`, and the list holds `M(I)` and what follows.  None if there is no `RETURN` inside the loop; then all of these are zero, and
`MSUM` is the sum of all. -/
def scan (m1 : ℕ) : ℕ → ℕ → List ℕ → Option (List ℕ)
  | _, _, [] => none
  | msum, n, m :: ms =>
    let msum := msum + m
    if m1 ≤ m + 1 then scan m1 msum (n + 1) ms
    else some ((msum - n * (m + 1)) :: List.replicate n (m + 1) ++ ms)

/-- integrate/adapt_py.f:532-558, `NXPRT`, when there is a partition before. -/
def nxprt (M : List ℕ) : List ℕ :=
  match M with
  | [] => []
  | m1 :: ms => (scan m1 m1 1 ms).getD ((m1 + ms.sum + 1) :: List.replicate ms.length 0)

/-! ## The rules -/

/-- The variables that are kept from one order to the next: `INTVLS`, `INTCLS`, `WEGHTS`, `FULSMS`, and `HWIDTH`. -/
structure St (K : Type*) where
  intvls : ℕ → K
  intcls : ℕ
  weghts : ℕ → K
  fulsms : ℕ → K
  hw : List K

/-- What does not change: the centre, the generators, the products of moments, the integrand, and the length `NUMSMS` of the arrays. -/
structure Fixed (K : Type*) where
  c : List K
  g : ℕ → K
  P : ℕ → ℕ → K
  f : (ℕ → K) → K
  numsms : ℕ

/-- integrate/adapt_py.f:410-418: the work for the partition `M` with the number `cnt`; the result is `INTVAL` and the variables. -/
def part (fuel : ℕ) (e : Fixed K) (D cnt mod : ℕ) (M : List ℕ) (intval : K) (s : St K) : Option (K × St K) :=
  let s := if D = mod then { s with weghts := put s.weghts cnt 0, fulsms := put s.fulsms cnt 0 } else s
  match wht fuel e.P M (D - mod) with
  | none => none
  | some w =>
    let r :=
      if s.weghts cnt = 0 ∧ w ≠ 0 then
        (flsm fuel e.g e.f e.c s.hw M).map fun (v, cls, hw) => { s with fulsms := put s.fulsms cnt v, intcls := s.intcls + cls, hw := hw }
      else some s
    r.map fun s => (intval + w * s.fulsms cnt, { s with weghts := put s.weghts cnt (s.weghts cnt + w) })

/-- integrate/adapt_py.f:405-421: from label 90.  The flag is false if there are more partitions than places for them. -/
def parts (fuel : ℕ) (e : Fixed K) (D : ℕ) : ℕ → ℕ → ℕ → List ℕ → K → St K → Option (Bool × K × St K)
  | 0, _, _, _, _, _ => none
  | n + 1, cnt, mod, M, intval, s =>
    if cnt > e.numsms then some (false, intval, s)
    else
      match part fuel e D cnt mod M intval s with
      | none => none
      | some (intval, s) =>
        let M := nxprt M
        let mod := if M.headD 0 > mod then mod + 1 else mod
        if mod ≤ D then parts fuel e D n (cnt + 1) mod M intval s else some (true, intval, s)

/-- integrate/adapt_py.f:401-425: one value of `D`. -/
def order (fuel : ℕ) (e : Fixed K) (S D : ℕ) (s : St K) : Option (Bool × St K) :=
  match parts fuel e D fuel 1 0 (List.replicate S 0) 0 s with
  | none => none
  | some (false, _, s) => some (false, s)
  | some (true, v, s) => some (true, { s with intvls := put s.intvls (D + 1) (if D > 0 then s.intvls D + v else v) })

/-- integrate/adapt_py.f:401-427: the loop over `D`, for `cnt` values. -/
def ordersLoop (fuel : ℕ) (e : Fixed K) (S : ℕ) : ℕ → ℕ → St K → Option (Bool × St K)
  | 0, _, s => some (true, s)
  | cnt + 1, D, s =>
    match order fuel e S D s with
    | none => none
    | some (false, s) => some (false, s)
    | some (true, s) => ordersLoop fuel e S cnt (D + 1) s

/-- integrate/adapt_py.f:278-433, `SYMRL`, for `S` variables.  The results are `FAIL` and the variables (`MINORD` becomes `MAXORD` if `FAIL` is zero). -/
def symrl (fuel S : ℕ) (g : ℕ → K) (tol : K) (c : List K) (f : (ℕ → K) → K) (minord maxord numsms : ℕ) (s : St K) : Option (ℕ × St K) :=
  if S > 20 ∨ S < 1 then some (2, s)
  else if minord ≥ maxord then some (2, s)
  else if maxord > 20 then some (2, s)
  else
    let s := if minord = 0 then { s with intcls := 0 } else s
    match rows g (moments g tol maxord) maxord 0 with
    | none => some (2, s)
    | some R =>
      (ordersLoop fuel ⟨c, g, prd R, f, numsms⟩ S (maxord - minord) minord s).map fun (ok, s) => (if ok then 0 else 1, s)

/-! ## The calls -/

/-- integrate/adapt_py.f:226, 233-236: the calls of `SYMRL` in `BSRL`, with `MAXORD` from 4 to `4 + k`, as long as `IFAIL` is not two.  The results are `IFAIL`, `MINORD` and the variables. -/
def calls (fuel S : ℕ) (g : ℕ → K) (tol : K) (c : List K) (f : (ℕ → K) → K) (s : St K) : ℕ → Option (ℕ × ℕ × St K)
  | 0 => (symrl fuel S g tol c f 0 4 200 s).map fun r => (r.1, if r.1 = 0 then 4 else 0, r.2)
  | k + 1 =>
    match calls fuel S g tol c f s k with
    | none => none
    | some (ifail, minord, s) =>
      if ifail = 2 then some (ifail, minord, s)
      else (symrl fuel S g tol c f minord (4 + (k + 1)) 200 s).map fun r => (r.1, if r.1 = 0 then 4 + (k + 1) else minord, r.2)

/-- The value that a computation has for all numbers of rounds from some on. -/
noncomputable def ofFuel {α : Type*} [Zero α] (r : ℕ → Option α) : α :=
  open Classical in if h : ∃ v N, ∀ fuel ≥ N, r fuel = some v then h.choose else 0

/-- What the calls of `SYMRL` in `BSRL` find for a box, as an argument for `Adapt.bsrl`; `s` gives what the arrays hold before. -/
noncomputable def symOf (S : ℕ) (g : ℕ → K) (tol : K) (s : St K) (f : (ℕ → K) → K) (b : Box K) : Sym K :=
  let c := (List.range S).map fun j => b.center (j + 1)
  let s := { s with hw := (List.range S).map fun j => b.width (j + 1) }
  ⟨fun m => (ofFuel (α := K) fun fuel => (calls fuel S g tol c f s (m - 4)).map fun r => r.2.2.intvls m),
    fun m => ofFuel fun fuel => (calls fuel S g tol c f s (m - 4)).map fun r => r.2.2.intcls⟩

end Verif.SymRl
