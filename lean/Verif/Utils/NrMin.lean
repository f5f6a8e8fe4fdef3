import Verif.Common
import Mathlib.Algebra.Order.Field.Basic
import Mathlib.Algebra.Module.Defs

/-!
# Minimisers

Model of `package/inference/utils/nrmin.py`: `MinBracket`, `brent`, `linmin`, `powell`, in exact arithmetic over an ordered field, for an arbitrary objective.
Loops without a bound of their own take a number of passes after which the model gives up (`none`): the theorems hold for every such number.
-/

set_option linter.unusedSectionVars false

namespace Verif.NrMin

variable {K : Type*} [Field K] [LinearOrder K] [IsStrictOrderedRing K]

/-- The attributes of a `MinBracket`. -/
structure Brak (K : Type*) where
  x1 : K
  f1 : K
  xm : K
  fm : K
  x2 : K
  f2 : K

/-- Constants of `MinBracket`: nrmin.py:10-12. -/
def gold : K := 1618034 / 1000000
def tiny : K := 1 / 10 ^ 20
def maxMag : K := 100

/-- The parabolic guess `u`, nrmin.py:25-34. -/
def parab (b : Brak K) : K :=
  let d1 := b.xm - b.x1
  let d2 := b.xm - b.x2
  let r := d1 * (b.fm - b.f2)
  let q := d2 * (b.fm - b.f1)
  let u := 2 * (q - r)
  let u := if |u| < tiny then (if u ≥ 0 then tiny else -tiny) else u
  b.xm - (d2 * q - d1 * r) / u

/-- One pass through the loop, nrmin.py:22-60: the bracket, and whether the loop is left. -/
def brakStep (f : K → K) (b : Brak K) : Brak K × Bool :=
  if b.fm < b.f2 then (b, true)
  else
    let d2 := b.xm - b.x2
    let u := parab b
    let ulim := b.xm - maxMag * d2
    let shift := fun (b : Brak K) (u fu : K) => ((⟨b.xm, b.fm, b.x2, b.f2, u, fu⟩, false) : Brak K × Bool)
    if (b.xm - u) * (u - b.x2) > 0 then
      let fu := f u
      if fu < b.f2 then ({ b with x1 := b.xm, xm := u, f1 := b.fm, fm := fu }, true)
      else if fu > b.fm then ({ b with x2 := u, f2 := fu }, true)
      else
        let u := b.x2 - gold * d2
        shift b u (f u)
    else if (b.x2 - u) * (u - ulim) > 0 then
      let fu := f u
      if fu < b.f2 then
        let b := { b with xm := b.x2, x2 := u, fm := b.f2, f2 := fu }
        let u := b.x2 - gold * d2
        shift b u (f u)
      else shift b u fu
    else if (u - ulim) * (ulim - b.x2) ≥ 0 then
      shift b ulim (f ulim)
    else
      let u := b.x2 - gold * d2
      shift b u (f u)

/-- The loop. -/
def brakLoop (f : K → K) : ℕ → Brak K → Option (Brak K)
  | 0, _ => none
  | n + 1, b =>
    match brakStep f b with
    | (b, true) => some b
    | (b, false) => brakLoop f n b

/-- Before the loop: nrmin.py:13-21. -/
def brakStart (f : K → K) (x1 x2 : K) : Brak K :=
  let (x1, f1, xm, fm) := if f x2 > f x1 then (x2, f x2, x1, f x1) else (x1, f x1, x2, f x2)
  let x2 := xm + gold * (xm - x1)
  ⟨x1, f1, xm, fm, x2, f x2⟩

/-- `MinBracket(f, x1, x2)`: nrmin.py:7-66. -/
def minBracket (fuel : ℕ) (f : K → K) (x1 x2 : K) : Option (Brak K) :=
  match brakLoop f fuel (brakStart f x1 x2) with
  | none => none
  | some b => some (if b.x2 < b.x1 then { b with x1 := b.x2, x2 := b.x1, f1 := b.f2, f2 := b.f1 } else b)

/-! ### brent -/

/-- The local variables of `brent` at the top of the loop.  `d` is not set before the first pass. -/
structure BrSt (K : Type*) where
  a : K
  b : K
  v : K
  w : K
  x : K
  fv : K
  fw : K
  fx : K
  e : K
  d : Option K

/-- Constants of `brent`: nrmin.py:77-78. -/
def cgold : K := 3819660 / 10000000
def eps0 : K := 1 / 10 ^ 10

/-- The step by golden section: nrmin.py:112-116, 124-128; the new `e` and `d`. -/
def goldenStep (s : BrSt K) (xm : K) : K × K :=
  let e := if s.x ≥ xm then s.a - s.x else s.b - s.x
  (e, cgold * e)

/-- The choice of the step, nrmin.py:97-128: the new `e` and `d`; `none` if `d` is used before it is set. -/
def brentStep (s : BrSt K) (xm tol1 tol2 : K) : Option (K × K) :=
  if |s.e| > tol1 then
    let xw := s.x - s.w
    let xv := s.x - s.v
    let r := xw * (s.fx - s.fv)
    let q := xv * (s.fx - s.fw)
    let p := xv * q - xw * r
    let q := 2 * (q - r)
    let p := if q > 0 then -p else p
    let q := |q|
    let etemp := s.e
    match s.d with
    | none => none
    | some e =>
      if |p| ≥ |1 / 2 * q * etemp| ∨ p ≤ q * (s.a - s.x) ∨ p ≥ q * (s.b - s.x) then some (goldenStep s xm)
      else
        let d := p / q
        let u := s.x + d
        if u - s.a < tol2 ∨ s.b - u < tol2 then some (e, if xm - s.x < 0 then -tol1 else tol1)
        else some (e, d)
  else some (goldenStep s xm)

/-- The point tried: nrmin.py:129-134. -/
def brentPoint (x d tol1 : K) : K := if |d| ≥ tol1 then x + d else if d < 0 then x - tol1 else x + tol1

/-- The bookkeeping after the function has been evaluated at `u`: nrmin.py:137-153. -/
def brentUpdate (s : BrSt K) (u fu e d : K) : BrSt K :=
  if fu ≤ s.fx then
    let s := if u ≥ s.x then { s with a := s.x } else { s with b := s.x }
    { s with v := s.w, fv := s.fw, w := s.x, fw := s.fx, x := u, fx := fu, e := e, d := some d }
  else
    let s := if u < s.x then { s with a := u } else { s with b := u }
    if fu ≤ s.fw ∨ s.w = s.x then { s with v := s.w, fv := s.fw, w := u, fw := fu, e := e, d := some d }
    else if fu ≤ s.fv ∨ s.v = s.x ∨ s.v = s.w then { s with v := u, fv := fu, e := e, d := some d }
    else { s with e := e, d := some d }

/-- The loop, with the number of iterations left before `IterErr` is raised: nrmin.py:86-153.  Returns the point, the value and the list of points evaluated. -/
def brentLoop (f : K → K) (tol : K) : ℕ → BrSt K → List K → Except Err (K × K) × List K
  | 0, _, calls => (.error .iter, calls)
  | n + 1, s, calls =>
    let xm := 1 / 2 * (s.a + s.b)
    let tol1 := tol * |s.x| + eps0
    let tol2 := 2 * tol1
    if |s.x - xm| ≤ tol2 - 1 / 2 * (s.b - s.a) then (.ok (s.x, s.fx), calls)
    else
      match brentStep s xm tol1 tol2 with
      | none => (.error .name, calls)
      | some (e, d) =>
        let u := brentPoint s.x d tol1
        brentLoop f tol n (brentUpdate s u (f u) e d) (u :: calls)

/-- Before the loop: nrmin.py:79-85. -/
def brentStart (f : K → K) (bk : Brak K) : BrSt K :=
  let fv := f bk.xm
  ⟨bk.x1, bk.x2, bk.xm, bk.xm, bk.xm, fv, fv, fv, 0, none⟩

/-- `brent(f, bracket, tol, maxit)`: nrmin.py:75-153. -/
def brent (f : K → K) (bk : Brak K) (tol : K) (maxit : ℕ) : Except Err (K × K) × List K :=
  brentLoop f tol maxit (brentStart f bk) [bk.xm]

/-! ### linmin and powell -/

variable {P : Type*} [AddCommGroup P] [Module K P]

/-- `linmin(func, pt, drxn, tol)`: nrmin.py:156-165; `none` if the bracketing has not ended within `fuel` passes. -/
def linmin (fuel : ℕ) (func : P → K) (pt drxn : P) (tol : K) : Option (Except Err (P × P × K)) :=
  let f1 := fun x : K => func (pt + x • drxn)
  match minBracket fuel f1 0 1 with
  | none => none
  | some brak =>
    match (brent f1 brak tol 100).1 with
    | .error e => some (.error e)
    | .ok (l, f) =>
      let drxn := l • drxn
      some (.ok (pt + drxn, drxn, f))

/-- Default tolerance of `linmin`: nrmin.py:156. -/
def linTol : K := 1 / 10 ^ 4

/-- The loop over the directions: nrmin.py:200-206; returns the point, the value, the index of the largest change and this change. -/
def sweep (fuel : ℕ) (f : P → K) : List P → ℕ → P → K → ℕ → K → Option (Except Err (P × K × ℕ × K))
  | [], _, p, fret, ibig, delta => some (.ok (p, fret, ibig, delta))
  | vec :: drxns, i, p, fret, ibig, delta =>
    let fptt := fret
    match linmin fuel f p vec linTol with
    | none => none
    | some (.error e) => some (.error e)
    | some (.ok (p, _, fret)) =>
      if |fptt - fret| > delta then sweep fuel f drxns (i + 1) p fret i |fptt - fret|
      else sweep fuel f drxns (i + 1) p fret ibig delta

/-- Replacing the direction of the largest change by the last one and the last one by a new one: nrmin.py:222-223. -/
def newDrxns (drxns : List P) (ibig : ℕ) (vec : P) : List P :=
  let drxns := drxns.set ibig (drxns.getLast?.getD 0)
  drxns.set (drxns.length - 1) vec

/-- The loop of `powell`: nrmin.py:194-224, with `iter` passes done; the list of directions has as many entries as the point has components (at least one). -/
def powellLoop (fuel : ℕ) (f : P → K) (ftol : K) (maxit : ℕ) : ℕ → List P → P → P → K → ℕ → Option (Except Err (P × K × ℕ))
  | 0, _, _, _, _, _ => none
  | n + 1, drxns, p, p0, fret, iter =>
    let iter := iter + 1
    let fp := fret
    match sweep fuel f drxns 0 p fret 0 0 with
    | none => none
    | some (.error e) => some (.error e)
    | some (.ok (p, fret, ibig, delta)) =>
      if 2 * |fp - fret| ≤ ftol * (|fp| + |fret|) then some (.ok (p, fret, iter))
      else if iter = maxit then some (.error .iter)
      else
        let ptt := (2 : K) • p - p0
        let vec := p - p0
        let p0 := p
        let fptt := f ptt
        if fptt ≥ fp then powellLoop fuel f ftol maxit n drxns p p0 fret iter
        else
          let t := 2 * (fp - 2 * fret + fptt) * (fp - fret - delta) ^ 2 - delta * (fp - fptt) ^ 2
          if t ≥ 0 then powellLoop fuel f ftol maxit n drxns p p0 fret iter
          else
            match linmin fuel f p vec linTol with
            | none => none
            | some (.error e) => some (.error e)
            | some (.ok (p, vec, fret)) => powellLoop fuel f ftol maxit n (newDrxns drxns ibig vec) p p0 fret iter

/-- The shuffling of the initial directions: nrmin.py:187-191 (the first moves to the end). -/
def shuffled (drxns : List P) : List P := drxns.drop 1 ++ drxns.take 1

/-- `powell(f, p, drxns, ftol, maxit, nlog, shuffle)` with the directions given: nrmin.py:168-224 (`nlog` only prints). -/
def powell (fuel : ℕ) (f : P → K) (p : P) (drxns : List P) (ftol : K) (maxit : ℕ) (shuffle : Bool) : Option (Except Err (P × K × ℕ)) :=
  powellLoop fuel f ftol maxit fuel (if shuffle then shuffled drxns else drxns) p p (f p) 0

end Verif.NrMin
