import Verif.Common
import Verif.Drxn.Spec
import Mathlib.Analysis.SpecialFunctions.Log.Basic
import Mathlib.Analysis.SpecialFunctions.Sqrt

/-!
# Model of sandbox/drxn/drxn.py and sandbox/drxn/fisher_coinc.f

Double precision is modelled by the exact real numbers.  Constants which the Fortran source writes without a `d` exponent are single precision
there; they are modelled by the exact rational value of that single-precision number.  The infinities and not-a-number values that
`log(0.)`, `log` of a negative number and divisions by zero produce are values of their own.
-/

set_option linter.unusedSectionVars false

namespace Verif.Drxn

open Verif Real

/-- Results of floating-point functions that may overflow or be undefined. -/
inductive Fl where
  | num (v : ℝ)
  | posInf
  | nan

namespace Fl

/-- Subtraction of a value, as IEEE arithmetic does it (`inf - inf` is not a number).  Negative infinities do not occur as a first
operand in this file and are folded into `nan`. -/
def sub : Fl → Fl → Fl
  | .num a, .num b => .num (a - b)
  | .posInf, .num _ => .posInf
  | _, _ => .nan

end Fl

/-- The single-precision literal `0.6931471805599453`: fisher_coinc.f:199. -/
noncomputable def log2s : ℝ := 1453635 / 2097152

/-- The single-precision literal `0.683`: fisher_coinc.f:22. -/
noncomputable def cC : ℝ := 11458839 / 16777216

/-- The single-precision literal `1.e-5`: fisher_coinc.f:23. -/
noncomputable def epsS : ℝ := 2748779 / 274877906944

/-- The single-precision literal `2.297707`: fisher_coinc.f:29. -/
noncomputable def guessS : ℝ := 4818641 / 2097152

/-- `lsinhc`: fisher_coinc.f:190-205. -/
noncomputable def lsinhc (x : ℝ) : Fl :=
  if x < 0 then .nan
  else if x = 0 then .posInf
  else if x < 20 then .num (x - log2s - log x - exp (-2 * x))
  else .num (x - log2s - log x)

/-- What `sig_to_kappa` can come to: a number, not-a-number, infinity, or the operator's console (`pause`). -/
inductive Sig where
  | val (k : ℝ)
  | nan
  | inf
  | pause

/-- The factor `exp(-2*kold)`, dropped from 250 on: fisher_coinc.f:36-40. -/
noncomputable def ekk (kold : ℝ) : ℝ := if kold < 250 then exp (-2 * kold) else 0

/-- `num` of fisher_coinc.f:34-35, 42. -/
noncomputable def numer (csig kold : ℝ) : ℝ := 1 - exp (kold * (csig - 1))

/-- `den`: fisher_coinc.f:41. -/
noncomputable def denom (kold : ℝ) : ℝ := 1 - ekk kold

/-- The divisor of the step: fisher_coinc.f:45. -/
noncomputable def slope (csig kold : ℝ) : ℝ :=
  2 * numer csig kold * ekk kold / denom kold - (csig - 1) * exp (kold * (csig - 1))

/-- `kappa` from `kold`: fisher_coinc.f:43-45. -/
noncomputable def stepK (csig kold : ℝ) : ℝ :=
  kold - (numer csig kold / denom kold - cC) * denom kold / slope csig kold

/-- The loop: fisher_coinc.f:32-50, `n` iterations from `nrmax`.  When `kold` is zero all of `num`, `den` are zero and the step is not a
number, for which the test at line 47 is false; when the divisor is zero the step is infinite, and the test false again; when `kappa` is
zero the quotient tested is infinite. -/
noncomputable def sigLoop (csig : ℝ) : ℕ → ℝ → Sig
  | 0, _ => .pause
  | n + 1, kold =>
    if kold = 0 then .nan
    else if slope csig kold = 0 then .inf
    else if stepK csig kold = 0 then sigLoop csig n 0
    else if epsS < |stepK csig kold - kold| / stepK csig kold then sigLoop csig n (stepK csig kold)
    else .val (stepK csig kold)

/-- `sig_to_kappa`: fisher_coinc.f:2-53.  A zero `sig` gives an infinite guess and a step that is not a number. -/
noncomputable def sigToKappa (sig : ℝ) : Sig :=
  if sig = 0 then .nan else sigLoop (cos sig) 25 (guessS / sig ^ 2)

/-- A `Direction`: drxn.py:8-59, the attributes `long`, `lat`, `ra`, `dec` and `uvec`. -/
structure Dir where
  long : Option ℝ
  lat : Option ℝ
  ra : Option ℝ
  dec : Option ℝ
  uvec : V3

/-- The conversion from degrees: drxn.py:36-37, 48-49, 105. -/
noncomputable def toRad (deg : Bool) (x : ℝ) : ℝ := if deg then π * x / 180 else x

/-- The unit vector of two angles: drxn.py:40-44, 52-56, 121-125, 129-133. -/
noncomputable def angVec (lng lat : ℝ) : V3 := ![cos lng * cos lat, sin lng * cos lat, sin lat]

/-- `Direction.__init__`: drxn.py:11-59. -/
noncomputable def mkDir (lng lat ra dec : Option ℝ) (deg : Bool) (uvec : Option V3) : Except Err Dir :=
  match uvec with
  | some u =>
    if lng.isSome || lat.isSome || ra.isSome || dec.isSome then Except.error .value
    else Except.ok ⟨none, none, none, none, u⟩
  | none =>
    match lng, lat with
    | some l, some b =>
      if ra.isSome || dec.isSome then Except.error .value
      else Except.ok ⟨some (toRad deg l), some (toRad deg b), none, none, angVec (toRad deg l) (toRad deg b)⟩
    | _, _ =>
      match ra, dec with
      | some a, some d =>
        if lng.isSome || lat.isSome then Except.error .value
        else Except.ok ⟨none, none, some (toRad deg a), some (toRad deg d), angVec (toRad deg a) (toRad deg d)⟩
      | _, _ => Except.error .value

/-- `Direction.__mul__` and `FDirection.__mul__`: drxn.py:61-63, 144-146. -/
noncomputable def Dir.mul (a b : Dir) : ℝ := dot3 a.uvec b.uvec

/-- A `FDirection`: drxn.py:74-109; `const` is `lsk + log(4*pi)`. -/
structure FDir extends Dir where
  sig : Option ℝ
  kappa : ℝ
  lsk : Fl

/-- How building a `FDirection` can end without one whose concentration is a number. -/
inductive Stop where
  | exc (e : Err)
  | nan
  | inf
  | pause

/-- `FDirection.__init__`: drxn.py:82-109.  `None` for `sig` is a `TypeError` at line 105 or at line 107. -/
noncomputable def mkFDir (sig lng lat ra dec : Option ℝ) (deg : Bool) (uvec : Option V3) (kappa : Option ℝ) : Except Stop FDir :=
  match mkDir lng lat ra dec deg uvec with
  | .error e => .error (.exc e)
  | .ok d =>
    match kappa.filter (fun k => decide (k ≠ 0)) with
    | some k => .ok { d with sig := none, kappa := k, lsk := lsinhc k }
    | none =>
      match sig with
      | none => .error (.exc .type)
      | some s =>
        match sigToKappa (toRad deg s) with
        | .val k => .ok { d with sig := some (toRad deg s), kappa := k, lsk := lsinhc k }
        | .nan => .error .nan
        | .inf => .error .inf
        | .pause => .error .pause

/-- `FDirection.llike`: drxn.py:111-137.  A direction passed as `drxn` is true; an array of three elements has no truth value (`ValueError`);
a list of them is true, and so is the built-in type `long` tested at line 135 (`ValueError` again).  Without any usable arguments the `None`
of line 137 is a `TypeError`. -/
noncomputable def FDir.llike (s : FDir) (drxn : Option Dir) (lng lat ra dec : Option ℝ) (uvec : Option V3) : Except Err Fl :=
  let truthy (x : Option ℝ) : Bool := (x.filter fun v => decide (v ≠ 0)).isSome
  if drxn.isSome && (truthy lng || truthy lat || truthy ra || truthy dec || uvec.isSome) then Except.error .value
  else
    let uvec : Option V3 := (drxn.map Dir.uvec).or uvec
    let value (u : V3) : Fl := (Fl.num (s.kappa * dot3 u s.uvec - log (4 * π))).sub s.lsk
    match lng, lat with
    | some l, some b =>
      if ra.isSome || dec.isSome || uvec.isSome then Except.error .value else Except.ok (value (angVec l b))
    | _, _ =>
      match ra, dec with
      | some a, some d =>
        if lng.isSome || lat.isSome || uvec.isSome then Except.error .value else Except.ok (value (angVec a d))
      | _, _ =>
        match uvec with
        | some _ => Except.error .value
        | none => Except.error .type

/-- `sqrt(tot(1)**2 + tot(2)**2 + tot(3)**2)`: fisher_coinc.f:80, 138, 179. -/
noncomputable def norm3 (t : V3) : ℝ := √(t 0 ^ 2 + t 1 ^ 2 + t 2 ^ 2)

/-- `doublet_lbf`: drxn.py:149-152, fisher_coinc.f:56-85. -/
noncomputable def doubletLbf (a b : FDir) : Fl :=
  ((lsinhc (norm3 fun i => a.kappa * a.uvec i + b.kappa * b.uvec i)).sub a.lsk).sub b.lsk

/-- The running total of `kappa(n)*drxn(:,n)`: fisher_coinc.f:130-137, 171-178. -/
noncomputable def total (l : List FDir) : V3 := l.foldl (fun t d => fun i => t i + d.kappa * d.uvec i) fun _ => 0

/-- Subtracting each `lsk(n)`: fisher_coinc.f:141-143, 182-184. -/
noncomputable def minusLsks (l : List FDir) (x : Fl) : Fl := l.foldl (fun t d => t.sub d.lsk) x

/-- `triplet_lbf`: drxn.py:154-158, fisher_coinc.f:88-146. -/
noncomputable def tripletLbf (a b c : FDir) : Fl := minusLsks [a, b, c] (lsinhc (norm3 (total [a, b, c])))

/-- `multiplet_lbf`: drxn.py:160-168, fisher_coinc.f:149-187.  An empty sequence gives an array of one dimension, which the wrapper
refuses. -/
noncomputable def multipletLbf (l : List FDir) : Except Err Fl :=
  if l = [] then Except.error .value else Except.ok (minusLsks l (lsinhc (norm3 (total l))))

/-- `sum(array([drxn.kappa for drxn in drxns]))`: drxn.py:177, 195. -/
noncomputable def kSum (l : List FDir) : ℝ := l.foldl (fun t d => t + d.kappa) 0

/-- `fisher_lml`: drxn.py:170-178.  For an empty sequence line 176 gives the integer zero, whose square line 178 cannot iterate over. -/
noncomputable def fisherLml (l : List FDir) : Except Err ℝ :=
  if l = [] then Except.error .type else Except.ok (kSum l - norm3 (total l))

/-- `fisher_fit`: drxn.py:180-196.  When the total vanishes, the division at line 196 gives not-a-number components without an exception, and
the constructor then refuses the zero concentration (`mkFDir` with a null vector in their place). -/
noncomputable def fisherFit (l : List FDir) : Except Stop (ℝ × FDir) :=
  if l = [] then .error (.exc .type)
  else
    match mkFDir none none none none none false (some fun i => total l i / norm3 (total l)) (some (norm3 (total l))) with
    | .error e => .error e
    | .ok d => .ok (kSum l - norm3 (total l), d)

end Verif.Drxn
