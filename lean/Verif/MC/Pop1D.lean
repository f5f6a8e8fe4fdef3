import Verif.Common
import Mathlib.Algebra.Field.Basic
import Mathlib.Order.Defs.LinearOrder
import Mathlib.Data.Rat.Defs
import Mathlib.Algebra.Order.Ring.Rat

/-!
# Populations indexed by a real quantity

Model of the class `Population1D` of `package/inference/mc/population.py`.  Floats are elements of a linearly ordered field.  NumPy's `argsort` is an argument of the model: any function that gives the indices
in an order in which the values do not decrease.
-/

namespace Verif.Pop1D

variable {K : Type*} [Field K] [LinearOrder K]

/-- An optional argument with numbers: absent, a list, or an array. -/
inductive Errs (K : Type*)
  | none
  | list (l : List K)
  | arr (l : List K)

/-- Whether `x == None` is true; the truth of an array of several truth values raises. -/
def Errs.isNone : Errs K → Except Err Bool
  | .none => .ok true
  | .list _ => .ok false
  | .arr l => if l.length ≥ 2 then .error .value else .ok false

/-- `a[indices]`: raises IndexError if an index is too large. -/
def take : List K → List ℕ → Except Err (List K)
  | _, [] => .ok []
  | a, i :: is =>
    match a[i]? with
    | none => .error .index
    | some x =>
      match take a is with
      | .error e => .error e
      | .ok xs => .ok (x :: xs)

/-- `a.cumsum()`, after the sum `s`. -/
def cumsum (s : K) : List K → List K
  | [] => []
  | a :: as => (s + a) :: cumsum (s + a) as

/-- The attributes. -/
structure Pop (K : Type*) where
  vals : List K
  weights : List K
  err : Errs K
  cdf : List K
  hazard : List K

/-- mc/population.py:196-199: the attribute `err`. -/
def initErr (indices : List ℕ) (err : Errs K) : Except Err (Errs K) :=
  match err.isNone with
  | .error e => .error e
  | .ok true => .ok .none
  | .ok false =>
    match err with
    | .none => .ok .none
    | .list l => (take l indices).map .arr
    | .arr l => (take l indices).map .arr

/-- mc/population.py:192-202, `Population1D.__init__`; `isArray` says whether `vals` is an array (indexing a list with an array raises).  The constructor of the base class keeps the weights as they are. -/
def init (argsort : List K → List ℕ) (isArray : Bool) (vals weights : List K) (err : Errs K) : Except Err (Pop K) :=
  let indices := argsort vals
  if isArray = false then .error .type
  else
    match take vals indices with
    | .error e => .error e
    | .ok v =>
      match take weights indices with
      | .error e => .error e
      | .ok w => (initErr indices err).map fun e => ⟨v, w, e, cumsum 0 w, (cumsum 0 w).reverse⟩

/-- mc/population.py:218-222: the loop over the values; `last` is `ord[-1]`. -/
def pairs (last : K) : List K → List K → List K × List K
  | x :: xs, p :: ps =>
    let r := pairs p xs ps
    (x :: x :: r.1, last :: p :: r.2)
  | _, _ => ([], [])

/-- The middles of successive values, and of the last one and `last`. -/
def middles (last : K) : List K → List K
  | [] => []
  | [x] => [1 / 2 * (x + last)]
  | x :: y :: xs => 1 / 2 * (x + y) :: middles last (y :: xs)

/-- What `haz_pts` returns: the abscissae and ordinates, and those of the error bars and their lengths if there are errors. -/
structure Pts (K : Type*) where
  absc : List K
  ord : List K
  bars : Option (List K × List K × List K)

/-- mc/population.py:204-236, `haz_pts`. -/
def hazPts (p : Pop K) (start stop : Option K) : Except Err (Pts K) :=
  match p.vals.head?, p.vals.getLast? with
  | some first, some final =>
    let start := start.getD first
    let stop := stop.getD final
    if start > first ∨ stop < final then .error .value
    else
      let r := pairs 1 p.vals p.hazard
      let absc := start :: r.1 ++ [stop]
      let ord := 1 :: r.2 ++ [0]
      match p.err.isNone with
      | .error e => .error e
      | .ok true => .ok ⟨absc, ord, none⟩
      | .ok false =>
        match p.err with
        | .none => .ok ⟨absc, ord, none⟩
        | .list l => .ok ⟨absc, ord, some (middles stop p.vals, p.hazard, l)⟩
        | .arr l => .ok ⟨absc, ord, some (middles stop p.vals, p.hazard, l)⟩
  | _, _ => .error .index

end Verif.Pop1D
