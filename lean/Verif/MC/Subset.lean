import Verif.Common
import Mathlib.Data.Nat.Notation
import Mathlib.Data.Int.Notation

/-!
# Equal-probability subsets

Model of `equalprob` and `equalprobi` of `package/inference/mc/_ppssampler.c`.  `rand()` gives natural numbers up to `rmax` (`RAND_MAX`); the products and quotients of
doubles in `pick` are exact.  The generator is the list of numbers it is going to give; a call that needs more numbers than the list has gives `none`.
-/

namespace Verif.MC

/-- `pick = npopn * (1.*rand())/(RAND_MAX+1.)`, truncated: _ppssampler.c:712, 777. -/
def pickOf (rmax npopn r : ℕ) : ℕ := npopn * r / (rmax + 1)

/-- The picks of `ns` rounds, from a pool of `npopn` that shrinks by one each time; with the numbers left. -/
def picksOf (rmax : ℕ) : ℕ → ℕ → List ℕ → Option (List ℕ × List ℕ)
  | 0, _, rs => some ([], rs)
  | _ + 1, _, [] => none
  | ns + 1, npopn, r :: rs =>
    match picksOf rmax ns (npopn - 1) rs with
    | none => none
    | some (ps, rs) => some (pickOf rmax npopn r :: ps, rs)

/-- The loop over the picks: _ppssampler.c:711-717, 776-782; sample and work space.  `none` if an index is outside the pool. -/
def pickLoop {α : Type*} : List ℕ → ℕ → List α → Option (List α × List α)
  | [], _, pool => some ([], pool)
  | p :: ps, npopn, pool =>
    match pool[p]?, pool[npopn - 1]? with
    | some x, some last =>
      match pickLoop ps (npopn - 1) (pool.set p last) with
      | none => none
      | some (out, pool) => some (x :: out, pool)
    | _, _ => none

/-- What a call gives: the caller's array afterwards, and the exception or the sample with the random numbers left. -/
abbrev Call (α : Type*) := List α × (Err ⊕ (List α × List ℕ))

/-- `equalprob(ns, pool)`: _ppssampler.c:736-792.  The work space is a copy of the pool. -/
def equalprob {α : Type*} (rmax : ℕ) (ns : ℤ) (pool : List α) (rs : List ℕ) : Option (Call α) :=
  if ns ≤ 0 then some (pool, .inl .value)
  else if ns > pool.length then some (pool, .inl .value)
  else
    match picksOf rmax ns.toNat pool.length rs with
    | none => none
    | some (ps, rs) =>
      match pickLoop ps pool.length pool with
      | none => none
      | some (out, _) => some (pool, .inr (out, rs))

/-- `equalprobi(ns, np, pool)`: _ppssampler.c:666-727, for a pool that is an array of C integers already (any other is converted, and the caller's object is not
touched): the work space is the caller's array. -/
def equalprobi (rmax : ℕ) (ns np : ℤ) (pool : List ℕ) (rs : List ℕ) : Option (Call ℕ) :=
  if ns ≤ 0 then some (pool, .inl .value)
  else if ns > np then some (pool, .inl .value)
  else if pool.length < np then some (pool, .inl .value)
  else
    match picksOf rmax ns.toNat np.toNat rs with
    | none => none
    | some (ps, rs) =>
      match pickLoop ps np.toNat (List.range np.toNat ++ pool.drop np.toNat) with
      | none => none
      | some (out, pool) => some (pool, .inr (out, rs))

end Verif.MC
