import Mathlib.Algebra.Order.Field.Basic
import Mathlib.Algebra.Order.Group.Unbundled.Abs
import Mathlib.Data.Rat.Defs
import Mathlib.Algebra.Order.Ring.Rat
import Mathlib.Logic.Function.Basic

/-!
# The information matrix of `expt/deriv/flotsam/qdinfo-bad.f`

Simplifications: exact arithmetic for `real*8`; vertices and parameters count from 0; a point is a function on the `np` parameters; the `goto` loop carries a fuel, `none` when it runs out; `np` is within `npmax`, so that the `pause` is not reached.
-/

namespace Verif.Deriv.QdInfo

variable {K : Type*} [Field K] [LinearOrder K] {n : ℕ}

/-- `expt/deriv/flotsam/qdinfo-bad.f:58-66` (`qdinfol0`, labels 470-480): one vertex is moved to `(G-P)+G` while its value is within `simp` of `func`. -/
def expandV (f : (Fin n → K) → K) (p : Fin n → K) (func simp : K) :
    ℕ → (Fin n → K) → K → Option ((Fin n → K) × K)
  | 0, _, _ => none
  | t + 1, v, h =>
    if simp ≤ |h - func| then some (v, h)
    else expandV f p func simp t (fun j => (v j - p j) + v j) (f fun j => (v j - p j) + v j)

/-- The simplex: `g` and `h`. -/
structure Simplex (n : ℕ) (K : Type*) where
  g : ℕ → Fin n → K
  h : ℕ → K

/-- `expt/deriv/flotsam/qdinfo-bad.f:57-67` (`qdinfol0`, loop 490): the `r` vertices from `i` on, in turn. -/
def expandAll (f : (Fin n → K) → K) (p : Fin n → K) (func simp : K) (fuel : ℕ) :
    ℕ → ℕ → Simplex n K → Option (Simplex n K)
  | 0, _, s => some s
  | r + 1, i, s =>
    match expandV f p func simp fuel (s.g i) (s.h i) with
    | none => none
    | some (v, h) => expandAll f p func simp fuel r (i + 1) ⟨Function.update s.g i v, Function.update s.h i h⟩

/-- `expt/deriv/flotsam/qdinfo-bad.f:71-77` (`qdinfol0`, loop 510): the value halfway between the first vertex and vertex `i+1`. -/
def aval (f : (Fin n → K) → K) (s : Simplex n K) (i : Fin n) : K :=
  f fun j => (s.g 0 j + s.g (i + 1) j) * (1 / 2)

/-- `expt/deriv/flotsam/qdinfo-bad.f:87`, `90`, `101` (`qdinfol0`): `d1`, `d2`. -/
def step (s : Simplex n K) (i : Fin n) : K := s.g (i + 1) i - s.g 0 i

/-- `expt/deriv/flotsam/qdinfo-bad.f:91-95` (`qdinfol0`): the entry below the diagonal. -/
def off (f : (Fin n → K) → K) (s : Simplex n K) (i j : Fin n) : K :=
  -4 * ((f fun k => (s.g (i + 1) k + s.g (j + 1) k) * (1 / 2)) + s.h 0 - aval f s i - aval f s j)
    / (step s i * step s j)

/-- `expt/deriv/flotsam/qdinfo-bad.f:99-103` (`qdinfol0`, loop 550): the entry on the diagonal. -/
def diag (f : (Fin n → K) → K) (s : Simplex n K) (i : Fin n) : K :=
  -4 * (s.h (i + 1) + s.h 0 - 2 * aval f s i) / step s i ^ 2

/-- `expt/deriv/flotsam/qdinfo-bad.f:82-103` (`qdinfol0`, loops 540 and 550): the matrix; what is computed for `j < i` is copied above the diagonal (line 96). -/
def matrix (f : (Fin n → K) → K) (s : Simplex n K) (i j : Fin n) : K :=
  if j < i then off f s i j else if i < j then off f s j i else diag f s i

/-- `expt/deriv/flotsam/qdinfo-bad.f:2-106` (`qdinfol0`). -/
def qdinfo (fuel : ℕ) (f : (Fin n → K) → K) (p : Fin n → K) (func : K) (s : Simplex n K) (simp : K) :
    Option (Fin n → Fin n → K) :=
  (expandAll f p func simp fuel (n + 1) 0 s).map (matrix f)

end Verif.Deriv.QdInfo
