import Mathlib.Algebra.Order.Field.Basic
import Mathlib.Algebra.Order.Group.Abs
import Mathlib.Logic.Function.Basic

/-!
# Model of three programs for Romberg integration

`QROMB` with `TRAPZD` and `POLINT`, /repo/expt/signals/_cosmo.f:559-653; `romberg`, /repo/sandbox/integrate/romberg.py; `Rombergs_Integration_Method`, /repo/sandbox/integrate/rombergs_method.c.

Floating point numbers are elements of a linearly ordered field, arrays are functions of the index (only the indices of the array are read).  The integrand is a total function.
-/

set_option linter.unusedSectionVars false

namespace Verif.Romberg

variable {K : Type*} [Field K] [LinearOrder K] [IsStrictOrderedRing K]

/-! ## _cosmo.f -/

/-- The loop of `TRAPZD`, _cosmo.f:602-605: `x` and `sum` after `k` turns; the sum is returned. -/
def sumGo (f : K → K) (del : K) : ℕ → K → K → K
  | 0, _, sum => sum
  | k + 1, x, sum => sumGo f del k (x + del) (sum + f x)

/-- `TRAPZD(FUNC,A,B,S,N)`, _cosmo.f:589-610.  `S` is read and written; `IT` is kept from call to call by the statement `save`. -/
def trapzd (f : K → K) (a b : K) (s : K) (it : ℕ) (n : ℕ) : K × ℕ :=
  if n = 1 then (1 / 2 * (b - a) * (f a + f b), 1)
  else
    let tnm : K := it
    let del := (b - a) / tnm
    let sum := sumGo f del it (a + 1 / 2 * del) 0
    (1 / 2 * (s + (b - a) * sum / tnm), 2 * it)

/-- The search of the nearest abscissa, `POLINT`, _cosmo.f:620-630: `NS` and `DIF` after the indices from `i` on, `k` of them. -/
def nearest (xa : ℕ → K) (x : K) : ℕ → ℕ → ℕ → K → ℕ
  | 0, _, ns, _ => ns
  | k + 1, i, ns, dif =>
    let dift := |x - xa i|
    if dift < dif then nearest xa x k (i + 1) i dift else nearest xa x k (i + 1) ns dif

/-- The inner loop of `POLINT`, _cosmo.f:634-643, from index `i` on, `k` turns. -/
def inner (xa : ℕ → K) (x : K) (m : ℕ) : ℕ → ℕ → (ℕ → K) → (ℕ → K) → (ℕ → K) × (ℕ → K)
  | 0, _, c, d => (c, d)
  | k + 1, i, c, d =>
    let ho := xa i - x
    let hp := xa (i + m) - x
    let w := c (i + 1) - d i
    let den := w / (ho - hp)
    inner xa x m k (i + 1) (Function.update c i (ho * den)) (Function.update d i (hp * den))

/-- The outer loop of `POLINT`, _cosmo.f:631-651, `k` turns from `m` on: `Y` and `DY`. -/
def outer (xa : ℕ → K) (x : K) (n : ℕ) : ℕ → ℕ → ℕ → K → K → (ℕ → K) → (ℕ → K) → K × K
  | 0, _, _, y, dy, _, _ => (y, dy)
  | k + 1, m, ns, y, _, c, d =>
    let r := inner xa x m (n - m) 1 c d
    if 2 * ns < n - m then outer xa x n k (m + 1) ns (y + r.1 (ns + 1)) (r.1 (ns + 1)) r.1 r.2
    else outer xa x n k (m + 1) (ns - 1) (y + r.2 ns) (r.2 ns) r.1 r.2

/-- `POLINT(XA,YA,N,X,Y,DY)`, _cosmo.f:613-653, with indices from 1 on.  `dy0` is what `DY` held before (it is not set if `N` is 1). -/
def polint (xa ya : ℕ → K) (n : ℕ) (x dy0 : K) : K × K :=
  let ns := nearest xa x n 1 1 |x - xa 1|
  outer xa x n (n - 1) 1 (ns - 1) (ya ns) dy0 ya ya

/-- How `QROMB` ends: with a value; after `J` stages; after the message of `PAUSE` or not. -/
structure Out (K : Type*) where
  ss : K
  stages : ℕ
  paused : Bool

/-- The loop of `QROMB`, _cosmo.f:572-583, `k` turns from `J = j` on; `h`, `s` are the arrays, `it` is kept by `TRAPZD`.  If the run is resumed after `PAUSE` the last value is returned, _cosmo.f:584-585. -/
def qloop (f : K → K) (a b eps : K) : ℕ → ℕ → (ℕ → K) → (ℕ → K) → ℕ → K → K → Out K
  | 0, j, _, _, _, ss, _ => ⟨ss, j - 1, true⟩
  | k + 1, j, h, s, it, ss, dss =>
    let t := trapzd f a b (s j) it j
    let s := Function.update s j t.1
    let h' := Function.update h (j + 1) (1 / 4 * h j)
    let s' := Function.update s (j + 1) (s j)
    if 5 ≤ j then
      let l := j - 4
      let r := polint (fun i => h (l + i - 1)) (fun i => s (l + i - 1)) 5 0 dss
      if |r.2| < eps * |r.1| then ⟨r.1, j, false⟩
      else if r.1 = 0 then ⟨r.1, j, false⟩
      else qloop f a b eps k (j + 1) h' s' t.2 r.1 r.2
    else qloop f a b eps k (j + 1) h' s' t.2 ss dss

/-- `QROMB(FUNC,A,B,SS,eps)`, _cosmo.f:559-585; `h0`, `s0`, `it0`, `ss0` and `dss0` are what the local arrays, the saved `IT`, `SS` and `DSS` held before. -/
def qromb (f : K → K) (a b eps : K) (h0 s0 : ℕ → K) (it0 : ℕ) (ss0 dss0 : K) : Out K :=
  if a = b then ⟨0, 0, false⟩
  else qloop f a b eps 20 1 (Function.update h0 1 1) s0 it0 ss0 dss0

/-! ## romberg.py -/

/-- The rest of a row, romberg.py:15-16, `k` entries from index `m` on; `prev` is the row above, `last` the entry before. -/
def rowGo (prev : ℕ → K) : ℕ → ℕ → K → List K
  | 0, _, _ => []
  | k + 1, m, last =>
    let e := last + (last - prev (m - 1)) / (4 ^ m - 1)
    e :: rowGo prev k (m + 1) e

/-- Row `n`, romberg.py:11-16, from the row before. -/
def row (f : K → K) (a b : K) (n : ℕ) (prev : List K) : List K :=
  let h := (b - a) / 2 ^ n
  let e := 1 / 2 * prev.getD 0 0 + h * ((List.range (2 ^ (n - 1))).map fun k : ℕ => f (a + (2 * ((k : K) + 1) - 1) * h)).sum
  e :: rowGo (fun i => prev.getD i 0) n 1 e

/-- The loop of `romberg`, romberg.py:10-20, at most `fuel` turns; `none` if they do not suffice. -/
def romLoop (f : K → K) (a b eps : K) : ℕ → ℕ → List K → Option (K × ℕ)
  | 0, _, _ => none
  | fuel + 1, n, prev =>
    let r := row f a b n prev
    if |r.getD (n - 1) 0 - r.getD n 0| < eps then some (r.getD n 0, n)
    else romLoop f a b eps fuel (n + 1) r

/-- `romberg(f, a, b, eps)`, romberg.py:4-20: the value and the number of rows after the first.  The rows printed are left out. -/
def romberg (f : K → K) (a b eps : K) (fuel : ℕ) : Option (K × ℕ) :=
  romLoop f a b eps fuel 1 [1 / 2 * (b - a) * (f a + f b)]

/-! ## rombergs_method.c -/

/-- The loop over the new abscissas, rombergs_method.c:88-89, which ends since the step is positive; here with the number of turns `fuel` as a bound. -/
def absGo (f : K → K) (upper oldH : K) : ℕ → K → K → K
  | 0, _, integral => integral
  | fuel + 1, x, integral => if x < upper then absGo f upper oldH fuel (x + oldH) (integral + f x) else integral

/-- The extrapolation, rombergs_method.c:94-98, `k` turns from `j` on: the array, the integral and the last `delta`. -/
def extra (rich : ℕ → K) : ℕ → ℕ → (ℕ → K) → K → K → (ℕ → K) × K × K
  | 0, _, dt, integral, delta => (dt, integral, delta)
  | k + 1, j, dt, integral, _ =>
    let delta := integral - dt j
    extra rich k (j + 1) (Function.update dt j integral) (integral + rich j * delta) delta

/-- The loop over the columns, rombergs_method.c:82-118, `left` turns from `k` on: the integral and `err`. -/
def colGo (rich : ℕ → K) (f : K → K) (a upper tol : K) : ℕ → ℕ → K → (ℕ → K) → K → K × Int
  | 0, _, _, _, integral => (integral, -1)
  | left + 1, k, h, dt, _ =>
    let oldH := h
    let h := h * (1 / 2)
    let sum := absGo f upper oldH (2 ^ k) (a + h) 0
    let r := extra rich k 0 dt (h * sum + 1 / 2 * dt 0) 0
    if |r.2.2| < tol then (r.2.1, 0)
    else colGo rich f a upper tol left (k + 1) h (Function.update r.1 k r.2.1) r.2.1

/-- `Rombergs_Integration_Method(a, h, tolerance, max_cols, f, err)`, rombergs_method.c:62-119: the value and `*err`.  `rich` is the table of constants, rombergs_method.c:8-18; `dt0` is what the local array held before. -/
def rombergC (rich : ℕ → K) (f : K → K) (a h tol : K) (maxCols : Int) (dt0 : ℕ → K) : K × Int :=
  let cols := (min (max maxCols 0) 27).toNat
  colGo rich f a (a + h) tol (cols - 1) 1 h (Function.update dt0 0 (1 / 2 * h * (f a + f (a + h)))) (1 / 2 * (f a + f (a + h)))

/-- The table of constants, rombergs_method.c:8-18, in units of 1e-36. -/
def richTable : List ℕ := [
  333333333333333333300000000000000000, 66666666666666666670000000000000000, 15873015873015873020000000000000000,
  3921568627450980392000000000000000, 977517106549364613900000000000000, 244200244200244200200000000000000,
  61038881767686015990000000000000, 15259021896696421760000000000000, 3814711817595739730000000000000,
  953675225901819135500000000000, 238418635944994913300000000000, 59604648328104515560000000000,
  14901161415892264480000000000, 3725290312339701922000000000, 931322575482840254400000000,
  232830643708079737600000000, 58207660916855539020000000, 14551915228578610040000000,
  3637978807104947841000000, 909494701773755418500000, 227373675443283758300000,
  56843418860811246040000, 14210854715202205670000, 3552713678800513551000,
  888178419700126021200, 222044604925031357400]

end Verif.Romberg
