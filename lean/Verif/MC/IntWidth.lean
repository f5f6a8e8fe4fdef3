import Mathlib.Algebra.BigOperators.Group.List.Basic
import Mathlib.Algebra.Order.Field.Rat
import Mathlib.Logic.Function.Basic
import Mathlib.Data.List.Range

/-!
# `prepwts` and the width of integers: the model

Models the sorting of the weights in `prepwts`, package/inference/mc/_ppssampler.c:251-281, down to the memory of the array of indices.  `PyArray_ArgSort` makes an array of `npy_intp`, integers of the width of a pointer; the code reads and writes it through a pointer to `int` (lines 59 and 253), which has 32 bits.  An element takes up `w` of them: `w = 1` where pointers have 32 bits, `w = 2` where they have 64 (least significant first).  Indices are below 2^31.
-/

namespace Verif.MC.IntWidth

variable {K : Type}

/-- The memory of an array of indices as a sequence of `int`: each element is followed by `w - 1` zeros; what comes after the array is taken to be zeros as well (it is not used for the first `npopn` integers). -/
def ints (w : ℕ) (ord : List ℕ) (i : ℕ) : ℕ := if i % w = 0 then ord.getD (i / w) 0 else 0

/-- One exchange of `idata[i]` and `idata[j]`, `j = npopn-i-1`: _ppssampler.c:260-263. -/
def swap (n i : ℕ) (f : ℕ → ℕ) : ℕ → ℕ := Function.update (Function.update f i (f (n - i - 1))) (n - i - 1) (f i)

/-- The loop of the reversal: _ppssampler.c:259-264. -/
def reversal (n : ℕ) (f : ℕ → ℕ) : ℕ → ℕ := (List.range (n / 2)).foldl (fun f i => swap n i f) f

/-- The pointer `idata` after the reversal. -/
def idata (w : ℕ) (ord : List ℕ) : ℕ → ℕ := reversal ord.length (ints w ord)

/-- The sorted weights: _ppssampler.c:265-269. -/
def sorted (w : ℕ) (wts : List K) [Zero K] (ord : List ℕ) : List K := (List.range ord.length).map fun i => wts.getD (idata w ord i) 0

/-- The total weight: _ppssampler.c:272-274. -/
def total (w : ℕ) (wts : List K) [Zero K] [Add K] (ord : List ℕ) : K := (sorted w wts ord).sum

/-- The indices that the sampler keeps: _ppssampler.c:277, sampford.c:36-40. -/
def kept (w : ℕ) (ord : List ℕ) : List ℕ := (List.range ord.length).map (idata w ord)

/-- An element of the array that is returned, as NumPy and Python read it: _ppssampler.c:281.  An `int` has `base` = 2^32 values. -/
def element (base w : ℕ) (f : ℕ → ℕ) (k : ℕ) : ℕ := ((List.range w).map fun j => f (w * k + j) * base ^ j).sum

/-- The array that is returned. -/
def returned (base w : ℕ) (ord : List ℕ) : List ℕ := (List.range ord.length).map (element base w (idata w ord))

end Verif.MC.IntWidth
