import Mathlib.Data.List.Range
import Mathlib.Tactic.Linarith

/-!
# The memory that `covar` touches: the model

Models which elements of its copy of the argument the function `vba_covar` of package/inference/gauss/vbamodule.c reads and writes, for an array of any shape.  `PyArray_ContiguousFromAny` (line 293) makes sure that there are two dimensions; `nmod` is the number of rows (line 299) and the number of columns is never looked at.  What is computed from the elements is modelled in `Verif.Gauss.Vba`.
-/

namespace Verif.Vba.Mem

/-- `for (i=lo; i<hi; i++)` and what its body touches. -/
def loop (lo hi : ℕ) (body : ℕ → List ℕ) : List ℕ := (List.range' lo (hi - lo)).flatMap body

/-- The offsets from `cvdata` of the first loop: vbamodule.c:305-314. -/
def touched1 (nmod : ℕ) : List ℕ :=
  loop 0 nmod fun a => [a * nmod + a] ++ loop (a + 1) nmod fun b =>
    (loop a b fun m => [b * nmod + m, m * nmod + a]) ++ [b * nmod + b, b * nmod + a]

/-- The offsets of the second loop: vbamodule.c:315-322. -/
def touched2 (nmod : ℕ) : List ℕ :=
  loop 0 nmod fun a => loop a nmod fun b => (loop b nmod fun m => [m * nmod + a, m * nmod + b]) ++ [a * nmod + b]

/-- The offsets of the third loop: vbamodule.c:323-328. -/
def touched3 (nmod : ℕ) : List ℕ := loop 0 nmod fun a => loop (a + 1) nmod fun b => [a * nmod + b, b * nmod + a]

/-- All the offsets: vbamodule.c:302-328. -/
def touched (nmod : ℕ) : List ℕ := touched1 nmod ++ touched2 nmod ++ touched3 nmod

/-- The copy of an array of `nmod` rows and `ncol` columns has this many elements. -/
def size (nmod ncol : ℕ) : ℕ := nmod * ncol

end Verif.Vba.Mem
