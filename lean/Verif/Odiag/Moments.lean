import Verif.Odiag.Burg
import Mathlib.Analysis.SpecialFunctions.Sqrt
import Mathlib.Algebra.Order.Floor.Semiring
import Mathlib.Data.Rat.Floor

/-!
# Model of sandbox/odiag: `moments`, `diag`, `corr`, `acorr`, `corr0`, `fcorr` and `bint`

Arrays are functions of a zero based index; arithmetic is exact.
-/

set_option linter.unusedSectionVars false

noncomputable section

namespace Verif.Odiag

/-- The `i`th moment function (sandbox/odiag/moments.f:200-257). -/
def cfuns (i : ℕ) (x y : ℝ) : ℝ :=
  if i = 0 then 1
  else
    let s : ℝ := 1 + 8 * i
    let ord := ⌊0.5 * (√s - 1)⌋₊
    let m := ord * (ord + 3) / 2 - i
    let n := ord - m
    if m = 0 then y ^ n
    else if n = 0 then x ^ m
    else x ^ m * y ^ n

/-- The number of moments for an order (sandbox/odiag/moments.f:40). -/
def nmomOf (ord : ℕ) : ℕ := ord * (ord + 3) / 2

/-- The values of a moment along a run; in one dimension `y` is an array that is never assigned (sandbox/odiag/moments.f:98-116). -/
def momVals (d : ℕ) (junk : ℕ → ℝ) (xv yv : ℕ → ℝ) (m t : ℕ) : ℝ := cfuns m (xv t) (if d = 2 then yv t else junk t)

/-- The variable `ord` after the moments of all runs: it is overwritten by each AR fit; `fits` are the orders of the fits in sequence (sandbox/odiag/moments.f:39, 127). -/
def writtenOrder (requested : ℕ) (fits : List ℕ) : ℕ := fits.foldl (fun _ o => o) requested

/-- The runs whose samples are used, in sequence: for a run that is not in equilibrium nothing is read, and each run read is the next in the file (sandbox/odiag/moments.f:86-104). -/
def runsUsed {α : Type} : List Bool → List α → List α
  | [], _ => []
  | false :: eq, file => runsUsed eq file
  | true :: eq, r :: file => r :: runsUsed eq file
  | true :: _, [] => []

/-- The spacing of the samples kept (sandbox/odiag/moments.f:85, 138-139), with `maxs` = 500. -/
def skipOf (nreq nt : ℕ) (clmax : ℝ) : ℕ :=
  let sper := 500 / nreq
  max ⌊clmax⌋₊ (nt / sper)

/-- The numbers, from 1, of the samples kept of a run; `none` is a division by zero (sandbox/odiag/moments.f:140-146). -/
def kept (skip nt : ℕ) : Option (List ℕ) := if skip = 0 then none else some ((List.range' 1 nt).filter fun t => t % skip = 0)

/-- The average of a moment over the runs in equilibrium and its written uncertainty; `none` is a division by zero (sandbox/odiag/moments.f:152-165). -/
def average (nreq : ℕ) (runs : List (Bool × ℝ × ℝ)) : Option (ℝ × ℝ) :=
  let s := runs.foldl (fun (s : ℝ × ℝ) r => if r.1 then (s.1 + r.2.1, s.2 + r.2.2 ^ 2) else s) (0, 0)
  if nreq = 0 then none else some (s.1 / nreq, √(s.2 / nreq))

/-- The number of samples to delete, from the deletion times written by `diag` for each parameter (sandbox/odiag/moments.f:59-70). -/
def delOf (intvl : ℕ) : List ℕ → ℕ
  | [] => 0
  | v :: vs => vs.foldl (fun d v => max d (v / intvl + 1)) (v / intvl + 1)

/-- `time(j)`, `j` from 1, for samples at intervals of `intvl` starting at time 0; `none` is an element outside the array (sandbox/odiag/diag.f:58-66). -/
def timeAt (intvl nt j : ℕ) : Option ℕ := if 1 ≤ j ∧ j ≤ nt then some ((j - 1) * intvl) else none

/-- The first sample used for the test, from 1 (sandbox/odiag/diag.f:88). -/
def t0Of (clen : ℝ) : ℕ := ⌊2 * clen + 1⌋₊

/-- The deletion time recorded for a parameter; `diagn` gives what `odiag` deletes from the rest of the series, `none` if it is not stationary (sandbox/odiag/diag.f:88-120). The outer `none` is an element outside the array. -/
def rdel (intvl nt : ℕ) (clen : ℝ) (diagn : ℕ → Option ℕ) : Option (Bool × ℕ) :=
  let t0 := t0Of clen
  if nt + 1 - t0 < 1 then (timeAt intvl nt nt).map fun v => (false, v)
  else
    match diagn t0 with
    | none => (timeAt intvl nt nt).map fun v => (false, v)
    | some del => (timeAt intvl nt (del + t0 - 1)).map fun v => (true, v)

variable {K : Type} [Field K] [LinearOrder K] [IsStrictOrderedRing K]

/-- The mean of a run (sandbox/odiag/corr.f:61-68). -/
def runMean (n : ℕ) (x : ℕ → K) : K := loopSum x n / n

/-- The covariance at a lag, before division by that at lag 0 (sandbox/odiag/corr.f:86-96, sandbox/odiag/acorr.f:87-96). -/
def cov (n : ℕ) (x : ℕ → K) (lag : ℕ) : K := loopSum (fun i => (x i - runMean n x) * (x (i + lag) - runMean n x)) (n - lag) / (n - lag : ℕ)

/-- The autocorrelation at a lag (sandbox/odiag/corr.f:98-102, sandbox/odiag/acorr.f:98-102); `none` for zero divided by zero. -/
def corr (n : ℕ) (x : ℕ → K) (lag : ℕ) : Option K := if cov n x 0 = 0 then none else some (cov n x lag / cov n x 0)

/-- The spread of the products at a lag (sandbox/odiag/corr.f:93, 97). -/
def covVar (n : ℕ) (x : ℕ → K) (lag : ℕ) : K :=
  loopSum (fun i => ((x i - runMean n x) * (x (i + lag) - runMean n x)) ^ 2) (n - lag) / (n - lag : ℕ) - cov n x lag ^ 2

/-- The variance written by `corr` (sandbox/odiag/corr.f:98-103). -/
def corrVar (n : ℕ) (x : ℕ → K) (lag : ℕ) : K :=
  let c := cov n x lag / cov n x 0
  (covVar n x lag / cov n x 0 ^ 2 + covVar n x 0 * (c / cov n x 0) ^ 2) / (n - lag : ℕ)

/-- The series padded with its mean (sandbox/odiag/corr0.f:75-77). -/
def padMean (n : ℕ) (x : ℕ → K) (i : ℕ) : K := if i < n then x i else runMean n x

/-- The covariance of `corr0` (sandbox/odiag/corr0.f:92-102), with a length of 2 `n`. -/
def cov0 (n : ℕ) (x : ℕ → K) (lag : ℕ) : K :=
  let v := padMean n x
  loopSum (fun i => (v i - runMean n x) * (v (if i + lag ≥ 2 * n then i + lag - 2 * n else i + lag) - runMean n x)) n / n

/-- The autocorrelation of `corr0` (sandbox/odiag/corr0.f:104-108). -/
def corr0 (n : ℕ) (x : ℕ → K) (lag : ℕ) : Option K := if cov0 n x 0 = 0 then none else some (cov0 n x lag / cov0 n x 0)

/-- The length of the transform of `fcorr` (sandbox/odiag/fcorr.f:30-34), for up to 1024 samples. -/
def lenOf (n : ℕ) : ℕ := if n ≤ 512 then 512 else 1024

/-- The circular correlation that `correl` computes for a sequence of length `len` (called at sandbox/odiag/fcorr.f:68). -/
def circ (len : ℕ) (v : ℕ → K) (lag : ℕ) : K := ∑ j ∈ Finset.range len, v ((j + lag) % len) * v j

/-- The autocorrelation of `fcorr` (sandbox/odiag/fcorr.f:45-73); `sig` is the standard deviation of the samples. -/
def fcorr (n : ℕ) (x : ℕ → K) (sig : K) (lag : ℕ) : Option K :=
  let v : ℕ → K := fun i => if i < n then (x i - runMean n x) / sig else 0
  let c := circ (lenOf n) v
  if c 0 = 0 then none else some (c lag / c 0)

/-- The average over runs of `acorr` and the square of its uncertainty (sandbox/odiag/acorr.f:105-106, 121-123). -/
def acorrAvg (cs : List K) : K × K :=
  let r : K := cs.length
  let s := cs.foldl (fun (s : K × K) c => (s.1 + c, s.2 + c * c)) (0, 0)
  (s.1 / r, (s.2 / r - (s.1 / r) ^ 2) / r)

/-- Conversion of a real number to an integer by Fortran: towards zero. -/
def fint (q : ℚ) : ℤ := if 0 ≤ q then ⌊q⌋ else ⌈q⌉

/-- The number of the bin of a sample (sandbox/odiag/bint.f:46-48), with rational numbers. -/
def binOf (lo hi : ℚ) (nb : ℕ) (p : ℚ) : ℤ :=
  let bw := (hi - lo) / nb
  fint ((p - lo) / bw + 1)

/-- The contents of bin `n` (sandbox/odiag/bint.f:43-50); the index may be outside 1..nb. -/
def binCount (lo hi : ℚ) (nb : ℕ) (ps : List ℚ) (n : ℤ) : ℕ := ps.foldl (fun c p => if binOf lo hi nb p = n then c + 1 else c) 0

end Verif.Odiag
