import Verif.Odiag.Burg
import Mathlib.Analysis.SpecialFunctions.Log.Basic

/-!
# Model of sandbox/odiag/output.f: `bestar` and `odiag`

Arrays are functions of a zero based index; arithmetic is exact real arithmetic.
-/

set_option linter.unusedSectionVars false

noncomputable section

namespace Verif.Odiag

/-- What `bestar` returns (sandbox/odiag/output.f:145-148). -/
structure Best where
  ord : ℕ
  var : ℝ
  clen : ℝ

/-- One pass of the loop over orders: the AIC, and order, variance of the mean and correlation length; `none` where a logarithm or a quotient is not finite (sandbox/odiag/output.f:175-187). -/
def candidate (n : ℕ) (s : Ar ℝ) : Option (ℝ × Best) :=
  let sum := loopSum (fun r => s.coef (r + 1)) s.ord
  if s.var ≤ 0 ∨ 1 - sum = 0 then none
  else
    let aic := n * Real.log s.var + 2 * s.ord
    let c := 1 / (1 - sum) ^ 2
    some (aic, { ord := s.ord, var := s.var / (n / c), clen := c })

/-- The loop over orders 1 to `m + 1` (sandbox/odiag/output.f:172-202). -/
def bestGo (n : ℕ) (x : ℕ → ℝ) : ℕ → Option (ℝ × Best)
  | 0 => (burg n x 0).bind (candidate n)
  | m + 1 =>
      match bestGo n x m, (burg n x (m + 1)).bind (candidate n) with
      | some b, some c => if c.1 < b.1 then some c else some b
      | _, _ => none

/-- `bestar`: orders up to 30 and below the length; `none` where nothing is assigned or a value is not finite (sandbox/odiag/output.f:145-205). -/
def bestar (n : ℕ) (x : ℕ → ℝ) : Option Best :=
  let omax := min (n - 1) 30
  if omax = 0 then none else (bestGo n x (omax - 1)).map (·.2)

/-- The mean of `n` elements from index `lo` on (sandbox/odiag/output.f:71-75, 91-95). -/
def meanOf (x : ℕ → ℝ) (lo n : ℕ) : ℝ := loopSum (fun t => x (lo + t)) n / n

/-- The statistic for a series without its first `del` elements (sandbox/odiag/output.f:85-110). -/
def cvm (x : ℕ → ℝ) (ndat : ℕ) (var : ℝ) (del : ℕ) : ℝ :=
  let n := ndat - del
  let fac := 1 / (var * n)
  let dt := 1 / (n : ℝ)
  let mean := meanOf x del n
  dt * loopSum (fun j => fac * (loopSum (fun t => x (del + t)) (j + 1) - (j + 1 : ℕ) * mean) ^ 2) (n - 1)

/-- The critical value (sandbox/odiag/output.f:56). -/
def ccrit : ℝ := 0.347

/-- The loop over deletions: the first that passes the test (sandbox/odiag/output.f:84-116). -/
def search (x : ℕ → ℝ) (ndat : ℕ) (var : ℝ) : List ℕ → Option ℕ
  | [] => none
  | i :: is =>
      let del := i * ndat / 10
      if cvm x ndat var del < ccrit then some del else search x ndat var is

/-- What `odiag` returns: `ok` is false, or the deletion, mean, the two standard deviations, the order and the correlation length (sandbox/odiag/output.f:9-25). -/
inductive Diag
  | no (del : ℕ)
  | yes (del : ℕ) (mean spsig arsig : ℝ) (ord : ℕ) (clen : ℝ)

/-- `odiag`; `spec` is `specvar`, of which only the variance is used (sandbox/odiag/output.f:9-141). The factors 0, .1, .., .5 are taken as exact. -/
def odiag (spec : ℕ → (ℕ → ℝ) → ℝ) (ndat : ℕ) (x : ℕ → ℝ) : Option Diag :=
  let th := ndat / 2
  let tlo := ndat - th
  let m0 := meanOf x tlo th
  match bestar th (fun t => x (tlo + t) - m0) with
  | none => none
  | some b =>
      let var := th * b.var
      match search x ndat var [0, 1, 2, 3, 4, 5] with
      | none => some (.no ndat)
      | some del =>
          let n := ndat - del
          let mean := meanOf x del n
          let spsig := Real.sqrt (spec n fun t => x (del + t))
          match bestar n (fun t => x (t + del) - mean) with
          | none => none
          | some b => some (.yes del mean spsig (Real.sqrt b.var) b.ord b.clen)

end Verif.Odiag
