import Verif.Gauss.Vba
import Mathlib.Analysis.SpecialFunctions.Trigonometric.Basic

/-!
# Bayesian harmonic analysis: the model

Models sandbox/bha/bhacalc.c and the classes of sandbox/bha/bha.py and USTimeSeries.py that call it.  Double precision numbers are real numbers.  The factorisation, backsubstitution and covariance loops are those of vbamodule.c, statement for statement (bhacalc.c:221-284, 390-453, 505-531), and `Verif.Gauss.Vba` models them.  Parsing, allocation and reference counts are not modelled.
-/

set_option linter.unusedSectionVars false

namespace Verif.Bha

open Real Verif.Vba

/-- Why there is no result: an exception, or a quotient of zeros in the metric, some of whose entries are then NaN.  (Comparisons with NaN are false, so that NaN entries do not raise "not positive definite" by themselves; what else becomes NaN is not modelled.) -/
inductive Stop where
  | exc (e : Err)
  | nan
deriving DecidableEq

/-- `sameSums`: bhacalc.c:100-109; the values c, s, x. -/
noncomputable def sameSums (n : ℕ) (gamma : ℝ) : Except Stop (ℝ × ℝ × ℝ) :=
  if sin gamma = 0 then .error .nan
  else
    let d := 0.5 * sin (n * gamma) / sin gamma
    let cd := cos (((n : ℝ) - 1) * gamma) * d
    let hn := 0.5 * (n : ℝ)
    .ok (hn + cd, hn - cd, sin (((n : ℝ) - 1) * gamma) * d)

/-- `diffSums`: bhacalc.c:111-124; the values c, s, x12, x21. -/
noncomputable def diffSums (n : ℕ) (hgp hgm : ℝ) : Except Stop (ℝ × ℝ × ℝ × ℝ) :=
  if sin hgp = 0 ∨ sin hgm = 0 then .error .nan
  else
    let dp := 0.5 * sin (n * hgp) / sin hgp
    let cdp := cos ((n - 1) * hgp) * dp
    let sdp := sin ((n - 1) * hgp) * dp
    let dm := 0.5 * sin (n * hgm) / sin hgm
    let cdm := cos ((n - 1) * hgm) * dm
    let sdm := sin ((n - 1) * hgm) * dm
    .ok (cdp + cdm, -cdp + cdm, sdp + sdm, sdp - sdm)

/-- Copy a block below the diagonal: bhacalc.c:211-216, 380-385.  `i`, `j` count from one. -/
def copyBelow (i j : ℕ) (M : Arr2) : Arr2 :=
  forUp (2 * i - 2) (2 * i) (fun a M => forUp (2 * j - 2) (2 * j) (fun b M => set2 M b a (M a b)) M) M

/-- The body of the loops over the sinusoids: bhacalc.c:187-218, 356-387.  `g`, `hgp`, `hgm` are the arguments of the sums. -/
noncomputable def blockBody (ndat : ℕ) (g : ℕ → ℝ) (hgp hgm : ℕ → ℕ → ℝ) (i j : ℕ) (M : Arr2) : Except Stop Arr2 :=
  if i = j then
    match sameSums ndat (g i) with
    | .error e => .error e
    | .ok (c, s, x) =>
      let M := set2 M (2 * i - 2) (2 * j - 2) c
      let M := set2 M (2 * i - 2) (2 * j - 1) x
      let M := set2 M (2 * i - 1) (2 * j - 2) (M (2 * i - 2) (2 * j - 1))
      .ok (set2 M (2 * i - 1) (2 * j - 1) s)
  else
    match diffSums ndat (hgp i j) (hgm i j) with
    | .error e => .error e
    | .ok (c, s, x12, x21) =>
      let M := set2 M (2 * i - 2) (2 * j - 2) c
      let M := set2 M (2 * i - 2) (2 * j - 1) x12
      let M := set2 M (2 * i - 1) (2 * j - 2) x21
      let M := set2 M (2 * i - 1) (2 * j - 1) s
      .ok (copyBelow i j M)

/-- The metric: bhacalc.c:180-219, 349-388.  The new array is filled with zeros. -/
noncomputable def metricB (nsin ndat : ℕ) (g : ℕ → ℝ) (hgp hgm : ℕ → ℕ → ℝ) : Except Stop Arr2 :=
  (List.range' 1 nsin).foldlM (fun M i => (List.range' i (nsin + 1 - i)).foldlM (fun M j => blockBody ndat g hgp hgm i j M) M) fun _ _ => 0

/-- From the factorisation on: bhacalc.c:221-290, 390-459, for a metric and projections. -/
noncomputable def analyse (junk : Arr1) (nmod : ℕ) (G : Arr2) (P : Arr1) : Except Err Stats :=
  match chol nmod ⟨G, junk, 1⟩ with
  | .error e => .error e
  | .ok s =>
    let L := tidy nmod s.diag s.cf
    let A := backward nmod L (forward nmod L P fun _ => 0)
    let S := forUp 0 nmod (fun a sum => sum + A a * P a) 0
    .ok ⟨G, L, s.rdet, P, A, S⟩

/-- `harmonicAnalysis(nharm, ndat, gamma, prjxns)` for `nproj` projections: bhacalc.c:145-302.  (The projections are not part of what it returns.) -/
noncomputable def harmonicAnalysis (junk : Arr1) (nharm ndat : ℕ) (gamma : ℝ) (nproj : ℕ) (P : Arr1) : Except Stop Stats :=
  if 2 * nharm ≠ nproj then .error (.exc .value)
  else
    match metricB nharm ndat (fun i => i * gamma) (fun i j => 0.5 * (i + j) * gamma) (fun i j => 0.5 * (j - i) * gamma) with
    | .error e => .error e
    | .ok G => match analyse junk nproj G P with
      | .error e => .error (.exc e)
      | .ok r => .ok r

/-- `multipletAnalysis(ndat, gammas, prjxns)` for `nsin` members of `gammas` and `nproj` projections: bhacalc.c:308-471. -/
noncomputable def multipletAnalysis (junk : Arr1) (ndat nsin : ℕ) (gammas : Arr1) (nproj : ℕ) (P : Arr1) : Except Stop Stats :=
  if 2 * nsin ≠ nproj then .error (.exc .value)
  else
    match metricB nsin ndat (fun i => gammas (i - 1)) (fun i j => 0.5 * (gammas (i - 1) + gammas (j - 1))) (fun i j => 0.5 * (gammas (j - 1) - gammas (i - 1))) with
    | .error e => .error e
    | .ok G => match analyse junk nproj G P with
      | .error e => .error (.exc e)
      | .ok r => .ok r

end Verif.Bha
