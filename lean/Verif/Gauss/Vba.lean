import Verif.Common
import Mathlib.Analysis.SpecialFunctions.Sqrt
import Mathlib.Data.Real.Basic

/-!
# The metric of a linear model

Model of `package/inference/gauss/vbamodule.c`.

Doubles are real numbers.  A two dimensional array of `nmod` rows is a function of two indices, and only its entries inside the array have a meaning: the C code addresses entry `(i, j)`
at offset `i * nmod + j`.  Reference counting and failing allocations are not modelled.
-/

set_option linter.unusedSectionVars false

namespace Verif.Vba

/-- The contents of an array. -/
abbrev Arr1 := ℕ → ℝ
abbrev Arr2 := ℕ → ℕ → ℝ

/-- Store an entry of a matrix. -/
def set2 (A : Arr2) (i j : ℕ) (v : ℝ) : Arr2 := fun i' j' => if i' = i ∧ j' = j then v else A i' j'

/-- Store an entry of a vector. -/
def set1 (x : Arr1) (i : ℕ) (v : ℝ) : Arr1 := fun i' => if i' = i then v else x i'

/-- `for (i=lo; i<hi; i++) body`. -/
def forUp {σ : Type} (lo hi : ℕ) (f : ℕ → σ → σ) (s : σ) : σ := (List.range' lo (hi - lo)).foldl (fun s i => f i s) s

/-- `for (i=hi-1; i>=0; i--) body`. -/
def forDown {σ : Type} : ℕ → (ℕ → σ → σ) → σ → σ
  | 0, _, s => s
  | i + 1, f, s => forDown i f (f i s)

/-- `for (i=lo; i<hi; i++) body`, where the body may go to `FAIL` with an exception. -/
def forUpE {σ : Type} (lo hi : ℕ) (f : ℕ → σ → Except Err σ) (s : σ) : Except Err σ := (List.range' lo (hi - lo)).foldlM (fun s i => f i s) s

/-- What `metricAnalysis` returns. -/
structure Stats where
  metric : Arr2
  L : Arr2
  rdet : ℝ
  P : Arr1
  A : Arr1
  S : ℝ

/-- The metric: vbamodule.c:151-167. -/
def metric (nmod nsamp : ℕ) (dmat : Arr2) : Arr2 :=
  forUp 0 nmod (fun a M => forUp 0 nmod (fun b M => set2 M a b (forUp 0 nsamp (fun i sum => sum + dmat a i * dmat b i) 0)) M) fun _ _ => 0

/-- The projections of the data on the models: vbamodule.c:169-181. -/
def proj (nmod nsamp : ℕ) (dmat : Arr2) (smpls : Arr1) : Arr1 :=
  forUp 0 nmod (fun a P => set1 P a (forUp 0 nsamp (fun i sum => sum + dmat a i * smpls i) 0)) fun _ => 0

/-- The state of the factorisation loop: the copy of the metric, the diagonal and the root of the determinant. -/
structure Chol where
  cf : Arr2
  diag : Arr1
  rdet : ℝ

/-- The body of the factorisation loop: vbamodule.c:193-206. -/
noncomputable def cholBody (a b : ℕ) (s : Chol) : Except Err Chol :=
  let sum := forDown a (fun m sum => sum - s.cf a m * s.cf b m) (s.cf a b)
  if a = b then
    if sum ≤ 0 then .error .value
    else
      let d := Real.sqrt sum
      .ok { s with diag := set1 s.diag a d, rdet := s.rdet * d }
  else .ok { s with cf := set2 s.cf b a (sum / s.diag a) }

/-- The factorisation: vbamodule.c:185-208. -/
noncomputable def chol (nmod : ℕ) (s : Chol) : Except Err Chol := forUpE 0 nmod (fun a s => forUpE a nmod (fun b s => cholBody a b s) s) s

/-- Replace the diagonal and zero the upper triangle: vbamodule.c:210-219. -/
def tidy (nmod : ℕ) (diag : Arr1) (cf : Arr2) : Arr2 :=
  forUp 0 nmod (fun a cf => forUp a nmod (fun b cf => if a = b then set2 cf a a (diag a) else set2 cf a b 0) cf) cf

/-- The first loop of the backsubstitution: vbamodule.c:221-233. -/
noncomputable def forward (nmod : ℕ) (L : Arr2) (p : Arr1) (A : Arr1) : Arr1 :=
  forUp 0 nmod (fun a A => set1 A a (forDown a (fun b sum => sum - L a b * A b) (p a) / L a a)) A

/-- The second loop of the backsubstitution: vbamodule.c:234-240. -/
noncomputable def backward (nmod : ℕ) (L : Arr2) (A : Arr1) : Arr1 :=
  forDown nmod (fun a A => set1 A a (forUp (a + 1) nmod (fun b sum => sum - L b a * A b) (A a) / L a a)) A

/-- `metricAnalysis(dmat, data)` for an array of `nmod` rows and `nsamp` columns and a vector of `ndata` samples: vbamodule.c:110-267.  `junk` is what the memory of `diag` holds. -/
noncomputable def metricAnalysis (junk : Arr1) (nmod nsamp ndata : ℕ) (dmat : Arr2) (smpls : Arr1) : Except Err Stats :=
  if nsamp ≠ ndata then .error .value
  else
    let G := metric nmod nsamp dmat
    let P := proj nmod nsamp dmat smpls
    match chol nmod ⟨G, junk, 1⟩ with
    | .error e => .error e
    | .ok s =>
      let L := tidy nmod s.diag s.cf
      let A := backward nmod L (forward nmod L P fun _ => 0)
      let S := forUp 0 nmod (fun a sum => sum + A a * P a) 0
      .ok ⟨G, L, s.rdet, P, A, S⟩

/-- The first loop of `covar`: vbamodule.c:305-314. -/
noncomputable def covar1 (nmod : ℕ) (cv : Arr2) : Arr2 :=
  forUp 0 nmod (fun a cv =>
    let cv := set2 cv a a (1 / cv a a)
    forUp (a + 1) nmod (fun b cv => set2 cv b a (forUp a b (fun m sum => sum - cv b m * cv m a) 0 / cv b b)) cv) cv

/-- The second loop of `covar`: vbamodule.c:315-322. -/
def covar2 (nmod : ℕ) (cv : Arr2) : Arr2 :=
  forUp 0 nmod (fun a cv => forUp a nmod (fun b cv => set2 cv a b (forUp b nmod (fun m sum => sum + cv m a * cv m b) 0)) cv) cv

/-- The third loop of `covar`: vbamodule.c:323-328. -/
def covar3 (nmod : ℕ) (cv : Arr2) : Arr2 :=
  forUp 0 nmod (fun a cv => forUp (a + 1) nmod (fun b cv => set2 cv b a (cv a b)) cv) cv

/-- `covar(L)` for a square array: vbamodule.c:277-339.  (The number of columns is not checked.)  Division by zero, which gives an infinity in C, gives 0 in the model; the theorems are
about nonzero diagonals. -/
noncomputable def covar (nmod : ℕ) (L : Arr2) : Arr2 := covar3 nmod (covar2 nmod (covar1 nmod L))

end Verif.Vba
