import Verif.Common
import Mathlib.Analysis.SpecialFunctions.Pow.Real

/-!
# Multivariate normal and t distributions, and kernel density estimates: the model

Models expt/mc/mvnt.py and expt/mc/_mvnt.f.  Numbers are real numbers, also where the code has powers in single precision (_mvnt.f:147-148, 466-467); the indices of arrays start at 0, while they start at 1 in Fortran; arrays are functions of their indices, of which those below the dimension `n` matter.
-/

set_option linter.unusedSectionVars false

namespace Verif.Mvnt

open Real

noncomputable section

/-- Vectors and matrices. -/
abbrev Arr := ℕ → ℝ
abbrev Arr2 := ℕ → ℕ → ℝ

/-- An assignment to an entry. -/
def set1 (v : Arr) (i : ℕ) (x : ℝ) : Arr := fun a => if a = i then x else v a
def set2 (A : Arr2) (i j : ℕ) (x : ℝ) : Arr2 := fun a b => if a = i ∧ b = j then x else A a b

/-- `x = x - f(k)` for k = m - 1, ..., 0. -/
def down (f : ℕ → ℝ) : ℕ → ℝ → ℝ
  | 0, x => x
  | k + 1, x => down f k (x - f k)

/-- `x = x + f(k)` for k = 0, ..., m - 1. -/
def up (f : ℕ → ℝ) : ℕ → ℝ → ℝ
  | 0, x => x
  | k + 1, x => up f k x + f k

/-! ## Decomposition -/

/-- The loop over j > i of the decomposition, _mvnt.f:107-139. -/
def cholCol (S : Arr2) (i : ℕ) : List ℕ → Arr2 → Arr2
  | [], L => L
  | j :: r, L =>
    let x := down (fun k => L j k * L i k) i (S i j)
    cholCol S i r (set2 (set2 L j i (x / L i i)) i j 0)

/-- The loop over i, _mvnt.f:106-140; `none` is the error flag 1. -/
def cholLoop (n : ℕ) (S : Arr2) : List ℕ → Arr2 × ℝ → Option (Arr2 × ℝ)
  | [], st => some st
  | i :: r, (L, d1) =>
    let x := down (fun k => L i k * L i k) i (S i i)
    let d1 := d1 * x
    if x = 0 then none
    else if x < 0 then none
    else cholLoop n S r (cholCol S i (List.range' (i + 1) (n - (i + 1))) (set2 L i i (√x)), d1)

/-- The loop over j of the inversion, _mvnt.f:87-89. -/
def gjInner (i : ℕ) (q : ℝ) (h : Arr) : List ℕ → Arr2 → Arr2
  | [], S => S
  | j :: r, S => gjInner i q h r (set2 S (i - 1) (j - 1) (S i j + q * h j))

/-- The loop over i of the inversion, _mvnt.f:83-90. -/
def gjOuter (k : ℕ) (p : ℝ) : List ℕ → Arr2 × Arr → Arr2 × Arr
  | [], st => st
  | i :: r, (S, h) =>
    let q := S i 0
    let h := set1 h i (if i < k then -(q / p) else q / p)
    gjOuter k p r (gjInner i q h (List.range' 1 i) S, h)

/-- One pass of the inversion, _mvnt.f:77-95; `none` is the error flag 2. -/
def gjStep (n k : ℕ) (S : Arr2) (h : Arr) : Option (Arr2 × Arr) :=
  let p := S 0 0
  if p ≤ 0 then none
  else
    let st := gjOuter k p (List.range' 1 (n - 1)) (S, h)
    let S := set2 st.1 (n - 1) (n - 1) (1 / p)
    some ((List.range' 1 (n - 1)).foldl (fun S i => set2 S (n - 1) (i - 1) (st.2 i)) S, st.2)

/-- All passes, _mvnt.f:77-95. -/
def gjLoop (n : ℕ) : ℕ → Arr2 → Arr → Option Arr2
  | 0, S, _ => some S
  | k + 1, S, h =>
    match gjStep n (k + 1) S h with
    | none => none
    | some (S, h) => gjLoop n k S h

/-- The inversion with the upper triangle filled in, _mvnt.f:76-101. -/
def invert (n : ℕ) (S : Arr2) (h : Arr) : Option Arr2 :=
  match gjLoop n n S h with
  | none => none
  | some S => some fun i j => if i < j then S j i else S i j

/-- `mvnini`, _mvnt.f:14-151: the matrix (inverted if `inv`), its decomposition and the norm, or the error flag.  `L0` and `h0` are what the output and the work array hold before. -/
def mvnini (n : ℕ) (S : Arr2) (inv : Bool) (L0 : Arr2) (h0 : Arr) : Except ℕ (Arr2 × Arr2 × ℝ) :=
  match (if inv then invert n S h0 else some S) with
  | none => .error 2
  | some S =>
    match cholLoop n S (List.range n) (L0, 1) with
    | none => .error 1
    | some (L, d1) => .ok (S, L, 1 / ((2 * π) ^ ((n : ℝ) / 2) * √d1))

/-! ## Samples and densities -/

/-- `mvnsampq`, _mvnt.f:195-239: the sample and the quadratic form; the samples `mvnsamp`, _mvnt.f:154-192, returns are the same. -/
def sampGo (mu : Arr) (L : Arr2) : ℕ → Arr × ℝ → Arr × ℝ
  | 0, st => st
  | i + 1, (s, q) =>
    let q := q + s i ^ 2
    let x := up (fun j => L i j * s j) i (mu i + s i * L i i)
    sampGo mu L i (set1 s i x, q)

/-- `mvnsampq`. -/
def mvnsampq (n : ℕ) (mu : Arr) (L : Arr2) (sn : Arr) : Arr × ℝ := sampGo mu L n (sn, 0)

/-- `mvnsamp`. -/
def mvnsamp (n : ℕ) (mu : Arr) (L : Arr2) (sn : Arr) : Arr := (mvnsampq n mu L sn).1

/-- The first substitution, _mvnt.f:282-288. -/
def fwd (L : Arr2) : ℕ → Arr → Arr
  | 0, w => w
  | i + 1, w =>
    let w := fwd L i w
    set1 w i (down (fun k => L i k * w k) i (w i) / L i i)

/-- The second substitution, _mvnt.f:289-295, for i = m - 1, ..., 0; the inner loop runs upwards from i + 1. -/
def bwd (n : ℕ) (L : Arr2) : ℕ → Arr → Arr
  | 0, w => w
  | i + 1, w =>
    let z := (List.range' (i + 1) (n - (i + 1))).foldl (fun z k => z - L k i * w k) (w i)
    bwd n L i (set1 w i (z / L i i))

/-- `mvnqform`, _mvnt.f:310-371; the work array is filled first. -/
def qform (n : ℕ) (samp mu : Arr) (L : Arr2) : ℝ :=
  let w := bwd n L n (fwd L n fun i => samp i - mu i)
  up (fun i => (samp i - mu i) * w i) n 0

/-- `mvnden`, _mvnt.f:242-307. -/
def mvnden (n : ℕ) (samp mu : Arr) (nrm : ℝ) (L : Arr2) : ℝ := nrm * exp (-(qform n samp mu L) / 2)

/-- `mvnkde`, _mvnt.f:374-401: the nodes are the columns. -/
def mvnkde (n m : ℕ) (pt : Arr) (nodes : Arr2) (nrm : ℝ) (L : Arr2) (scale : ℝ) : ℝ :=
  up (fun i => exp (-(qform n pt (fun a => nodes a i) L / scale ^ 2) / 2)) m 0 / (nrm * m * scale)

/-! ## The gamma function -/

/-- What `hgamma` keeps between calls, _mvnt.f:718-722; the first index of the table is 1. -/
structure GTable where
  ntop : ℕ
  a : ℕ → ℝ

/-- Before the first call, _mvnt.f:721: the constant is a single precision one. -/
def GTable.start (rest : ℕ → ℝ) : GTable := ⟨2, fun i => if i = 1 then 14868421 / 8388608 else if i = 2 then 1 else rest i⟩

/-- The loop _mvnt.f:727-729, for j = lo, ..., lo + m - 1. -/
def fill : ℕ → ℕ → (ℕ → ℝ) → ℕ → ℝ
  | _, 0, a => a
  | lo, m + 1, a => fill (lo + 1) m (fun i => if i = lo then ((lo : ℝ) / 2 - 1) * a (lo - 2) else a i)

/-- `gammln`, _mvnt.f:741-766. -/
def gammln (xx : ℝ) : ℝ :=
  let x := xx - 1
  let tmp := x + 5.5
  let tmp := (x + 0.5) * log tmp - tmp
  let ser := 1 + 76.18009173 / (x + 1) + -86.50532033 / (x + 2) + 24.01409822 / (x + 3) + -1.231739516 / (x + 4) + 0.120858003e-2 / (x + 5) + -0.536382e-5 / (x + 6)
  tmp + log (2.50662827465 * ser)

/-- `hgamma`, _mvnt.f:711-738: the value and the table kept. -/
def GTable.call (t : GTable) (n : ℕ) : ℝ × GTable :=
  if n ≤ t.ntop then (t.a n, t)
  else if n ≤ 64 then
    let a := fill (t.ntop + 1) (n - t.ntop) t.a
    (a n, ⟨n, a⟩)
  else (exp (gammln ((n : ℝ) / 2)), t)

/-! ## The t distribution -/

/-- The factor, _mvnt.f:453-454. -/
def tFac (n nu : ℕ) : ℝ := √(((n : ℝ) + nu) / nu)

/-- `mvtini`, _mvnt.f:404-470: the inverse, the scaled decomposition, the norm, and the table of `hgamma` after. -/
def mvtini (n nu : ℕ) (H : Arr2) (L0 : Arr2) (h0 : Arr) (t : GTable) : Except ℕ (Arr2 × Arr2 × ℝ × GTable) :=
  match mvnini n H true L0 h0 with
  | .error e => .error e
  | .ok (S, L, nrm) =>
    let fac := tFac n nu
    let L := fun i j => if i < n ∧ j ≤ i then fac * L i j else L i j
    let nrm := nrm * 2 ^ ((n : ℝ) / 2) / fac ^ n
    let g1 := t.call (nu + n)
    let g2 := g1.2.call nu
    .ok (S, L, nrm * (nu : ℝ) ^ ((nu : ℝ) / 2) * g1.1 / g2.1, g2.2)

/-- `mvtsamp`, _mvnt.f:473-529. -/
def mvtsamp (n : ℕ) (mu : Arr) (L : Arr2) (nu : ℕ) (sn : Arr) (gam : ℝ) : Arr :=
  let sig := 2 * gam / nu
  let sig := 1 / √sig
  let s := mvnsamp n mu L sn
  fun i => mu i + sig * (s i - mu i)

/-- `mvtden`, _mvnt.f:597-669, and `mvtdenq`, _mvnt.f:672-708. -/
def mvtdenq (n nu : ℕ) (nrm q : ℝ) : ℝ := nrm / √(((nu : ℝ) + q) ^ (n + nu))
def mvtden (n : ℕ) (samp mu : Arr) (nu : ℕ) (nrm : ℝ) (L : Arr2) : ℝ := mvtdenq n nu nrm (qform n samp mu L)

/-! ## The classes -/

/-- What an object of class `MVN` needs, mvnt.py:9-23. -/
structure MVN where
  mu : Arr
  ndim : ℕ
  L : Arr2
  nrm : ℝ

/-- The constructor, mvnt.py:9-23.  With `icovar` the extension module is called with `covar`, which is `None`: `onNone` is whatever the wrapper makes of that.  Simplified: the sizes of the arguments agree. -/
def MVN.make (n : ℕ) (mu : Arr) (covar icovar : Option Arr2) (L0 : Arr2) (h0 : Arr) (onNone : Except Err MVN) : Except Err MVN :=
  let covar := if covar.isNone ∧ icovar.isNone then some (fun i j => if i = j then 1 else 0) else covar
  match covar with
  | some S =>
    if icovar.isSome then .error .value
    else match mvnini n S false L0 h0 with
      | .ok (_, L, nrm) => .ok ⟨mu, n, L, nrm⟩
      | .error _ => .error .runtime
  | none => onNone

/-- `sample`, mvnt.py:25-34, for one vector of standard normal deviates. -/
def MVN.sample (m : MVN) (z : Arr) : Arr := mvnsamp m.ndim m.mu m.L z

/-- `sample_q`, mvnt.py:36-47. -/
def MVN.sampleQ (m : MVN) (z : Arr) : Arr × ℝ := mvnsampq m.ndim m.mu m.L z

/-- `pdf`, mvnt.py:49-51. -/
def MVN.pdf (m : MVN) (x : Arr) : ℝ := mvnden m.ndim x m.mu m.nrm m.L

/-- `pdfq`, mvnt.py:53-56. -/
def MVN.pdfq (m : MVN) (q : ℝ) : ℝ := m.nrm * exp (-q / 2)

/-- What an object of class `MVT` needs, mvnt.py:62-70. -/
structure MVT where
  nu : ℕ
  mu : Arr
  ndim : ℕ
  hess : Arr2
  ihess : Arr2
  L : Arr2
  nrm : ℝ

/-- The constructor, mvnt.py:62-70, and the caller's array after it.  The wrapper declares the matrix `intent(in,out)`: an array in Fortran order (`fortran`) is changed in place, any other is copied. -/
def MVT.make (n nu : ℕ) (mu : Arr) (hess : Arr2) (fortran : Bool) (L0 : Arr2) (h0 : Arr) (t : GTable) : Except Err (MVT × Arr2 × GTable) :=
  match mvtini n nu hess L0 h0 t with
  | .ok (S, L, nrm, t) =>
    let after := if fortran then S else hess
    .ok (⟨nu, mu, n, after, S, L, nrm⟩, after, t)
  | .error _ => .error .runtime

/-- `sample`, mvnt.py:72-83, for one vector of standard normal deviates and one gamma deviate. -/
def MVT.sample (m : MVT) (z : Arr) (g : ℝ) : Arr := mvtsamp m.ndim m.mu m.L m.nu z g

/-- `sample_q`, mvnt.py:85-98: it has no argument `n`. -/
def MVT.sampleQ (_m : MVT) (_z : Arr) (_g : ℝ) : Except Err (Arr × ℝ) := .error .name

/-- `pdf`, mvnt.py:100-102. -/
def MVT.pdf (m : MVT) (x : Arr) : ℝ := mvtden m.ndim x m.mu m.nu m.nrm m.L

/-- `pdfq`, mvnt.py:104-107. -/
def MVT.pdfq (m : MVT) (q : ℝ) : ℝ := mvtdenq m.ndim m.nu m.nrm q

/-- What an object of class `MVNKDE` needs, mvnt.py:113-131: the nodes are the rows of `nodes` and the columns of `tnodes`. -/
structure KDE where
  nodes : Arr2
  tnodes : Arr2
  nnodes : ℕ
  ndim : ℕ
  scale : ℝ
  L : Arr2
  nrm : ℝ

/-- The constructor, mvnt.py:113-131. -/
def KDE.make (m n : ℕ) (nodes : Arr2) (scale : ℝ) (covar icovar : Option Arr2) (L0 : Arr2) (h0 : Arr) (onNone : Except Err KDE) : Except Err KDE :=
  if covar.isNone ∧ icovar.isNone then .error .value
  else match covar with
    | some S =>
      if icovar.isSome then .error .value
      else match mvnini n S false L0 h0 with
        | .ok (_, L, nrm) => .ok ⟨nodes, fun i j => nodes j i, m, n, scale, L, nrm⟩
        | .error _ => .error .runtime
    | none => onNone

/-- `sample`, mvnt.py:133-150, for the node chosen and one vector of standard normal deviates. -/
def KDE.sample (k : KDE) (node : ℕ) (z : Arr) : Arr :=
  let displ := mvnsamp k.ndim (fun _ => 0) k.L z
  fun i => k.nodes node i + k.scale * displ i

/-- `pdf`, mvnt.py:152-155. -/
def KDE.pdf (k : KDE) (x : Arr) : ℝ := mvnkde k.ndim k.nnodes x k.tnodes k.nrm k.L k.scale

/-- `set_node`, mvnt.py:157-162. -/
def KDE.setNode (k : KDE) (n : ℕ) (pt : Arr) : KDE :=
  { k with nodes := fun i j => if i = n then pt j else k.nodes i j, tnodes := fun i j => if j = n then pt i else k.tnodes i j }

end

end Verif.Mvnt
