import Verif.Drxn.Drxn

/-!
# Odds for repetition of up to four bursts

Model of the program `rep4`, `expt/drxn/rep4.f`.  Its subroutine `sig_to_kappa` (226-276) and function `lsinhc` (412-428) are those of
`sandbox/drxn/fisher_coinc.f`, modelled in `Drxn.lean`.  Not modelled: the reading and writing of the files (the numbers are written with
four digits after the point) and what is printed on the way.
-/

set_option linter.unusedSectionVars false

namespace Verif.Drxn

open Real

namespace Fl

/-- `exp(x)`. -/
noncomputable def exp' : Fl → Fl
  | .num a => .num (Real.exp a)
  | x => x

/-- `x + y`. -/
noncomputable def add : Fl → Fl → Fl
  | .num a, .num b => .num (a + b)
  | .num _, .posInf => .posInf
  | .posInf, .num _ => .posInf
  | .posInf, .posInf => .posInf
  | _, _ => .nan

/-- `x * y` for factors that are not negative. -/
noncomputable def mul : Fl → Fl → Fl
  | .num a, .num b => .num (a * b)
  | .num a, .posInf => if 0 < a then .posInf else .nan
  | .posInf, .num b => if 0 < b then .posInf else .nan
  | .posInf, .posInf => .posInf
  | _, _ => .nan

/-- `x / n` for a positive constant `n`. -/
noncomputable def divBy (n : ℝ) : Fl → Fl
  | .num a => .num (a / n)
  | x => x

end Fl

/-- `doublet_l`: rep4.f:279-313. -/
noncomputable def doubletL (a b : FDir) : Fl :=
  (((lsinhc (norm3 fun i => a.kappa * a.uvec i + b.kappa * b.uvec i)).sub (lsinhc a.kappa)).sub (lsinhc b.kappa)).exp'

/-- Subtracting each `lsinhc(kappa(indx(n)))`: rep4.f:354-356, 404-406. -/
noncomputable def minusLs (l : List FDir) (x : Fl) : Fl := l.foldl (fun t d => t.sub (lsinhc d.kappa)) x

/-- `triplet_l`: rep4.f:316-360. -/
noncomputable def tripletL (a b c : FDir) : Fl := (minusLs [a, b, c] (lsinhc (norm3 (total [a, b, c])))).exp'

/-- `quadruplet_l`: rep4.f:363-409. -/
noncomputable def quadrupletL (a b c d : FDir) : Fl := (minusLs [a, b, c, d] (lsinhc (norm3 (total [a, b, c, d])))).exp'

/-- The pairs of `do 220 i=1, nb-1`, `do 210 j=i+1, nb`: rep4.f:75-76, 141-142. -/
def pairs (nb : ℕ) : List (ℕ × ℕ) := (List.range' 1 (nb - 1)).flatMap fun i => (List.range' (i + 1) (nb - i)).map fun j => (i, j)

/-- The pairs of `do 410 i=1, nb-1`, `do 400 j=i, nb`: rep4.f:97-98, 178-179. -/
def pairs' (nb : ℕ) : List (ℕ × ℕ) := (List.range' 1 (nb - 1)).flatMap fun i => (List.range' i (nb + 1 - i)).map fun j => (i, j)

/-- The triples of `do 330`, `do 320`, `do 310`: rep4.f:152-154. -/
def triples (nb : ℕ) : List (ℕ × ℕ × ℕ) :=
  (List.range' 1 (nb - 2)).flatMap fun i => (List.range' (i + 1) (nb - 1 - i)).flatMap fun j => (List.range' (j + 1) (nb - j)).map fun k => (i, j, k)

/-- The array `doublet` after the loops: rep4.f:73-81, 139-147.  `mem` is what the array held before: nothing is assigned to it at first. -/
noncomputable def doublets (b : ℕ → FDir) (nb : ℕ) (mem : ℕ → ℕ → Fl) : ℕ → ℕ → Fl :=
  (pairs nb).foldl (fun t p i j => if i = p.1 ∧ j = p.2 then doubletL (b p.1) (b p.2) else t i j) mem

/-- The array `triplet` after the loops: rep4.f:150-160. -/
noncomputable def tripletsT (b : ℕ → FDir) (nb : ℕ) (mem : ℕ → ℕ → ℕ → Fl) : ℕ → ℕ → ℕ → Fl :=
  (triples nb).foldl (fun t p i j k => if i = p.1 ∧ j = p.2.1 ∧ k = p.2.2 then tripletL (b p.1) (b p.2.1) (b p.2.2) else t i j k) mem

/-- The loops that add up the doublets: rep4.f:96-101, 177-182. -/
noncomputable def sumPairs (t : ℕ → ℕ → Fl) (nb : ℕ) : Fl := (pairs' nb).foldl (fun s p => s.add (t p.1 p.2)) (.num 0)

/-- What `rep_3` writes: rep4.f:91-113. -/
structure Rep3 where
  l111 : Fl
  p23 : Fl
  p13 : Fl
  p12 : Fl
  o12 : Fl
  o3 : Fl

/-- `rep_3`: rep4.f:56-116; `b i` is burst `i`, `mem` what the memory of `doublet` holds at first. -/
noncomputable def rep3 (b : ℕ → FDir) (mem : ℕ → ℕ → Fl) : Rep3 :=
  let doublet := doublets b 3 mem
  { l111 := .num (1 ^ 3)
    p23 := doublet 2 3
    p13 := doublet 1 3
    p12 := doublet 1 2
    o12 := (sumPairs doublet 3).divBy 3
    o3 := tripletL (b 1) (b 2) (b 3) }

/-- What `rep_4` writes: rep4.f:172-221, without the lines of single partitions. -/
structure Rep4 where
  l1111 : Fl
  o112 : Fl
  o22 : Fl
  o13 : Fl
  o4 : Fl

/-- `rep_4`: rep4.f:119-223. -/
noncomputable def rep4 (b : ℕ → FDir) (mem : ℕ → ℕ → Fl) (mem3 : ℕ → ℕ → ℕ → Fl) : Rep4 :=
  let doublet := doublets b 4 mem
  let triplet := tripletsT b 4 mem3
  { l1111 := .num (1 ^ 4)
    o112 := (sumPairs doublet 4).divBy 6
    o22 := (((doublet 1 2).mul (doublet 3 4)).add ((doublet 1 3).mul (doublet 2 4)) |>.add ((doublet 1 4).mul (doublet 2 3))).divBy 3
    o13 := ((((triplet 2 3 4).add (triplet 1 3 4)).add (triplet 1 2 4)).add (triplet 1 2 3)).divBy 4
    o4 := quadrupletL (b 1) (b 2) (b 3) (b 4) }

/-- One burst: longitude, latitude and uncertainty in degrees, with a systematic error in radians: rep4.f:32-41.  (The unit vector and the concentration are made as by
`FDirection`, whose constructor is used here.) -/
noncomputable def readBurst (sys : ℝ) (x : ℝ × ℝ × ℝ) : Except Stop FDir :=
  mkFDir (some √((x.2.2 * (π / 180)) ^ 2 + sys ^ 2)) (some (x.1 * (π / 180))) (some (x.2.1 * (π / 180))) none none false none none

/-- The loop over the bursts: rep4.f:32-42. -/
noncomputable def readAll (sys : ℝ) : List (ℝ × ℝ × ℝ) → Except Stop (List FDir)
  | [] => .ok []
  | x :: l =>
    match readBurst sys x with
    | .error e => .error e
    | .ok d =>
      match readAll sys l with
      | .error e => .error e
      | .ok r => .ok (d :: r)

/-- What the program writes after the number of bursts. -/
inductive Report where
  | nothing
  | three (r : Rep3)
  | four (r : Rep4)

/-- The bursts as an array from 1. -/
noncomputable def arr (l : List FDir) : ℕ → FDir :=
  fun i => l.getD (i - 1) { long := none, lat := none, ra := none, dec := none, uvec := fun _ => 0, sig := none, kappa := 0, lsk := .nan }

/-- The program: rep4.f:1-53, for the systematic error `sys` (degrees) and the bursts of the parameter file. -/
noncomputable def rep4Main (sys : ℝ) (l : List (ℝ × ℝ × ℝ)) (mem : ℕ → ℕ → Fl) (mem3 : ℕ → ℕ → ℕ → Fl) : Except Stop Report :=
  if 4 < l.length then .error .pause
  else
    match readAll (sys * (π / 180)) l with
    | .error e => .error e
    | .ok b =>
      if l.length = 3 then .ok (.three (rep3 (arr b) mem))
      else if l.length = 4 then .ok (.four (rep4 (arr b) mem mem3))
      else .ok .nothing

end Verif.Drxn
