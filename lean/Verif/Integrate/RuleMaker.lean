import Verif.Common
import Mathlib.Algebra.Order.Field.Basic
import Mathlib.Analysis.SpecialFunctions.Trigonometric.Basic

/-!
# Making cubature rules from their generators: expt/integrate/make_ECF_rules.py

Generators of Python are lists of what they yield; a list that is changed in place is modelled by the states in which it is yielded and the state it is left in.
Numbers are elements of an ordered field, real numbers for the rules on circles.  Reading the text of the descriptions and writing the code of the rules are not modelled.
-/

set_option linter.unusedSectionVars false

namespace Verif.Integrate.RuleMaker

section comb
variable {α : Type}

/-- `xcomb(items, n)`: make_ECF_rules.py:178-190. -/
def xcomb : List α → ℕ → List (List α)
  | _, 0 => [[]]
  | items, n + 1 => (List.range items.length).flatMap fun i =>
      match items[i]? with
      | none => []
      | some a => (xcomb (items.take i ++ items.drop (i + 1)) n).map fun cc => a :: cc

/-- `xsubsets(items, n)`: make_ECF_rules.py:192-205. -/
def xsubsets : List α → ℕ → List (List α)
  | _, 0 => [[]]
  | items, n + 1 => (List.range items.length).flatMap fun i =>
      match items[i]? with
      | none => []
      | some a => (xsubsets (items.drop (i + 1)) n).map fun cc => a :: cc

/-- `xperm(items)`: make_ECF_rules.py:207-216. -/
def xperm (items : List α) : List (List α) := xcomb items items.length

end comb

section flip
variable {K : Type} [Field K] [LinearOrder K]

/-- One pass of the loop of `flip_signs` from `i = 0` to the next yield or to the end, with the list it leaves and whether it yields: make_ECF_rules.py:235-243. -/
def flipPass : List K → List K × Bool
  | [] => ([], false)
  | x :: r =>
    let x' := if x ≠ 0 then -x else x
    if x' < 0 then (x' :: r, true) else ((x' :: (flipPass r).1), (flipPass r).2)

/-- The passes that follow: the states yielded and the state the list is left in; `none` if `fuel` passes are not enough. -/
def flipLoop : ℕ → List K → Option (List (List K) × List K)
  | 0, _ => none
  | fuel + 1, s =>
    if (flipPass s).2 then (flipLoop fuel (flipPass s).1).map fun r => ((flipPass s).1 :: r.1, r.2) else some ([], (flipPass s).1)

/-- `flip_signs(seq)`: make_ECF_rules.py:218-243. -/
def flipSigns (fuel : ℕ) (seq : List K) : Option (List (List K) × List K) := (flipLoop fuel seq).map fun r => (seq :: r.1, r.2)

/-- `list(flip_signs(seq))`: every element is the one list that the generator changes, so in the end all show the state it is left in. -/
def flipSignsList (fuel : ℕ) (seq : List K) : Option (List (List K)) := (flipSigns fuel seq).map fun r => r.1.map fun _ => r.2

/-- The generators of a fully symmetric rule; any other text is passed over: make_ECF_rules.py:283-306. -/
inductive GenType | origin | corner | full | other

/-- The permutations not met before: make_ECF_rules.py:294-301. -/
def uniq : List (List K) → List (List K) → List (List K)
  | _, [] => []
  | seen, p :: ps => if p ∈ seen then uniq seen ps else p :: uniq (p :: seen) ps

/-- The points of one generator: make_ECF_rules.py:284-306; every point is copied when it is met (`array(coords)`). -/
def genPoints (fuel : ℕ) (type : GenType) (gen : List K) : Option (List (List K)) :=
  match type with
  | .origin => some [gen]
  | .corner => (flipSigns fuel gen).map (·.1)
  | .full => ((uniq [] (xperm gen)).mapM fun perm => (flipSigns fuel perm).map (·.1)).map List.flatten
  | .other => some []

/-- The points and weights collected from all generators: make_ECF_rules.py:280-308. -/
def collect (fuel : ℕ) (gens : List (GenType × List K × K)) : Option (List (List K × K)) :=
  (gens.mapM fun g => (genPoints fuel g.1 g.2.1).map fun ps => ps.map fun p => (p, g.2.2)).map List.flatten

/-- `_construct_fully_sym()`: make_ECF_rules.py:280-313. -/
def fullySym (fuel : ℕ) (gens : List (GenType × List K × K)) (npts : ℕ) : Option (Except Err (List (List K × K))) :=
  (collect fuel gens).map fun ps => if ps.length ≠ npts then .error .runtime else .ok ps

/-- `cubature(func)`: make_ECF_rules.py:341-345. -/
def cubature {P : Type} (rule : List (P × K)) (func : P → K) : K := rule.foldl (fun sum pw => sum + pw.2 * func pw.1) 0

end flip

open Real in
/-- The points of one row of a circularly symmetric rule: make_ECF_rules.py:321-334; `linspace(0, 2*pi, n+1)[:-1]` are the angles. -/
noncomputable def ring (n : ℕ) (r wt : ℝ) : Except Err (List ((ℝ × ℝ) × ℝ)) :=
  if n = 1 then if r ≠ 0 then .error .value else .ok [((0, 0), wt)]
  else .ok ((List.range n).map fun k : ℕ => ((r * cos ((k : ℝ) * (2 * π / n)), r * sin ((k : ℝ) * (2 * π / n))), wt))

/-- The rows one after the other. -/
noncomputable def rings : List (ℕ × ℝ × ℝ) → Except Err (List ((ℝ × ℝ) × ℝ))
  | [] => .ok []
  | (n, r, wt) :: spec =>
    match ring n r wt with
    | .error x => .error x
    | .ok ps => match rings spec with
      | .error x => .error x
      | .ok qs => .ok (ps ++ qs)

/-- `_construct_circ_sym()`: make_ECF_rules.py:315-339. -/
noncomputable def circSym (dimen : ℕ) (spec : List (ℕ × ℝ × ℝ)) (npts : ℕ) : Except Err (List ((ℝ × ℝ) × ℝ)) :=
  if dimen ≠ 2 then .error .value
  else
    match rings spec with
    | .error x => .error x
    | .ok ps => if ps.length ≠ npts then .error .runtime else .ok ps

end Verif.Integrate.RuleMaker
