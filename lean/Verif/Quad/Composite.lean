import Verif.Quad.Ccf
import Mathlib.Analysis.SpecialFunctions.Pow.Real

/-!
# Quadrature rules, mapped rules and composite rules: the model

Models expt/integrate/composite.py.  Double precision numbers are real numbers, arrays are lists, and a callable integrand is a function of one real number that numpy applies to each entry.
-/

set_option linter.unusedSectionVars false

namespace Verif.Quad

open Real

noncomputable section

/-- What objects of class `Quad` hold, composite.py:15-58: `closed` is `type == 'closed'`, `npts` is the length of `nodes`. -/
structure Q where
  closed : Bool
  l : ℝ
  u : ℝ
  nodes : List ℝ
  wts : List ℝ

/-- `npts`, composite.py:56. -/
def Q.npts (q : Q) : ℕ := q.nodes.length

/-- Positional arguments for a rule: two of them, four of them, or another number. -/
inductive RuleArgs where
  | two (nodes wts : List ℝ)
  | four (l u : ℝ) (nodes wts : List ℝ)
  | other

/-- `Quad.__init__`, composite.py:20-58.  The first entry of an empty array raises `IndexError` (43, 50). -/
def Q.make : RuleArgs → Except Err Q
  | .two nodes wts =>
    match nodes.head?, nodes.getLast? with
    | some l, some u => if wts.length ≠ nodes.length then .error .value else .ok ⟨true, l, u, nodes, wts⟩
    | _, _ => .error .index
  | .four l u nodes wts =>
    match nodes.head?, nodes.getLast? with
    | some a, some b =>
      if wts.length ≠ nodes.length then .error .value
      else .ok ⟨(open Classical in decide (l = a ∧ u = b)), l, u, nodes, wts⟩
    | _, _ => .error .index
  | .other => .error .value

/-- `Quad.quad`, composite.py:60-74, and the same text at 148-162 and 226-240. -/
def Q.quad (q : Q) (f : Arg) : Except Err ℝ :=
  match f with
  | .fn f => sumProd q.wts (q.nodes.map f)
  | .vals v => if v.length = q.npts then sumProd q.wts v else .error .value

/-! ## Mapped rules -/

/-- Why there is no mapped rule: an exception, or a number that is not finite (a division by zero or a logarithm of something not positive; with Python floats instead of numpy's the former raises). -/
inductive Fail where
  | exc (e : Err)
  | nan
deriving DecidableEq

open Classical in
/-- `PLMapQuad.__init__`, composite.py:82-146. -/
def plMake (indx : ℝ) (a : RuleArgs) : Except Fail Q :=
  match Q.make a with
  | .error e => .error (.exc e)
  | .ok q =>
    let delta := q.u - q.l
    if q.l ≤ 0 ∨ q.u ≤ 0 ∨ delta = 0 then .error .nan
    else if |indx - 1| < 0.2 then
      let yu := log (q.u / q.l)
      let scale := yu / delta
      let y := q.nodes.map fun x => (x - q.l) * scale
      let yw := q.wts.map fun w => w * scale
      let nodes := y.map fun y => q.l * exp y
      .ok { q with nodes := nodes, wts := List.zipWith (· * ·) yw nodes }
    else
      let i1 := 1 - indx
      let lpow := q.l ^ i1
      let yu := lpow * ((q.u / q.l) ^ i1 - 1) / i1
      let scale := yu / delta
      let y := q.nodes.map fun x => (x - q.l) * scale
      let yw := q.wts.map fun w => w * scale
      if ∃ t ∈ y, 1 + i1 * t / lpow ≤ 0 then .error .nan
      else
        let logn := y.map fun t => log q.l + log (1 + i1 * t / lpow) / (1 - indx)
        .ok { q with nodes := logn.map exp, wts := List.zipWith (· * ·) yw (logn.map fun t => exp (indx * t)) }

open Classical in
/-- `ExpMapQuad.__init__`, composite.py:170-224. -/
def expMake (alpha : ℝ) (a : RuleArgs) : Except Fail Q :=
  match Q.make a with
  | .error e => .error (.exc e)
  | .ok q =>
    let delta := q.u - q.l
    if alpha = 0 ∨ delta = 0 then .error .nan
    else
      let yl := exp (alpha * q.l) / alpha
      let yu := exp (alpha * q.u) / alpha
      let scale := (yu - yl) / delta
      let y := q.nodes.map fun x => if |yl| < |yu| then yl + (x - q.l) * scale else yu - (q.u - x) * scale
      let yw := q.wts.map fun w => w * scale
      if ∃ t ∈ y, alpha * t ≤ 0 then .error .nan
      else .ok { q with nodes := y.map fun t => log (alpha * t) / alpha, wts := List.zipWith (fun w t => w / t / alpha) yw y }

/-! ## Composite rules -/

/-- An argument of `CompositeQuad`: an object with the attributes of a rule (248-263), or a tuple of arguments for `Quad`. -/
inductive Piece where
  | obj (q : Q)
  | tup (a : RuleArgs)

/-- `ClenshawCurtis` and `Fejer1` objects as composite.py:253-261 sees them.  Their `quad` does with an array of `npts` values what `Quad.quad` does. -/
def Rule.asQ (r : Rule) : Q := ⟨true, r.l, r.u, r.nodes, r.wts⟩

/-- `CompositeQuad` objects, composite.py:265-316.  `rules` are the present contents of the rule objects, which the caller may still hold. -/
structure Comp where
  rules : List Q
  starts : List ℕ
  npts : ℕ
  nodes : List ℝ
  factor : Option (ℝ → ℝ)

open Classical in
/-- The first loop of `__init__`, composite.py:284-298: the rules are contiguous is checked for objects only. -/
def collect : Option Q → List Piece → Except Err (List Q)
  | _, [] => .ok []
  | last, .obj q :: r =>
    if (match last with | some p => decide (p.u ≠ q.l) | none => false) = true then .error .value
    else match collect (some q) r with
      | .ok l => .ok (q :: l)
      | .error e => .error e
  | _, .tup a :: r =>
    match Q.make a with
    | .error e => .error e
    | .ok q =>
      match collect (some q) r with
      | .ok l => .ok (q :: l)
      | .error e => .error e

open Classical in
/-- The second loop, composite.py:304-313: what is added to the nodes, and the starts, after `prev`, when there are `n` nodes; and the number of nodes in the end. -/
def distinct : Q → ℕ → List Q → List ℝ × List ℕ × ℕ
  | _, n, [] => ([], [], n)
  | prev, n, q :: r =>
    if prev.nodes.getLast? ≠ q.nodes.head? then
      let d := distinct q (n + q.npts) r
      (q.nodes ++ d.1, n :: d.2.1, d.2.2)
    else
      let d := distinct q (n + (q.npts - 1)) r
      (q.nodes.tail ++ d.1, (n - 1) :: d.2.1, d.2.2)

/-- `CompositeQuad.__init__`, composite.py:265-316.  Without arguments the first of the rules (300) raises `IndexError`; rules have nodes, or their constructor would have raised. -/
def Comp.make (ps : List Piece) : Except Err Comp :=
  match collect none ps with
  | .error e => .error e
  | .ok [] => .error .index
  | .ok (q :: r) =>
    let d := distinct q q.npts r
    .ok ⟨q :: r, 0 :: d.2.1, d.2.2, q.nodes ++ d.1, none⟩

/-- `set_factor`, composite.py:318-332, with a plain function.  (Its values, `factors`, are not used by `quad`.) -/
def Comp.setFactor (c : Comp) (g : ℝ → ℝ) : Comp := { c with factor := some g }

/-- `reset_factor`, composite.py:334-339, whose argument is not used. -/
def Comp.resetFactor (c : Comp) (_ : ℝ → ℝ) : Comp := { c with factor := none }

/-- The owner of the `i`-th rule object changes it. -/
def Comp.alter (c : Comp) (i : ℕ) (q : Q) : Comp := { c with rules := c.rules.set i q }

/-- The loop of `quad`, composite.py:351-354. -/
def addUp (iv : List ℝ) : List (Q × ℕ) → ℝ → Except Err ℝ
  | [], acc => .ok acc
  | (q, s) :: r, acc =>
    match q.quad (.vals ((iv.drop s).take q.npts)) with
    | .ok x => addUp iv r (acc + x)
    | .error e => .error e

/-- `CompositeQuad.quad`, composite.py:341-354.  The product of a function and an array (348) raises `TypeError`. -/
def Comp.quad (c : Comp) (f : ℝ → ℝ) : Except Err ℝ :=
  match c.factor with
  | some _ => .error .type
  | none => addUp (c.nodes.map f) (List.zip c.rules c.starts) 0

end

end Verif.Quad
