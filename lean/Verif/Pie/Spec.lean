import Verif.Pie.Param
import Mathlib.Algebra.BigOperators.Group.List.Basic
import Mathlib.Data.List.Forall2

/-!
# PIE parameters: specification vocabulary

What a user of an inference can observe of a parameter, and the words used in the property statements.
-/

namespace Verif.Pie
variable {K : Type} [Field K] [LinearOrder K]

/-- `inf.i.status`, as the parameter itself reports it; a parameter without a handler is undefined. -/
def Inf.status (s : Inf K) (i : ℕ) : Status :=
  match s.h i with
  | none => .undef
  | some hd => hd.status

/-- The value stored for parameter `i`, if it has been given one. -/
def Inf.value (s : Inf K) (i : ℕ) : Option K := (s.h i).bind (·.value)

/-- The range `(lo, hi)` declared for parameter `i`. -/
def Inf.bounds (s : Inf K) (i : ℕ) : Option (K × K) := (s.h i).bind (·.bounds)

/-- How often parameter `i` occurs in the fixed, varying and stepping lists. -/
def Inf.occurrences (s : Inf K) (i : ℕ) : ℕ × ℕ × ℕ :=
  (s.fixed.count i, s.varying.count i, s.stepping.count i)

/-- Where a parameter of the given status belongs. -/
def Status.belongs : Status → ℕ × ℕ × ℕ
  | .undef => (0, 0, 0)
  | .fixed => (1, 0, 0)
  | .varying => (0, 1, 0)
  | .stepping => (0, 0, 1)

/-- The parameters an operation mentions by name (bulk operations on all declared parameters mention those). -/
def Op.names (c : Cfg K) : Op K → List ℕ
  | .get i | .assign i _ | .fix i _ | .setValue i _ | .range i _ _ | .linstep i _ _ _ | .logstep i _ _ _
  | .nextStepP i | .prevStepP i | .firstStepP i | .lastStepP i | .vary i _ _ _ | .unboundedSet i _ => [i]
  | .setParams _ | .getParams => c.params
  | .nextStep | .resetSteps | .setVarying _ | .scoreSet _ | .scoreSetUnbounded _ => []

/-- The operation redefines how parameter `i` is treated: it fixes, varies, or sets up stepping of `i`. -/
def Op.reconfigures (i : ℕ) : Op K → Prop
  | .assign j _ | .fix j _ | .linstep j _ _ _ | .logstep j _ _ _ | .vary j _ _ _ => j = i
  | _ => False

/-- `lo + k (hi - lo)/(n - 1)`: the `k`-th of `n` equally spaced points. -/
def linPoint (lo hi : K) (n k : ℤ) : K := lo + (k : K) * ((hi - lo) / ((n : K) - 1))

/-- The state is reachable by some history of user operations. -/
def Reachable (c : Cfg K) (s : Inf K) : Prop := ∃ ops, s = Inf.init.run c ops

/-- The stepping set-up of a parameter is the one a successful `linstep` with at least two steps, or a successful
`logstep` with at least one, leaves behind. -/
def Handler.proper (hd : Handler K) : Prop :=
  match hd.stype with
  | .lin => 2 ≤ hd.steps ∧ hd.delta = some ((hd.shi - hd.slo) / ((hd.steps : K) - 1))
  | .log => 1 ≤ hd.steps ∧ hd.slo ≠ 0 ∧ hd.shi ≠ 0 ∧ (2 ≤ hd.steps → hd.fac ^ (hd.steps - 1) = hd.shi / hd.slo)

/-- Every stepping parameter has a proper set-up. -/
def Inf.allProper (s : Inf K) : Prop := ∀ i ∈ s.stepping, ∀ hd, s.h i = some hd → hd.proper

/-- Every stepping parameter is at its first step, to be stepped forward. -/
def Inf.atStart (s : Inf K) : Prop :=
  ∀ i ∈ s.stepping, ∃ hd, s.h i = some hd ∧ hd.stepNum = 0 ∧ hd.value = some hd.slo ∧ s.info i = some .next

/-- The state after `r` calls of `Inference.next_step()`, exceptions caught. -/
def Inf.nexts (s : Inf K) (r : ℕ) : Inf K := (fun s => s.nextStep.1)^[r] s

/-- The number of grid points: the product of the entries of `step_shape()`. -/
def Inf.gridSize (s : Inf K) : ℕ := (s.stepShape.map Int.toNat).prod

/-- `t` is an index tuple of an array of shape `shape`. -/
def inGrid (t shape : List ℤ) : Prop := List.Forall₂ (fun p n => 0 ≤ p ∧ p < n) t shape

/-- The `k`-th value of parameter `i`'s stepping grid: equally spaced between its ends, or, for logarithmic steps, in
geometric progression with the ratio `fac` that takes the first end to the last in `steps - 1` factors (see
`Handler.proper`). -/
def Inf.gridPoint (s : Inf K) (i : ℕ) (k : ℤ) : K :=
  match s.h i with
  | none => 0
  | some hd =>
    match hd.stype with
    | .lin => linPoint hd.slo hd.shi hd.steps k
    | .log => hd.slo * hd.fac ^ k

/-- The parameter values belonging to a cell `t` of the grid: the stepping parameters at `t`'s grid values (the
`k`-th entry of `t` belongs to the `k`-th stepping parameter), all others as they are. -/
def Inf.atCell (c : Cfg K) (s : Inf K) (t : List ℤ) (j : ℕ) : K :=
  if j ∈ s.stepping then s.gridPoint j (t.getD (s.stepping.idxOf j) 0) else s.read c j

end Verif.Pie
