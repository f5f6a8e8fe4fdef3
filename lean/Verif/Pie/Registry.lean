import Verif.Pie.Param
import Mathlib.Analysis.SpecialFunctions.Log.Basic

/-!
# Parameters known by name

Models expt/pie/Parameters.py.  There is one object for each name (`allParams`), so an object is modelled by its name.  Values are real numbers; in Python 2 whole
numbers divide differently (`hi/lo` of line 102).  Dependents only listen: what they are told does not make them call back.
-/

noncomputable section

namespace Verif.Pie.Registry

open Real

/-- A `Parameter`: Parameters.py:28-40 and the attributes set by its methods.  The attributes of stepping are options because they may be missing; `stype`, `slo`, `shi`, `steps` are set together. -/
structure Prm where
  default : Option ℝ
  value : Option ℝ
  status : Status
  bounds : Option (ℝ × ℝ) := none
  delta : Option ℝ := none
  stepInfo : Option (StepType × ℝ × ℝ × ℕ) := none
  fac : Option ℝ := none
  stepNum : Option ℕ := none
  dependents : List ℕ := []

/-- What a dependent is told: `paramStatusChange(param, status)`. -/
structure Told where
  dependent : ℕ
  name : String
  status : Status
  deriving DecidableEq

/-- The dictionary `allParams`, and what was told to whom. -/
structure World where
  all : String → Option Prm := fun _ => none
  log : List Told := []

def World.set (w : World) (n : String) (p : Prm) : World := { w with all := Function.update w.all n (some p) }

/-- `setStatus`: Parameters.py:51-54. -/
def World.setStatus (w : World) (n : String) (p : Prm) (st : Status) : World :=
  let w := w.set n { p with status := st }
  { w with log := w.log ++ p.dependents.map fun d => ⟨d, n, st⟩ }

/-- `__new__` and `init` with a name and perhaps a default: Parameters.py:13-40.  A default that is zero is false, so that the status is `undef`. -/
def World.make (w : World) (n : String) (default : Option (Option ℝ)) : Res World :=
  match w.all n with
  | some _ => if default.isNone then ok w else raise .runtime w
  | none =>
    let d := default.getD none
    let st : Status := match d with
      | none => .undef
      | some x => if x = 0 then .undef else .fixed
    ok (w.set n { default := d, value := d, status := st })

/-- `set`: Parameters.py:66-74. -/
def World.assign (w : World) (n : String) (p : Prm) (v : ℝ) : Res World :=
  match p.bounds with
  | some (lo, hi) => if v ≥ lo ∧ v ≤ hi then ok (w.setStatus n { p with value := some v } .fixed) else raise .value w
  | none => ok (w.setStatus n { p with value := some v } .fixed)

/-- `setValue`: Parameters.py:56-59.  Line 59 uses a name `status` that is not defined. -/
def World.setValue (w : World) (n : String) (p : Prm) (v : ℝ) : Res World :=
  let w := w.set n { p with value := some v }
  if p.dependents = [] then ok w else raise .name w

/-- `linStep`: Parameters.py:82-91. -/
def World.linStep (w : World) (n : String) (p : Prm) (lo hi : ℝ) (k : ℕ) : Res World :=
  let w := w.setStatus n p .stepping
  let p := { p with status := .stepping, stepInfo := some (.lin, lo, hi, k) }
  if k = 1 then raise .zeroDiv (w.set n p)
  else ok (w.set n { p with delta := some ((hi - lo) / (k - 1)), stepNum := some 0, value := some lo })

/-- `logStep`: Parameters.py:93-104. -/
def World.logStep (w : World) (n : String) (p : Prm) (lo hi : ℝ) (k : ℕ) : Res World :=
  if lo * hi ≤ 0 then raise .value w
  else
    let w := w.setStatus n p .stepping
    let p := { p with status := .stepping, stepInfo := some (.log, lo, hi, k) }
    if k = 1 then raise .zeroDiv (w.set n p)
    else ok (w.set n { p with fac := some (Real.exp (Real.log (hi / lo) / (k - 1))), stepNum := some 0, value := some lo })

/-- `nextStep`: Parameters.py:106-121.  (Attributes that are missing are `AttributeError`s.) -/
def World.nextStep (w : World) (n : String) (p : Prm) : Res World :=
  if p.status ≠ .stepping then raise .runtime w
  else
    match p.stepNum, p.stepInfo with
    | some i, some (ty, _, hi, k) =>
      let p := { p with stepNum := some (i + 1) }
      if i + 1 ≥ k then raise .runtime (w.set n p)
      else if i + 1 = k - 1 then ok (w.set n { p with value := some hi })
      else
        match ty, p.value, p.delta, p.fac with
        | .lin, some v, some d, _ => ok (w.set n { p with value := some (v + d) })
        | .log, some v, _, some f => ok (w.set n { p with value := some (v * f) })
        | _, _, _, _ => raise .attribute (w.set n p)
    | _, _ => raise .attribute w

/-- `firstStep`: Parameters.py:123-127. -/
def World.firstStep (w : World) (n : String) (p : Prm) : Res World :=
  if p.status ≠ .stepping then raise .runtime w
  else
    match p.stepInfo with
    | some (_, lo, _, _) => ok (w.set n { p with stepNum := some 0, value := some lo })
    | none => raise .attribute w

/-- `vary`: Parameters.py:129-144.  The range, if one is given, is a pair. -/
def World.vary (w : World) (n : String) (p : Prm) (start delta : Option ℝ) (range : Option (ℝ × ℝ)) : Res World :=
  match start.or p.value with
  | none => raise .value w
  | some v =>
    let p := { p with value := some v }
    match delta.or p.delta with
    | none => raise .value (w.set n p)
    | some d =>
      let p := { p with delta := some d }
      match range, p.bounds with
      | none, none => raise .value (w.set n p)
      | none, some _ => ok (w.setStatus n p .varying)
      | some (a, b), _ => ok (w.setStatus n { p with bounds := some (min a b, max a b) } .varying)

/-- `unboundedSet`: Parameters.py:160-167. -/
def World.unboundedSet (w : World) (n : String) (p : Prm) (u : ℝ) : Res World :=
  if p.status ≠ .varying then raise .runtime w
  else
    match p.bounds with
    | none => raise .value w
    | some (lo, hi) => ok (w.set n { p with value := some ((lo + hi * Real.exp u) / (1 + Real.exp u)) })

/-- `value`: Parameters.py:61-64.  (`none` without an exception: `None` is returned.) -/
def World.value (w : World) (n : String) : Except Err (Option ℝ) :=
  match w.all n with
  | none => .error .name
  | some p => if p.status = .undef then .error .value else .ok p.value

/-- `check`: Parameters.py:146-150.  `self.value` is the method; a number cannot be subtracted from it (`TypeError`). -/
def World.check (w : World) (n : String) : Except Err Bool :=
  match w.all n with
  | none => .error .name
  | some p => if p.status ≠ .varying then .error .runtime else if p.bounds.isNone then .error .attribute else .error .type

/-- `unboundedValue`: Parameters.py:152-158, with the same mistake. -/
def World.unboundedValue (w : World) (n : String) : Except Err ℝ :=
  match w.all n with
  | none => .error .name
  | some p => if p.status ≠ .varying then .error .runtime else if p.bounds.isNone then .error .value else .error .type

/-- Calls that may change something.  Those on a name never made cannot be written. -/
inductive Op
  | make (n : String) (default : Option (Option ℝ))
  | addDependent (n : String) (d : ℕ)
  | delDependent (n : String) (d : ℕ)
  | setValue (n : String) (v : ℝ)
  | assign (n : String) (v : ℝ)
  | range (n : String) (a b : ℝ)
  | linStep (n : String) (lo hi : ℝ) (k : ℕ)
  | logStep (n : String) (lo hi : ℝ) (k : ℕ)
  | nextStep (n : String)
  | firstStep (n : String)
  | vary (n : String) (start delta : Option ℝ) (range : Option (ℝ × ℝ))
  | unboundedSet (n : String) (u : ℝ)

/-- The name a call is about. -/
def Op.name : Op → String
  | .make n _ | .addDependent n _ | .delDependent n _ | .setValue n _ | .assign n _ | .range n .. | .linStep n .. | .logStep n .. | .nextStep n | .firstStep n | .vary n .. | .unboundedSet n _ => n

/-- A method of an object that exists. -/
def World.on (w : World) (n : String) (f : Prm → Res World) : Res World :=
  match w.all n with
  | none => raise .name w
  | some p => f p

/-- One call: also Parameters.py:42-49, 76-80 (`addDependent`, `delDependent`, `range`). -/
def World.op (w : World) : Op → Res World
  | .make n d => w.make n d
  | .addDependent n d => w.on n fun p => if d ∈ p.dependents then ok w else ok (w.set n { p with dependents := p.dependents ++ [d] })
  | .delDependent n d => w.on n fun p => ok (w.set n { p with dependents := p.dependents.erase d })
  | .setValue n v => w.on n fun p => w.setValue n p v
  | .assign n v => w.on n fun p => w.assign n p v
  | .range n a b => w.on n fun p => ok (w.set n { p with bounds := some (min a b, max a b) })
  | .linStep n lo hi k => w.on n fun p => w.linStep n p lo hi k
  | .logStep n lo hi k => w.on n fun p => w.logStep n p lo hi k
  | .nextStep n => w.on n fun p => w.nextStep n p
  | .firstStep n => w.on n fun p => w.firstStep n p
  | .vary n s d r => w.on n fun p => w.vary n p s d r
  | .unboundedSet n u => w.on n fun p => w.unboundedSet n p u

/-- A history of calls, whether or not they raise exceptions. -/
def World.run (w : World) : List Op → World
  | [] => w
  | o :: os => World.run (w.op o).1 os

end Verif.Pie.Registry
