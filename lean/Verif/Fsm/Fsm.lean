import Verif.Common
import Mathlib.Logic.Function.Basic
import Mathlib.Data.List.Basic
import Mathlib.Data.Int.Notation

/-!
# Finite state machines and the calculator made of one: the model

Models sandbox/integrate/fsm.py and sandbox/integrate/fsm_sm.py.
-/

set_option linter.unusedSectionVars false

namespace Verif.Fsm

/-- What can be raised: `ExceptionFSM`, fsm.py:65-70, or a Python exception. -/
inductive Exc
  | fsm
  | py (e : Err)
  deriving DecidableEq

/-- The value of a transition: the action, or `None`, and the next state. -/
abbrev Target (Q A : Type) := Option A × Q

/-- The attributes of a machine, fsm.py:76-92.  Dictionaries are partial functions; `D` is the type of the attribute `something`. -/
structure Machine (S Q A D : Type) where
  specific : S × Q → Option (Target Q A)
  anyOf : Q → Option (Target Q A)
  default : Option (Target Q A)
  symbol : Option S
  initial : Q
  current : Q
  something : D

section
variable {S Q A D : Type} [DecidableEq S] [DecidableEq Q]

/-- `__init__`, fsm.py:76-92. -/
def Machine.new (initial : Q) (something : D) : Machine S Q A D :=
  { specific := fun _ => none, anyOf := fun _ => none, default := none, symbol := none, initial := initial, current := initial, something := something }

/-- `reset`, fsm.py:94-100. -/
def Machine.reset (m : Machine S Q A D) : Machine S Q A D :=
  { m with current := m.initial, symbol := none }

/-- `add_transition`, fsm.py:102-111. -/
def Machine.add (m : Machine S Q A D) (s : S) (q : Q) (a : Option A) (next : Q) : Machine S Q A D :=
  { m with specific := Function.update m.specific (s, q) (some (a, next)) }

/-- `add_transition_list`, fsm.py:113-120. -/
def Machine.addList (m : Machine S Q A D) : List S → Q → Option A → Q → Machine S Q A D
  | [], _, _, _ => m
  | s :: r, q, a, next => (m.add s q a next).addList r q a next

/-- `add_transition_any`, fsm.py:122-128. -/
def Machine.addAny (m : Machine S Q A D) (q : Q) (a : Option A) (next : Q) : Machine S Q A D :=
  { m with anyOf := Function.update m.anyOf q (some (a, next)) }

/-- `set_default_transition`, fsm.py:130-140. -/
def Machine.setDefault (m : Machine S Q A D) (a : Option A) (next : Q) : Machine S Q A D :=
  { m with default := some (a, next) }

/-- `get_transition`, fsm.py:142-166: the argument `state` is not used; `none` is `ExceptionFSM`. -/
def Machine.get (m : Machine S Q A D) (s : S) (_state : Q) : Option (Target Q A) :=
  match m.specific (s, m.current) with
  | some t => some t
  | none =>
    match m.anyOf m.current with
    | some t => some t
    | none => m.default

/-- `process`, fsm.py:168-182.  An action sees the symbol and changes `something`, and may raise; simplified: the code hands the whole machine to it. -/
def Machine.process (act : A → S → D → D × Option Err) (m : Machine S Q A D) (s : S) : Machine S Q A D × Option Exc :=
  let m := { m with symbol := some s }
  match m.get s m.current with
  | none => (m, some .fsm)
  | some (none, q) => ({ m with current := q }, none)
  | some (some a, q) =>
    match act a s m.something with
    | (d, none) => ({ m with something := d, current := q }, none)
    | (d, some e) => ({ m with something := d }, some (.py e))

/-- `process_list`, fsm.py:184-189. -/
def Machine.processList (act : A → S → D → D × Option Err) (m : Machine S Q A D) : List S → Machine S Q A D × Option Exc
  | [] => (m, none)
  | s :: r =>
    match m.process act s with
    | (m, none) => m.processList act r
    | (m, some e) => (m, some e)

/-- The calls a user makes. -/
inductive Op (S Q A : Type)
  | add (s : S) (q : Q) (a : Option A) (next : Q)
  | addList (l : List S) (q : Q) (a : Option A) (next : Q)
  | addAny (q : Q) (a : Option A) (next : Q)
  | setDefault (a : Option A) (next : Q)
  | reset
  | process (s : S)

/-- One call; what `process` raises is caught by the user. -/
def Machine.call (act : A → S → D → D × Option Err) (m : Machine S Q A D) : Op S Q A → Machine S Q A D
  | .add s q a n => m.add s q a n
  | .addList l q a n => m.addList l q a n
  | .addAny q a n => m.addAny q a n
  | .setDefault a n => m.setDefault a n
  | .reset => m.reset
  | .process s => (m.process act s).1

/-- A history of calls. -/
def Machine.calls (act : A → S → D → D × Option Err) (m : Machine S Q A D) (h : List (Op S Q A)) : Machine S Q A D :=
  h.foldl (fun m o => m.call act o) m

end

/-! ## The calculator -/

/-- What is on the stack: a number being read is a string. -/
inductive Val
  | str (s : List Char)
  | int (n : ℤ)
  deriving DecidableEq

/-- What is printed: a value, or the complaint and the symbol, fsm.py:230-234. -/
inductive Line
  | val (v : Val)
  | complaint (c : Char)
  deriving DecidableEq

/-- The stack, its top first, and the lines printed so far, the last one first. -/
abbrev Calc := List Val × List Line

/-- The actions of the example, fsm.py:210-234. -/
inductive Action
  | beginNumber
  | buildNumber
  | endNumber
  | operator
  | equal
  | error
  deriving DecidableEq

/-- `string.digits`. -/
def digits : List Char := ['0', '1', '2', '3', '4', '5', '6', '7', '8', '9']

/-- `string.whitespace`. -/
def whitespace : List Char := ['\t', '\n', '\x0b', '\x0c', '\r', ' ']

/-- `int(s)` for a string of digits; simplified: other strings with a value, which are never passed, have none. -/
def toInt (s : List Char) : Except Err ℤ :=
  if s ≠ [] ∧ ∀ c ∈ s, c ∈ digits then .ok (s.foldl (fun n c => 10 * n + (digits.idxOf c : ℤ)) 0) else .error .value

/-- A string times an integer. -/
def rep (s : List Char) (n : ℤ) : List Char := (List.replicate n.toNat s).flatten

/-- The operators of Python on numbers and strings, fsm.py:222-229; `none` if the symbol is none of them, when nothing is pushed. -/
def apply (c : Char) (al ar : Val) : Except Err (Option Val) :=
  if c = '+' then
    match al, ar with
    | .int a, .int b => .ok (some (.int (a + b)))
    | .str a, .str b => .ok (some (.str (a ++ b)))
    | _, _ => .error .type
  else if c = '-' then
    match al, ar with
    | .int a, .int b => .ok (some (.int (a - b)))
    | _, _ => .error .type
  else if c = '*' then
    match al, ar with
    | .int a, .int b => .ok (some (.int (a * b)))
    | .int a, .str b => .ok (some (.str (rep b a)))
    | .str a, .int b => .ok (some (.str (rep a b)))
    | _, _ => .error .type
  else if c = '/' then
    match al, ar with
    | .int a, .int b => if b = 0 then .error .zeroDiv else .ok (some (.int (a.fdiv b)))
    | _, _ => .error .type
  else .ok none

/-- What the actions do, fsm.py:210-234. -/
def act : Action → Char → Calc → Calc × Option Err
  | .beginNumber, c, (st, out) => ((.str [c] :: st, out), none)
  | .buildNumber, c, (st, out) =>
    match st with
    | [] => ((st, out), some .index)
    | .str s :: st => ((.str (s ++ [c]) :: st, out), none)
    | .int _ :: st => ((st, out), some .type)
  | .endNumber, _, (st, out) =>
    match st with
    | [] => ((st, out), some .index)
    | .str s :: st =>
      match toInt s with
      | .ok n => ((.int n :: st, out), none)
      | .error e => ((st, out), some e)
    | .int n :: st => ((.int n :: st, out), none)
  | .operator, c, (st, out) =>
    match st with
    | [] => ((st, out), some .index)
    | [_] => (([], out), some .index)
    | ar :: al :: st =>
      match apply c al ar with
      | .ok (some v) => ((v :: st, out), none)
      | .ok none => ((st, out), none)
      | .error e => ((st, out), some e)
  | .equal, _, (st, out) =>
    match st with
    | [] => ((st, out), some .index)
    | v :: st => ((st, .val v :: out), none)
  | .error, c, (st, out) => ((st, .complaint c :: out), none)

/-- The states of the example. -/
inductive CState
  | init
  | building
  deriving DecidableEq

/-- The machine of the example, fsm.py:242-249. -/
def calculator : Machine Char CState Action Calc :=
  let f : Machine Char CState Action Calc := Machine.new .init ([], [])
  let f := f.setDefault (some .error) .init
  let f := f.addAny .init none .init
  let f := f.add '=' .init (some .equal) .init
  let f := f.addList digits .init (some .beginNumber) .building
  let f := f.addList digits .building (some .buildNumber) .building
  let f := f.addList whitespace .building (some .endNumber) .init
  f.addList ['+', '-', '*', '/'] .init (some .operator) .init

/-- The loop of the example, fsm.py:258-259. -/
def calculate (inputs : List Char) : Machine Char CState Action Calc × Option Exc :=
  calculator.processList act inputs

/-! ## The other machine -/

/-- The attributes of the machine of fsm_sm.py:20-23, without the log; `log` are the calls of actions so far, the last one first. -/
structure Sm (S Q A : Type) where
  states : Option Q × Option S → Option (Option Q × A)
  state : Option Q
  log : List (A × Option Q × Option S)

section
variable {S Q A : Type} [DecidableEq S] [DecidableEq Q]

/-- `__init__`, fsm_sm.py:20-23. -/
def Sm.new : Sm S Q A := ⟨fun _ => none, none, []⟩

/-- `add`, fsm_sm.py:25-27. -/
def Sm.add (m : Sm S Q A) (q : Option Q) (i : Option S) (next : Option Q) (a : A) : Sm S Q A :=
  { m with states := Function.update m.states (q, i) (some (next, a)) }

/-- `execute`, fsm_sm.py:29-44: without a transition the local variables are not set, and `UnboundLocalError`, a `NameError`, is raised.  An action is given by whether it raises for a state and an input; no log file is set. -/
def Sm.execute (raises : A → Option Q → Option S → Option Err) (m : Sm S Q A) (i : Option S) : Res (Sm S Q A) :=
  let t := match m.states (m.state, i) with
    | some t => some t
    | none => m.states (m.state, none)
  match t with
  | none => raise .name m
  | some (next, a) =>
    let m := { m with log := (a, m.state, i) :: m.log }
    match raises a m.state i with
    | some e => raise e m
    | none => ok { m with state := next }

/-- `start`, fsm_sm.py:46-51. -/
def Sm.start (m : Sm S Q A) (q : Option Q) : Sm S Q A := { m with state := q }

end

end Verif.Fsm
