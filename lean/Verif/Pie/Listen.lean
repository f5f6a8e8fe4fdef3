import Mathlib.Algebra.Order.Field.Basic
import Verif.Pie.Param

/-!
# Listeners of parameters: the model

Models the broadcasts of package/inference/pie/param.py (`add_listener`, `del_listener`, `_set_status`, `_set_value`) together with the calls of realparam.py that cause them, for listeners that may
raise exceptions.  The first listener of a parameter is the inference that owns it; its reaction to a new value is the user's `on_param_change` (signalmodel.py:49-70, 79-85), which may check the values of all parameters;
its reaction to a new status (the lists of inference_base.py:188-232) is modelled in Verif/Pie/Param.lean and raises nothing (C01).  Stepping, which makes the owner set further values while it is
told of a status, is left out here, as is anything a listener does besides raising an exception.
-/

namespace Verif.Pie.Listen

/-- A listener: the owner of the parameter or another object. -/
inductive L
  | owner
  | other (n : ℕ)
  deriving DecidableEq, Repr

/-- What a listener is told: `_on_param_value_change(param)`, `_on_param_status_change(param, old, new)`. -/
inductive Ev
  | value (i : ℕ)
  | status (i : ℕ) (old new : Status)
  deriving DecidableEq, Repr

/-- How the listeners react: the exception raised, if any, given the values of all parameters at that time.  `hook` is the user's `on_param_change`. -/
structure Beh (K : Type) where
  hook : ℕ → (ℕ → Option K) → Option Err
  other : ℕ → Ev → (ℕ → Option K) → Option Err

/-- The handler of a parameter: realparam.py:65-68 and param.py:144-155. -/
structure PS (K : Type) where
  status : Status := .undef
  value : Option K := none
  bounds : Option (K × K) := none
  delta : Option K := none
  listeners : List L := [.owner]

/-- The inference's parameters, and what was told to whom, in order of time. -/
structure St (K : Type) where
  h : ℕ → Option (PS K) := fun _ => none
  log : List (L × Ev) := []

variable {K : Type} [Field K] [LinearOrder K]

def St.setH (s : St K) (i : ℕ) (hd : PS K) : St K := { s with h := Function.update s.h i (some hd) }

/-- The values of all parameters, as a listener sees them. -/
def St.view (s : St K) : ℕ → Option K := fun i => (s.h i).bind (·.value)

/-- The reaction of one listener. -/
def Beh.react (b : Beh K) (l : L) (e : Ev) (v : ℕ → Option K) : Option Err :=
  match l, e with
  | .owner, .value i => b.hook i v
  | .owner, .status .. => none
  | .other n, e => b.other n e v

/-- `for listener in self.listeners: …`: param.py:187-188 and 203-204. -/
def St.tell (b : Beh K) (e : Ev) : List L → St K → Res (St K)
  | [], s => ok s
  | l :: ls, s =>
    let s := { s with log := s.log ++ [(l, e)] }
    match b.react l e s.view with
    | some x => raise x s
    | none => St.tell b e ls s

/-- `_set_value`: param.py:195-204. -/
def St.putValue (b : Beh K) (s : St K) (i : ℕ) (hd : PS K) (v : K) : Res (St K) :=
  (s.setH i { hd with value := some v }).tell b (.value i) hd.listeners

/-- `_set_status`: param.py:180-188. -/
def St.setStatus (b : Beh K) (s : St K) (i : ℕ) (hd : PS K) (st : Status) : Res (St K) :=
  (s.setH i { hd with status := st }).tell b (.status i hd.status st) hd.listeners

/-- `fix`: realparam.py:88-107. -/
def St.fixH (b : Beh K) (s : St K) (i : ℕ) (hd : PS K) (v : Option K) : Res (St K) :=
  match v with
  | none => if hd.status = .undef then raise .param s else s.setStatus b i hd .fixed
  | some v =>
    match hd.bounds with
    | some (lo, hi) =>
      if v ≥ lo ∧ v ≤ hi then (s.putValue b i hd v).andThen fun s => s.setStatus b i { hd with value := some v } .fixed
      else raise .paramRange s
    | none => (s.putValue b i hd v).andThen fun s => s.setStatus b i { hd with value := some v } .fixed

/-- `Param.__get__`: param.py:93-109. -/
def St.access (b : Beh K) (default : ℕ → K) (s : St K) (i : ℕ) : Res (St K) :=
  match (s.h i).bind (·.value) with
  | some _ => ok s
  | none => (s.setH i {}).fixH b i {} (some (default i))

/-- `Param.__set__`: param.py:111-118. -/
def St.assign (b : Beh K) (s : St K) (i : ℕ) (v : K) : Res (St K) :=
  match s.h i with
  | some hd => s.fixH b i hd (some v)
  | none => (s.setH i {}).fixH b i {} (some v)

/-- `set_value`: realparam.py:70-81. -/
def St.setValueH (b : Beh K) (s : St K) (i : ℕ) (hd : PS K) (v : K) : Res (St K) :=
  if hd.status ≠ .varying then raise .param s
  else
    match hd.bounds with
    | some (lo, hi) => if v ≥ lo ∧ v ≤ hi then s.putValue b i hd v else raise .paramRange s
    | none => s.putValue b i hd v

/-- The range given to `vary`, if any: realparam.py:230-234. -/
def PS.withRange (hd : PS K) : Option (K × K) → PS K
  | none => hd
  | some (x, y) => { hd with bounds := some (min x y, max x y) }

/-- `vary`: realparam.py:229-246. -/
def St.varyH (b : Beh K) (s : St K) (i : ℕ) (hd : PS K) (start delta : Option K) (range : Option (K × K)) : Res (St K) :=
  if range.isNone && hd.bounds.isNone then raise .value s
  else
    let hd := hd.withRange range
    match delta.or hd.delta with
    | none => raise .value (s.setH i hd)
    | some d =>
      let hd := { hd with delta := some d }
      (s.setStatus b i hd .varying).andThen fun s =>
        match start with
        | some v => s.setValueH b i { hd with status := .varying } v
        | none => if hd.value.isNone then raise .attribute s else ok s

/-- `add_listener`: param.py:161-163. -/
def PS.addListener (hd : PS K) (l : L) : PS K := if l ∈ hd.listeners then hd else { hd with listeners := hd.listeners ++ [l] }

/-- A call: an assignment or a method of the parameter's value. -/
inductive Op (K : Type)
  | read (i : ℕ)
  | assign (i : ℕ) (v : K)
  | fix (i : ℕ) (v : Option K)
  | setValue (i : ℕ) (v : K)
  | vary (i : ℕ) (start delta : Option K) (range : Option (K × K))
  | range (i : ℕ) (a c : K)
  | addListener (i : ℕ) (n : ℕ)
  | delListener (i : ℕ) (n : ℕ)

/-- A method of the value: the value is read first (realparam.py:48-51). -/
def St.onH (b : Beh K) (default : ℕ → K) (s : St K) (i : ℕ) (f : St K → PS K → Res (St K)) : Res (St K) :=
  (s.access b default i).andThen fun s =>
    match s.h i with
    | none => raise .attribute s
    | some hd => f s hd

/-- One call.  `del_listener` refers to an attribute `listener` that no handler has: param.py:165-169; only ValueError is caught. -/
def St.op (b : Beh K) (default : ℕ → K) (s : St K) : Op K → Res (St K)
  | .read i => s.access b default i
  | .assign i v => s.assign b i v
  | .fix i v => s.onH b default i fun s hd => s.fixH b i hd v
  | .setValue i v => s.onH b default i fun s hd => s.setValueH b i hd v
  | .vary i start delta range => s.onH b default i fun s hd => s.varyH b i hd start delta range
  | .range i a c => s.onH b default i fun s hd => ok (s.setH i { hd with bounds := some (min a c, max a c) })
  | .addListener i n => s.onH b default i fun s hd => ok (s.setH i (hd.addListener (.other n)))
  | .delListener i _ => s.onH b default i fun s _ => raise .attribute s

/-- A history of calls, whether or not they raise exceptions. -/
def St.run (b : Beh K) (default : ℕ → K) (s : St K) : List (Op K) → St K
  | [] => s
  | o :: os => St.run b default (s.op b default o).1 os

end Verif.Pie.Listen
