import Mathlib.Data.Rat.Defs
import Verif.Common

/-!
# Predictors with parameters of their own: the model

Models the handler of expt/pie/predictorParams.py:49-105, which keeps copies of the values of the parameters that a predictor was given and renews them when told of a change.  Parameters are numbered;
a change of a value is any accepted one (param.py:195-204).  The first listener of every parameter is the object that owns it, whose reaction may be an exception; the handler comes after it.
All parameters have been read before (so that they have values).
-/

namespace Verif.Pie.PredCopy

/-- What a name in the dictionary of the predictor refers to. -/
inductive Entry (K : Type)
  | param (i : ℕ)
  | plain (v : K)

/-- The values of the owner's parameters, the predictor's dictionary (names are distinct), and the handler's own dictionary. -/
structure St (K : Type) where
  vals : ℕ → K
  dict : List (String × Entry K)
  copies : String → Option K := fun _ => none

variable {K : Type}

/-- The loop of `_on_param_value_change`: predictorParams.py:95-100; also the copies made at first: predictorParams.py:77-82. -/
def renew (vals : ℕ → K) : List (String × Entry K) → (String → Option K) → (String → Option K)
  | [], c => c
  | (_, .plain _) :: es, c => renew vals es c
  | (k, .param i) :: es, c => renew vals es (Function.update c k (some (vals i)))

/-- `__init__` with `_set_predictor_params`: predictorParams.py:51-83. -/
def St.create (vals : ℕ → K) (dict : List (String × Entry K)) : St K := { vals, dict, copies := renew vals dict fun _ => none }

/-- Does the handler listen to parameter `i`?  predictorParams.py:81. -/
def St.listens (s : St K) (i : ℕ) : Bool := s.dict.any fun e => match e.2 with | .param j => j == i | .plain _ => false

/-- `_set_value`: param.py:195-204: the value is stored, the owner is told (`hook`, the exception it raises), then the handler. -/
def St.change (hook : ℕ → (ℕ → K) → Option Err) (s : St K) (i : ℕ) (v : K) : Res (St K) :=
  let s := { s with vals := Function.update s.vals i v }
  match hook i s.vals with
  | some e => raise e s
  | none => if s.listens i then ok { s with copies := renew s.vals s.dict s.copies } else ok s

/-- A history of changes, whether or not they raise exceptions. -/
def St.run (hook : ℕ → (ℕ → K) → Option Err) (s : St K) : List (ℕ × K) → St K
  | [] => s
  | (i, v) :: os => St.run hook (s.change hook i v).1 os

/-- Reading an attribute of the handler: its own dictionary, then `__getattr__`: predictorParams.py:102-105.  (The other attributes of the handler, `pinst`, `owner`, …, are left out.)  `isParam`: the value is the `Param` itself. -/
def St.get (s : St K) (name : String) : Except Err (Entry K) :=
  match s.copies name with
  | some v => .ok (.plain v)
  | none =>
    match s.dict.lookup name with
    | some e => .ok e
    | none => .error .key

end Verif.Pie.PredCopy
