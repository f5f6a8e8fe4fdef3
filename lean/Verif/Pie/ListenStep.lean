import Verif.Pie.Listen

/-!
# Listeners of parameters that step: the model

Adds to Verif/Pie/Listen.lean what the inference does when it is told that a parameter begins or ceases to step: it resets all stepping parameters, which
broadcasts new values while the broadcast of the status is under way.  Here no listener raises an exception and no value is refused; the other lists of the
inference, its directions of stepping and the ranges of parameters do not matter and are left out.
-/

namespace Verif.Pie.Listen

/-- The handler of a parameter: status, value, the lowest value it steps to, and its listeners: param.py:144-155, realparam.py:120-141. -/
structure SH (K : Type) where
  status : Status := .undef
  value : Option K := none
  slo : Option K := none
  listeners : List L := [.owner]

/-- Parameters, the list of stepping ones (inference_base.py:124-132), and what was told to whom. -/
structure SS (K : Type) where
  h : ℕ → Option (SH K) := fun _ => none
  stepping : List ℕ := []
  log : List (L × Ev) := []

variable {K : Type}

def SS.setH (s : SS K) (i : ℕ) (hd : SH K) : SS K := { s with h := Function.update s.h i (some hd) }

/-- `_set_value`: param.py:195-204. -/
def SS.putValue (s : SS K) (i : ℕ) (hd : SH K) (v : Option K) : SS K :=
  let s := s.setH i { hd with value := v }
  { s with log := s.log ++ hd.listeners.map fun l => (l, .value i) }

/-- `reset_steps`: inference_base.py:244-251, with `first_step`: realparam.py:210-215.  (That every parameter in the list steps, so that nothing is raised, is C01.) -/
def SS.resetSteps (s : SS K) : List ℕ → SS K
  | [] => s
  | j :: js =>
    match s.h j with
    | none => s.resetSteps js
    | some hd => (s.putValue j hd hd.slo).resetSteps js

/-- What the inference does when told of a status: inference_base.py:188-229, of which only what concerns stepping. -/
def SS.ownerStatus (s : SS K) (i : ℕ) (old new : Status) : SS K :=
  if old = new then if new = .stepping then s.resetSteps s.stepping else s
  else if new = .stepping then
    let s := { s with stepping := s.stepping ++ [i] }
    s.resetSteps s.stepping
  else if old = .stepping then
    let s := { s with stepping := s.stepping.erase i }
    s.resetSteps s.stepping
  else s

/-- The loop of `_set_status`: param.py:187-188. -/
def SS.tellStatus (i : ℕ) (old new : Status) : List L → SS K → SS K
  | [], s => s
  | l :: ls, s =>
    let s := { s with log := s.log ++ [(l, .status i old new)] }
    match l with
    | .owner => SS.tellStatus i old new ls (s.ownerStatus i old new)
    | .other _ => SS.tellStatus i old new ls s

/-- `_set_status`: param.py:180-188. -/
def SS.setStatus (s : SS K) (i : ℕ) (hd : SH K) (st : Status) : SS K :=
  (s.setH i { hd with status := st }).tellStatus i hd.status st hd.listeners

/-- The calls.  `value` is any accepted change of a value (`set_value`, `next_step`, `prev_step`, …); `fix`, `vary` and `linstep` are realparam.py:88-107, 229-246 and 120-141. -/
inductive SOp (K : Type)
  | value (i : ℕ) (v : K)
  | fix (i : ℕ) (v : K)
  | vary (i : ℕ)
  | linstep (i : ℕ) (lo : K)
  | addListener (i : ℕ) (n : ℕ)

/-- A change of value and then of status: `fix` (realparam.py:94-96, 104-105) and `linstep` (realparam.py:129-141). -/
def SS.both (s : SS K) (i : ℕ) (hd : SH K) (v : K) (st : Status) : SS K :=
  (s.putValue i hd (some v)).setStatus i { hd with value := some v } st

/-- One call on a parameter that exists. -/
def SS.op (s : SS K) : SOp K → SS K
  | .value i v => match s.h i with | none => s | some hd => s.putValue i hd (some v)
  | .fix i v => match s.h i with | none => (s.both i {} v .fixed) | some hd => s.both i hd v .fixed
  | .vary i => match s.h i with | none => s | some hd => s.setStatus i hd .varying
  | .linstep i lo => match s.h i with | none => s | some hd => s.both i { hd with slo := some lo } lo .stepping
  | .addListener i n => match s.h i with
    | none => s
    | some hd => if .other n ∈ hd.listeners then s else s.setH i { hd with listeners := hd.listeners ++ [.other n] }

/-- A history of calls. -/
def SS.run (s : SS K) : List (SOp K) → SS K
  | [] => s
  | o :: os => (s.op o).run os

end Verif.Pie.Listen
