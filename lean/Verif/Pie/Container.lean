import Verif.Common
import Mathlib.Logic.Function.Basic

/-!
# The snapshot container `ParamValues` as a Python object: the model

Models package/inference/pie/containers.py:5-37.  The container keeps its list `names`, its dictionary `docs` and the values in one and the same instance dictionary, and its method `store` is found through that dictionary as well.  Names that Python itself treats specially (such as `__class__`) are not modelled.
-/

namespace Verif.Pie.Container

variable {K : Type}

/-- An attribute that is either the container's own object or a parameter's value that was put in its place. -/
inductive Slot (K A : Type)
  | own (a : A)
  | number (v : K)

/-- A `ParamValues` instance: containers.py:18-20.  `store` is `some v` if an instance attribute `store` hides the method. -/
structure Cont (K : Type) where
  names : Slot K (List String) := .own []
  docs : Slot K (List (String × String)) := .own []
  store : Option K := none
  attrs : String → Option K := fun _ => none

/-- What is stored: a name, the parameter's `doc` and its value (`param.copy_value()`, a float). -/
structure Entry (K : Type) where
  name : String
  doc : String
  value : K

/-- `setattr(self, name, value)`: containers.py:27. -/
def Cont.setattr (c : Cont K) (name : String) (v : K) : Cont K :=
  if name = "names" then { c with names := .number v }
  else if name = "docs" then { c with docs := .number v }
  else if name = "store" then { c with store := some v }
  else { c with attrs := Function.update c.attrs name (some v) }

/-- `pv.store(name, param)`: containers.py:22-27.  A float in place of the method cannot be called, one in place of the list has no `in`, and one in place of the dictionary does not support item assignment; all three are `TypeError`.  The name is appended before the last of these. -/
def Cont.put (c : Cont K) (e : Entry K) : Res (Cont K) :=
  match c.store with
  | some _ => raise .type c
  | none =>
    match c.names with
    | .number _ => raise .type c
    | .own l =>
      if e.name ∈ l then raise .param c
      else
        let c := { c with names := .own (l ++ [e.name]) }
        match c.docs with
        | .number _ => raise .type c
        | .own d => ok (({ c with docs := .own (d ++ [(e.name, e.doc)]) } : Cont K).setattr e.name e.value)

/-- A history of calls of `store`, whose exceptions the caller catches. -/
def Cont.run (c : Cont K) : List (Entry K) → Cont K
  | [] => c
  | e :: l => (c.put e).1.run l

/-- Reading the attribute `name` as a number: `pv.name`, as in `set_params`, inference_base.py:342-345.  `none`: no such attribute, or it is one of the container's own objects. -/
def Cont.get (c : Cont K) (name : String) : Option K :=
  if name = "names" then match c.names with
    | .number v => some v
    | .own _ => none
  else if name = "docs" then match c.docs with
    | .number v => some v
    | .own _ => none
  else if name = "store" then c.store
  else c.attrs name

/-- `str(getattr(self, name))`, with `str` for a float and `strObj` for an object of the container's own. -/
def Cont.getText (str : K → String) (strObj : String → String) (c : Cont K) (name : String) : Option String :=
  match c.get name with
  | some v => some (str v)
  | none => if name = "names" ∨ name = "docs" ∨ name = "store" then some (strObj name) else none

/-- The loop of `__str__`: containers.py:31-36. -/
def Cont.textLoop (str : K → String) (strObj : String → String) (c : Cont K) : List String → String → Except Err String
  | [], s => .ok s
  | n :: ns, s =>
    match c.getText str strObj n with
    | none => .error .attribute
    | some t =>
      let s := s ++ (n ++ " = " ++ t)
      match c.docs with
      | .number _ => .error .type
      | .own d =>
        match d.lookup n with
        | none => .error .key
        | some doc =>
          let s := if doc = "" then s else s ++ (" (" ++ doc ++ ")")
          c.textLoop str strObj ns (s ++ "\n")

/-- `str(pv)`: containers.py:29-37. -/
def Cont.text (str : K → String) (strObj : String → String) (c : Cont K) : Except Err String :=
  match c.names with
  | .number _ => .error .type
  | .own l => c.textLoop str strObj l ""

/-! ### Specification -/

/-- The entries of a history whose name has not come before. -/
def firsts : List String → List (Entry K) → List (Entry K)
  | _, [] => []
  | seen, e :: l => if e.name ∈ seen then firsts seen l else e :: firsts (e.name :: seen) l

/-- The line for an entry. -/
def line (str : K → String) (e : Entry K) : String :=
  e.name ++ " = " ++ str e.value ++ (if e.doc = "" then "" else " (" ++ e.doc ++ ")") ++ "\n"

/-- The names that mean something to the container itself. -/
def reserved (n : String) : Prop := n = "names" ∨ n = "docs" ∨ n = "store"

end Verif.Pie.Container
