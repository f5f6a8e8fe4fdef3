import Verif.Common
import Mathlib.Data.Nat.Notation

/-!
# Names of parameters and predictors: the model

Models the gathering of names in package/inference/pie/inference_base.py (`Inference.__init__` 94-116, `_get_signal_names`
118-143, `_get_pred_names` 145-178) and the recording of names when classes are defined: autoname.py 35-41, param.py
`_report_name` 76-91, predictor.py `_report_name` 57-65. Strings are lists of characters.
-/

namespace Verif.Pie

/-- Names and source lines. -/
abbrev Str := List Char

/-- `str.strip()`. -/
def strip (l : Str) : Str := ((l.dropWhile Char.isWhitespace).reverse.dropWhile Char.isWhitespace).reverse

/-- `line.startswith(p + ' =') or line.startswith(p + '=')`, inference_base.py:131, 159 and 169. -/
def starts (line p : Str) : Bool := (p ++ [' ', '=']).isPrefixOf line || (p ++ ['=']).isPrefixOf line

/-- The loop `for p in names: if ...: out.append(p); names.remove(p)`, inference_base.py:129-133, 158-161, 168-171. The
list is changed while it is iterated over: Python's iterator keeps the index `i`, so that the element following a removed
one is skipped. -/
def scanLine (line : Str) (names : List Str) (i : ℕ) (out : List Str) : List Str × List Str :=
  if h : i < names.length then
    if starts line names[i] then scanLine line (names.erase names[i]) (i + 1) (out ++ [names[i]])
    else scanLine line names (i + 1) out
  else (names, out)
termination_by names.length - i
decreasing_by
  · have := List.length_erase_le (a := names[i]) (l := names); omega
  · omega

/-- The loop over the source lines. Returns what is left of the names, and the ordered names. -/
def scan : List Str → List Str → List Str → List Str × List Str
  | [], names, out => (names, out)
  | line :: lines, names, out =>
    let r := scanLine (strip line) names 0 out
    scan lines r.1 r.2

/-- A mixin class as `Inference.__init__` sees it: `param_names` and `predictor_names` if it has such attributes, and the
source lines if `inspect` finds them (`none`: `IOError` or `TypeError`). -/
structure Mixin where
  params : Option (List Str)
  preds : Option (List Str)
  source : Option (List Str)

/-- `_get_signal_names`, inference_base.py:118-143. The flag says that the result is the class's own list object. -/
def getSignalNames (c : Mixin) (names : List Str) : Except Err (List Str × Bool) :=
  match c.source with
  | some src =>
    match scan src names [] with
    | ([], out) => .ok (out, false)
    | _ => .error .inference
  | none =>
    match c.params with
    | some l => .ok (l, true)
    | none => .error .attribute

/-- The fallback of `_get_pred_names`, inference_base.py:174-181, with `oparams` as found so far. -/
def predFallback (c : Mixin) (oparams : List Str) : Except Err (List Str × List Str) :=
  match c.params, c.preds with
  | some l, some p => .ok (oparams ++ l, p)
  | _, _ => .error .attribute

/-- `_get_pred_names`, inference_base.py:145-182. -/
def getPredNames (c : Mixin) (names : List Str) : Except Err (List Str × List Str) :=
  match c.source with
  | none => predFallback c []
  | some src =>
    let r := if names = [] then ([], []) else scan src names []
    if r.1 ≠ [] then predFallback c r.2
    else
      match c.preds with
      | none => predFallback c r.2
      | some preds =>
        match scan src preds [] with
        | ([], opreds) => .ok (r.2, opreds)
        | _ => predFallback c r.2

/-- The part of `Inference.__init__` that gathers names, inference_base.py:94-116, for an inference class with signal
model `sig` and predictor set `pred` (`none`: no such base class). Returns the signal class's own parameter list afterwards,
and the inference's `params` and `predictors`. -/
def initNames (sig pred : Option Mixin) : Option (List Str) × Except Err (List Str × List Str) :=
  let own := sig.bind (·.params)
  -- lines 102-106, with the bare `except`
  let first : List Str × Bool :=
    match sig with
    | none => ([], false)
    | some c =>
      match c.params with
      | none => ([], false)
      | some names =>
        match getSignalNames c names with
        | .ok r => r
        | .error _ => ([], false)
  match pred with
  | none => (own, .error .attribute)
  | some c =>
    match getPredNames c (c.params.getD []) with
    | .error e => (own, .error e)
    | .ok (op, preds) =>
      let params := first.1 ++ op
      -- line 112 extends the list in place
      let own := if first.2 then some params else own
      if params.Nodup then (own, .ok (params, preds)) else (own, .error .inference)

/-! ### Recording of names at class definition -/

/-- A class object: its ancestors in method resolution order, and the address of the list bound to `param_names` in its own
dictionary, if there is one. -/
structure PyClass where
  mro : List ℕ
  names : Option ℕ

/-- The classes defined so far, and the list objects. -/
structure Classes where
  cls : List PyClass := []
  lists : List (List Str) := []

/-- Attribute lookup of `param_names` along a resolution order. -/
def Classes.lookup (s : Classes) (mro : List ℕ) : Option ℕ := mro.findSome? fun c => (s.cls[c]?).bind (·.names)

/-- What `cls.param_names` evaluates to. -/
def Classes.paramNames (s : Classes) (c : ℕ) : Option (List Str) :=
  match s.cls[c]? with
  | none => none
  | some k => (k.names.or (s.lookup k.mro)).bind (s.lists[·]?)

/-- `_report_name`, param.py:87-91, for the class `c` being defined (predictor.py:61-65 is the same with
`predictor_names`). -/
def Classes.report (s : Classes) (c : ℕ) (name : Str) : Classes :=
  match s.cls[c]? with
  | none => s
  | some k =>
    match k.names.or (s.lookup k.mro) with
    | some a => { s with lists := s.lists.modify a (· ++ [name]) }
    | none => { cls := s.cls.set c { k with names := some s.lists.length }, lists := s.lists ++ [[name]] }

/-- Definition of a class with ancestors `mro` and parameters `names` (in dictionary order), autoname.py:35-41. The new
class has number `s.cls.length`. -/
def Classes.define (s : Classes) (mro : List ℕ) (names : List Str) : Classes :=
  names.foldl (fun t n => t.report s.cls.length n) { s with cls := s.cls ++ [{ mro := mro, names := none }] }

/-- A history of class definitions. -/
def Classes.run (s : Classes) (defs : List (List ℕ × List Str)) : Classes :=
  defs.foldl (fun s d => s.define d.1 d.2) s

end Verif.Pie
