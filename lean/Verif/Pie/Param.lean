import Mathlib.Algebra.Order.Field.Basic
import Verif.Common

/-!
# PIE parameters and inferences: the model

Models package/inference/pie/param.py, realparam.py and the parameter bookkeeping of inference_base.py.

A parameter is named by a natural number (its attribute name). The instance dictionary entry holding its handler is
`Inf.h i`; `none` means the handler has not been installed yet. Parameter values live in an arbitrary linearly
ordered field `K` (exact arithmetic; float round-off is not modelled).
-/

namespace Verif.Pie

/-- `Status`, param.py:15-20. -/
inductive Status | undef | fixed | stepping | varying
  deriving DecidableEq, Repr

/-- `StepType`, param.py:25-29. -/
inductive StepType | lin | log
  deriving DecidableEq, Repr

/-- `Direction`, param.py:33-37. -/
inductive Dir | next | prev
  deriving DecidableEq, Repr

/-- `reverse_direction`, param.py:40-47 (the invalid-enum branch cannot occur with a typed direction). -/
def Dir.reverse : Dir → Dir
  | .next => .prev
  | .prev => .next

/-- State of a `RealParamHandler`: realparam.py:65-68 (`init`) and the attributes set by its methods.
`_value`, `lo`/`hi`, `delta` are `Option`s because the attribute may be missing or `None`.
`slo, shi, steps, fac, stepNum, stype` are read by the code only when `status = stepping`, which can only be
reached after they have been set; they carry dummy defaults before that. -/
structure Handler (K : Type) [Zero K] where
  status : Status := .undef
  value : Option K := none
  /-- `bounded`, `lo`, `hi` -/
  bounds : Option (K × K) := none
  delta : Option K := none
  stype : StepType := .lin
  slo : K := 0
  shi : K := 0
  fac : K := 0
  steps : ℤ := 0
  stepNum : ℤ := 0

/-- What is fixed about an inference class and its numeric environment. -/
structure Cfg (K : Type) where
  /-- `Param.default`, realparam.py:314-319 (a real default is assumed). -/
  default : ℕ → K
  /-- `Inference.params`: declared parameter names in order. -/
  params : List ℕ
  /-- `exp(log(r)/(n-1.))`, realparam.py:167: the `(n-1)`-th root. -/
  root : K → ℤ → K
  /-- `exp`, realparam.py:281; `none` stands for an infinite or NaN result, realparam.py:282. -/
  exp : K → Option K

/-- The state of an inference instance: inference_base.py:48-57 plus the instance's handlers, plus a ghost log of
the calls of `_on_param_value_change` (most recent first). The only listener is the owner (param.py:153);
`add_listener` is not modelled. -/
structure Inf (K : Type) [Zero K] where
  h : ℕ → Option (Handler K) := fun _ => none
  fixed : List ℕ := []
  varying : List ℕ := []
  stepping : List ℕ := []
  info : ℕ → Option Dir := fun _ => none
  changes : List ℕ := []

section
variable {K : Type} [Field K] [LinearOrder K]

/-- A newly constructed inference, inference_base.py:48-52. -/
def Inf.init : Inf K := {}

/-- Write back a handler. -/
def Inf.setH (s : Inf K) (i : ℕ) (hd : Handler K) : Inf K :=
  { s with h := Function.update s.h i (some hd) }

/-- `_set_value`, param.py:195-204: store the value and notify the owner. `hd` is parameter `i`'s current handler
(with any attribute changes made by the caller). -/
def Inf.putValue (s : Inf K) (i : ℕ) (hd : Handler K) (v : K) : Inf K :=
  { s.setH i { hd with value := some v } with changes := i :: s.changes }

/-- `first_step`, realparam.py:210-214. -/
def Inf.firstStep (s : Inf K) (i : ℕ) : Res (Inf K) :=
  match s.h i with
  | none => raise .attribute s
  | some hd =>
    if hd.status ≠ .stepping then raise .runtime s
    else ok (s.putValue i { hd with stepNum := 0 } hd.slo)

/-- `last_step`, realparam.py:217-221. -/
def Inf.lastStep (s : Inf K) (i : ℕ) : Res (Inf K) :=
  match s.h i with
  | none => raise .attribute s
  | some hd =>
    if hd.status ≠ .stepping then raise .runtime s
    else ok (s.putValue i { hd with stepNum := hd.steps - 1 } hd.shi)

/-- The loop of `reset_steps`, inference_base.py:257-259, over a list of stepping parameters. -/
def Inf.resetLoop : List ℕ → Inf K → Res (Inf K)
  | [], s => ok s
  | i :: l, s => (s.firstStep i).andThen fun s' =>
      Inf.resetLoop l { s' with info := Function.update s'.info i (some .next) }

/-- `reset_steps`, inference_base.py:252-259. -/
def Inf.resetSteps (s : Inf K) : Res (Inf K) := Inf.resetLoop s.stepping s

/-- `list.remove(x)` raises `ValueError` when `x` is absent. -/
def pyRemove (l : List ℕ) (i : ℕ) : Option (List ℕ) := if i ∈ l then some (l.erase i) else none

/-- `self.stepping_params.append(param); self.stepping_info[param] = nextd; self.reset_steps()`,
inference_base.py:206-208, 214-216, 222-224. -/
def Inf.enterStepping (s : Inf K) (i : ℕ) : Res (Inf K) :=
  Inf.resetSteps { s with stepping := s.stepping ++ [i], info := Function.update s.info i (some .next) }

/-- `_on_param_status_change`, inference_base.py:188-232. -/
def Inf.onStatusChange (s : Inf K) (i : ℕ) (old new : Status) : Res (Inf K) :=
  if old = new then
    if new = .stepping then
      Inf.resetSteps { s with info := Function.update s.info i (some .next) }
    else ok s
  else
    match old with
    | .undef =>
      match new with
      | .fixed => ok { s with fixed := s.fixed ++ [i] }
      | .varying => ok { s with varying := s.varying ++ [i] }
      | .stepping => s.enterStepping i
      | .undef => ok s
    | .fixed =>
      match pyRemove s.fixed i with
      | none => raise .value s
      | some l =>
        let s := { s with fixed := l }
        match new with
        | .varying => ok { s with varying := s.varying ++ [i] }
        | .stepping => s.enterStepping i
        | _ => ok s
    | .varying =>
      match pyRemove s.varying i with
      | none => raise .value s
      | some l =>
        let s := { s with varying := l }
        match new with
        | .fixed => ok { s with fixed := s.fixed ++ [i] }
        | .stepping => s.enterStepping i
        | _ => ok s
    | .stepping =>
      match pyRemove s.stepping i with
      | none => raise .value s
      | some l =>
        (Inf.resetSteps { s with stepping := l }).andThen fun s =>
          match s.info i with
          | none => raise .key s
          | some _ =>
            let s := { s with info := Function.update s.info i none }
            match new with
            | .fixed => ok { s with fixed := s.fixed ++ [i] }
            | .varying => ok { s with varying := s.varying ++ [i] }
            | _ => ok s

/-- `_set_status`, param.py:180-188, given the handler `hd` of `i` as the caller left it. -/
def Inf.setStatus (s : Inf K) (i : ℕ) (hd : Handler K) (st : Status) : Res (Inf K) :=
  (s.setH i { hd with status := st }).onStatusChange i hd.status st

/-- `fix`, realparam.py:88-107. -/
def Inf.fixH (s : Inf K) (i : ℕ) (hd : Handler K) (v : Option K) : Res (Inf K) :=
  match v with
  | none =>
    if hd.status = .undef then raise .param s
    else s.setStatus i hd .fixed
  | some v =>
    match hd.bounds with
    | some (lo, hi) =>
      if v ≥ lo ∧ v ≤ hi then
        (s.putValue i hd v).setStatus i { hd with value := some v } .fixed
      else raise .paramRange s
    | none => (s.putValue i hd v).setStatus i { hd with value := some v } .fixed

/-- `Param.__get__`, param.py:93-109: the value attribute exists once a value has been set; otherwise a new handler
is installed and fixed at the default. -/
def Inf.access (c : Cfg K) (s : Inf K) (i : ℕ) : Res (Inf K) :=
  match (s.h i).bind (·.value) with
  | some _ => ok s
  | none => (s.setH i {}).fixH i {} (some (c.default i))

/-- `Param.__set__`, param.py:111-118. -/
def Inf.assign (s : Inf K) (i : ℕ) (v : Option K) : Res (Inf K) :=
  match s.h i with
  | some hd => s.fixH i hd v
  | none => (s.setH i {}).fixH i {} v

/-- `set_value`, realparam.py:70-81. -/
def Inf.setValueH (s : Inf K) (i : ℕ) (hd : Handler K) (v : K) : Res (Inf K) :=
  if hd.status ≠ .varying then raise .param s
  else
    match hd.bounds with
    | some (lo, hi) =>
      if v ≥ lo ∧ v ≤ hi then ok (s.putValue i hd v) else raise .paramRange s
    | none => ok (s.putValue i hd v)

/-- `range`, realparam.py:109-116, for a pair of numbers (a wrong number of arguments is not modelled). -/
def Handler.range (hd : Handler K) (a b : K) : Handler K := { hd with bounds := some (min a b, max a b) }

/-- The first statement of `vary`, realparam.py:230-234, for an optional range. -/
def Handler.withRange (hd : Handler K) : Option (K × K) → Handler K
  | none => hd
  | some (a, b) => hd.range a b

/-- The range check at the head of `linstep` and `logstep`, realparam.py:122-127 and 149-154. -/
def Handler.stepEndsOk (hd : Handler K) (lo hi : Option K) : Bool :=
  match hd.bounds with
  | none => true
  | some (blo, bhi) =>
    (match lo with | none => true | some lo => !(lo < blo || lo > bhi)) &&
    (match hi with | none => true | some hi => !(hi < blo || hi > bhi))

/-- `linstep`, realparam.py:120-141. A missing end is replaced by the range's end for `slo`/`shi`
(`AttributeError` if there is no range) but `hi-lo` then raises `TypeError`. -/
def Inf.linstepH (s : Inf K) (i : ℕ) (hd : Handler K) (lo hi : Option K) (n : ℤ) : Res (Inf K) :=
  if !hd.stepEndsOk lo hi then raise .paramRange s
  else
    let hd := { hd with stype := .lin }
    match (match lo with | some lo => some lo | none => hd.bounds.map Prod.fst) with
    | none => raise .attribute (s.setH i hd)
    | some slo =>
      let hd := { hd with slo := slo }
      match (match hi with | some hi => some hi | none => hd.bounds.map Prod.snd) with
      | none => raise .attribute (s.setH i hd)
      | some shi =>
        let hd := { hd with shi := shi, steps := n }
        match lo, hi with
        | some lo, some hi =>
          if n = 1 then raise .zeroDiv (s.setH i hd)
          else
            let hd := { hd with delta := some ((hi - lo) / ((n : K) - 1)), stepNum := 0 }
            (s.putValue i hd lo).setStatus i { hd with value := some lo } .stepping
        | _, _ => raise .type (s.setH i hd)

/-- `logstep`, realparam.py:147-170. `lo*hi` raises `TypeError` before anything is changed if an end is missing.
(For `n = 1` NumPy's division yields an infinite, unused factor; `root _ 1` is then arbitrary.) -/
def Inf.logstepH (c : Cfg K) (s : Inf K) (i : ℕ) (hd : Handler K) (lo hi : Option K) (n : ℤ) : Res (Inf K) :=
  if !hd.stepEndsOk lo hi then raise .paramRange s
  else
    match lo, hi with
    | some lo, some hi =>
      if lo * hi ≤ 0 then raise .value s
      else
        let hd := { hd with stype := .log, slo := lo, shi := hi, steps := n, fac := c.root (hi / lo) n, stepNum := 0 }
        (s.putValue i hd lo).setStatus i { hd with value := some lo } .stepping
    | _, _ => raise .type s

/-- `next_step`, realparam.py:172-187. -/
def Inf.nextStepP (s : Inf K) (i : ℕ) : Res (Inf K) :=
  match s.h i with
  | none => raise .attribute s
  | some hd =>
    if hd.status ≠ .stepping then raise .param s
    else if hd.stepNum = hd.steps - 1 then raise .paramRange s
    else
      let hd := { hd with stepNum := hd.stepNum + 1 }
      if hd.stepNum = hd.steps - 1 then ok (s.putValue i hd hd.shi)
      else
        match hd.value with
        | none => raise .attribute (s.setH i hd)
        | some v =>
          match hd.stype with
          | .lin =>
            match hd.delta with
            | none => raise .type (s.setH i hd)
            | some d => ok (s.putValue i hd (v + d))
          | .log => ok (s.putValue i hd (v * hd.fac))

/-- `prev_step`, realparam.py:191-206. -/
def Inf.prevStepP (s : Inf K) (i : ℕ) : Res (Inf K) :=
  match s.h i with
  | none => raise .attribute s
  | some hd =>
    if hd.status ≠ .stepping then raise .param s
    else if hd.stepNum = 0 then raise .paramRange s
    else
      let hd := { hd with stepNum := hd.stepNum - 1 }
      if hd.stepNum = 0 then ok (s.putValue i hd hd.slo)
      else
        match hd.value with
        | none => raise .attribute (s.setH i hd)
        | some v =>
          match hd.stype with
          | .lin =>
            match hd.delta with
            | none => raise .type (s.setH i hd)
            | some d => ok (s.putValue i hd (v - d))
          | .log => ok (s.putValue i hd (v / hd.fac))

/-- `vary`, realparam.py:229-246. `range` is `None` or a pair. -/
def Inf.varyH (s : Inf K) (i : ℕ) (hd : Handler K) (start delta : Option K) (range : Option (K × K)) :
    Res (Inf K) :=
  if range.isNone && hd.bounds.isNone then raise .value s
  else
    let hd := hd.withRange range
    match delta.or hd.delta with
    | none => raise .value (s.setH i hd)
    | some d =>
      let hd := { hd with delta := some d }
      (s.setStatus i hd .varying).andThen fun s =>
        match start with
        | some v => s.setValueH i { hd with status := .varying } v
        | none => if hd.value.isNone then raise .attribute s else ok s

/-- `_unbounded_set_value`, realparam.py:272-291. -/
def Inf.unboundedSetH (c : Cfg K) (s : Inf K) (i : ℕ) (hd : Handler K) (u : K) : Res (Inf K) :=
  if hd.status ≠ .varying then raise .param s
  else
    match hd.bounds with
    | none => raise .param s
    | some (lo, hi) =>
      match c.exp u with
      | none => if u > 0 then ok (s.putValue i hd hi) else ok (s.putValue i hd lo)
      | some e => ok (s.putValue i hd ((lo + hi * e) / (1 + e)))

/-- Attribute access on a parameter value is forwarded to its handler (realparam.py:48-51): `inf.x.method(...)` reads
`inf.x` first, which installs the default if needed. -/
def Inf.onHandler (c : Cfg K) (s : Inf K) (i : ℕ) (f : Inf K → Handler K → Res (Inf K)) : Res (Inf K) :=
  (s.access c i).andThen fun s =>
    match s.h i with
    | none => raise .attribute s
    | some hd => f s hd

/-! ### Operations of the whole inference -/

/-- One parameter moved in its current direction, inference_base.py:281-286. -/
def Inf.stepDir (s : Inf K) (i : ℕ) : Dir → Res (Inf K)
  | .next => s.nextStepP i
  | .prev => s.prevStepP i

/-- The loop of `Inference.next_step`, inference_base.py:276-299. `last` is `stepping_params[-1]`. -/
def Inf.nextLoop (last : ℕ) : List ℕ → Inf K → Res (Inf K)
  | [], s => ok s
  | i :: l, s =>
    match s.info i with
    | none => raise .key s
    | some d =>
      match s.stepDir i d with
      | (s', none) => ok s'
      | (s', some .paramRange) =>
        if i = last then (Inf.resetSteps s').andThen (raise .stopStepping)
        else Inf.nextLoop last l { s' with info := Function.update s'.info i (some d.reverse) }
      | (s', some e) => raise e s'

/-- `Inference.next_step`, inference_base.py:261-299. -/
def Inf.nextStep (s : Inf K) : Res (Inf K) :=
  match s.stepping.getLast? with
  | none => raise .index s
  | some last => Inf.nextLoop last s.stepping s

/-- `step_nums`, inference_base.py:301-306. -/
def Inf.stepNums (s : Inf K) : List ℤ := s.stepping.filterMap fun i => (s.h i).map (·.stepNum)

/-- `step_shape`, inference_base.py:308-315. -/
def Inf.stepShape (s : Inf K) : List ℤ := s.stepping.filterMap fun i => (s.h i).map (·.steps)

/-- The assignment loop of `_set_varying` and `_score`, inference_base.py:323-324 and 393-394: `zip` stops at the
shorter list. -/
def Inf.setVaryingLoop : List (ℕ × K) → Inf K → Res (Inf K)
  | [], s => ok s
  | (i, v) :: l, s =>
    match s.h i with
    | none => raise .attribute s
    | some hd => (s.setValueH i hd v).andThen (Inf.setVaryingLoop l)

/-- `_set_varying`, inference_base.py:317-324. -/
def Inf.setVarying (s : Inf K) (vs : List K) : Res (Inf K) :=
  if vs.length ≠ s.varying.length then raise .param s
  else Inf.setVaryingLoop (s.varying.zip vs) s

/-- The parameter-setting part of `_score` with `use_unbounded` false, inference_base.py:392-394. -/
def Inf.scoreSet (s : Inf K) (vs : List K) : Res (Inf K) := Inf.setVaryingLoop (s.varying.zip vs) s

/-- The loop of `_score` with `use_unbounded` true, inference_base.py:389-391. -/
def Inf.unboundedLoop (c : Cfg K) : List (ℕ × K) → Inf K → Res (Inf K)
  | [], s => ok s
  | (i, v) :: l, s =>
    match s.h i with
    | none => raise .attribute s
    | some hd => (s.unboundedSetH c i hd v).andThen (Inf.unboundedLoop c l)

/-- The parameter-setting part of `_score` with `use_unbounded` true, inference_base.py:389-391. -/
def Inf.scoreSetUnbounded (c : Cfg K) (s : Inf K) (vs : List K) : Res (Inf K) :=
  Inf.unboundedLoop c (s.varying.zip vs) s

/-- One iteration of `set_params`, inference_base.py:341-348, for one name. `pv i = none` means the passed
`ParamValues` has no such attribute. -/
def Inf.setParam1 (c : Cfg K) (pv : ℕ → Option K) (s : Inf K) (i : ℕ) : Res (Inf K) :=
  s.onHandler c i fun s hd =>
    match hd.status with
    | .fixed =>
      match pv i with
      | none => raise .attribute s
      | some v => s.fixH i hd (some v)
    | .varying =>
      match pv i with
      | none => raise .attribute s
      | some v => s.varyH i hd (some v) none none
    | _ => raise .param s

/-- `set_params`, inference_base.py:336-348. -/
def Inf.setParamsLoop (c : Cfg K) (pv : ℕ → Option K) : List ℕ → Inf K → Res (Inf K)
  | [], s => ok s
  | i :: l, s => (s.setParam1 c pv i).andThen (Inf.setParamsLoop c pv l)

/-- `set_params`, inference_base.py:336-348. -/
def Inf.setParams (c : Cfg K) (s : Inf K) (pv : ℕ → Option K) : Res (Inf K) :=
  Inf.setParamsLoop c pv c.params s

/-- The reads done by `get_params`, inference_base.py:330-331, and by any code that reads several parameters. -/
def Inf.accessAll (c : Cfg K) : List ℕ → Inf K → Res (Inf K)
  | [], s => ok s
  | i :: l, s => (s.access c i).andThen (Inf.accessAll c l)

/-- The value the user reads for parameter `i`: the stored value, or the default that the first read installs. -/
def Inf.read (c : Cfg K) (s : Inf K) (i : ℕ) : K :=
  match (s.h i).bind (·.value) with
  | some v => v
  | none => c.default i

/-- Everything a user can do to the parameters of an inference. -/
inductive Op (K : Type)
  /-- read `inf.i` -/
  | get (i : ℕ)
  /-- `inf.i = v` (`none` is Python's `None`) -/
  | assign (i : ℕ) (v : Option K)
  | fix (i : ℕ) (v : Option K)
  | setValue (i : ℕ) (v : K)
  | range (i : ℕ) (a b : K)
  | linstep (i : ℕ) (lo hi : Option K) (n : ℤ)
  | logstep (i : ℕ) (lo hi : Option K) (n : ℤ)
  | nextStepP (i : ℕ)
  | prevStepP (i : ℕ)
  | firstStepP (i : ℕ)
  | lastStepP (i : ℕ)
  | vary (i : ℕ) (start delta : Option K) (range : Option (K × K))
  | unboundedSet (i : ℕ) (u : K)
  /-- `inf.next_step()` -/
  | nextStep
  | resetSteps
  | setVarying (vs : List K)
  | scoreSet (vs : List K)
  | scoreSetUnbounded (vs : List K)
  | setParams (pv : ℕ → Option K)
  | getParams

/-- Execute one user operation. -/
def Inf.step (c : Cfg K) (s : Inf K) : Op K → Res (Inf K)
  | .get i => s.access c i
  | .assign i v => s.assign i v
  | .fix i v => s.onHandler c i fun s hd => s.fixH i hd v
  | .setValue i v => s.onHandler c i fun s hd => s.setValueH i hd v
  | .range i a b => s.onHandler c i fun s hd => ok (s.setH i (hd.range a b))
  | .linstep i lo hi n => s.onHandler c i fun s hd => s.linstepH i hd lo hi n
  | .logstep i lo hi n => s.onHandler c i fun s hd => s.logstepH c i hd lo hi n
  | .nextStepP i => s.onHandler c i fun s _ => s.nextStepP i
  | .prevStepP i => s.onHandler c i fun s _ => s.prevStepP i
  | .firstStepP i => s.onHandler c i fun s _ => s.firstStep i
  | .lastStepP i => s.onHandler c i fun s _ => s.lastStep i
  | .vary i st d r => s.onHandler c i fun s hd => s.varyH i hd st d r
  | .unboundedSet i u => s.onHandler c i fun s hd => s.unboundedSetH c i hd u
  | .nextStep => s.nextStep
  | .resetSteps => s.resetSteps
  | .setVarying vs => s.setVarying vs
  | .scoreSet vs => s.scoreSet vs
  | .scoreSetUnbounded vs => s.scoreSetUnbounded c vs
  | .setParams pv => s.setParams c pv
  | .getParams => Inf.accessAll c c.params s

/-- Execute a history; the user catches every exception and goes on. -/
def Inf.run (c : Cfg K) (s : Inf K) (ops : List (Op K)) : Inf K :=
  ops.foldl (fun s op => (s.step c op).1) s

end
end Verif.Pie
