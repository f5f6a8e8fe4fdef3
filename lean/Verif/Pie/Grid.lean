import Verif.Pie.Param

/-!
# `do_grid` and `fit`: the model

Models `Inference.do_grid` and `Inference.fit`, package/inference/pie/inference_base.py:401-470 and 542-574.

The score is an arbitrary function of the values of the declared parameters. `optimize` (inference_base.py:472-536) is
an arbitrary procedure that acts on the inference only by setting the varying parameters, as `optimize` and `_score`
do, and then reports parameter values and an extremum, or raises.
-/

namespace Verif.Pie
variable {K : Type} [Field K] [LinearOrder K]

/-- What `optimize` does to the inference while it works: `_score(args)` (inference_base.py:389-394), mapped or not,
and `param.set_value(v)` on a varying parameter (inference_base.py:503-510). -/
inductive Probe (K : Type)
  | score (vs : List K)
  | scoreUnbounded (vs : List K)
  | setValue (i : ℕ) (v : K)

/-- Run one probe. `set_value` is called on the handler found in `varying_params`. -/
def Inf.probe (c : Cfg K) (s : Inf K) : Probe K → Res (Inf K)
  | .score vs => s.scoreSet vs
  | .scoreUnbounded vs => s.scoreSetUnbounded c vs
  | .setValue i v =>
    match s.h i with
    | none => raise .attribute s
    | some hd => s.setValueH i hd v

/-- Run probes until one raises. -/
def Inf.probes (c : Cfg K) : List (Probe K) → Inf K → Res (Inf K)
  | [], s => ok s
  | p :: l, s => (s.probe c p).andThen (Inf.probes c l)

/-- What one call of `optimize` does: its probes, an exception it raises of itself after them (no method, no
tolerance, no convergence ...), and the `(params, extremum)` it returns otherwise. -/
structure OptRun (K : Type) where
  probes : List (Probe K)
  err : Option Err
  params : List K
  extremum : K

/-- The environment of a grid evaluation. -/
structure GridEnv (K : Type) [Field K] [LinearOrder K] where
  cfg : Cfg K
  /-- `self.score()`, as a function of the values of the declared parameters. -/
  score : (ℕ → K) → K
  /-- What `optimize` does at the `n`-th grid step in a given state. -/
  opt : ℕ → Inf K → OptRun K
  /-- `self.extremize == maximize` -/
  maximize : Bool

/-- Line 432-433 or 452 of `do_grid`: optimize if there are varying parameters, else read the parameters and score. -/
def GridEnv.eval (e : GridEnv K) (n : ℕ) (s : Inf K) : Inf K × Except Err (K × List K) :=
  if s.varying ≠ [] then
    let o := e.opt n s
    match s.probes e.cfg o.probes with
    | (s', some x) => (s', .error x)
    | (s', none) =>
      match o.err with
      | some x => (s', .error x)
      | none => (s', .ok (o.extremum, o.params))
  else
    match Inf.accessAll e.cfg e.cfg.params s with
    | (s', some x) => (s', .error x)
    | (s', none) => (s', .ok (e.score (s'.read e.cfg), []))

/-- The local variables of `do_grid`: `results.values` (`none` is NaN, containers.py:61-64), `vresults.values`
(`none`: not written), `(opt_val, opt_ind)`, and a ghost record of the evaluations made, latest first. -/
structure GridState (K : Type) where
  values : List ℤ → Option K := fun _ => none
  vvalues : List ℤ → Option (List K) := fun _ => none
  opt : Option (K × List ℤ) := none
  evals : List (List ℤ × K) := []

/-- NumPy indexing of one axis of length `n`: negative indices count from the end; others raise `IndexError`. -/
def npIndex1 (n i : ℤ) : Option ℤ :=
  if 0 ≤ i ∧ i < n then some i else if -n ≤ i ∧ i < 0 then some (i + n) else none

/-- NumPy indexing by a tuple with one entry per axis. -/
def npIndex : List ℤ → List ℤ → Option (List ℤ)
  | [], [] => some []
  | n :: ns, i :: is =>
    match npIndex1 n i, npIndex ns is with
    | some j, some js => some (j :: js)
    | _, _ => none
  | _, _ => none

/-- Inference_base.py:434-450 and 452: store an evaluation made at the index tuple `ind`. -/
def GridState.store (g : GridState K) (maximize vary vargrid : Bool) (shape ind : List ℤ) (v : K × List K) :
    Option (GridState K) :=
  (npIndex shape ind).map fun cell =>
    let g := { g with values := Function.update g.values cell (some v.1), evals := (ind, v.1) :: g.evals }
    if vary then
      let g := match g.opt with
        | none => { g with opt := some (v.1, ind) }
        | some (o, _) =>
          if (if maximize then v.1 > o else v.1 < o) then { g with opt := some (v.1, ind) } else g
      if vargrid then { g with vvalues := Function.update g.vvalues cell (some v.2) } else g
    else g

/-- What the `while True` loop of `do_grid`, inference_base.py:426-462, leaves behind: the inference, the local
variables, and the exception that escaped from it, if any. -/
abbrev GridOut (K : Type) [Field K] [LinearOrder K] := Inf K × GridState K × Option Err

/-- The `while True` loop of `do_grid`, inference_base.py:426-462. `n` counts the steps made; the first argument is
fuel (`none`: out of fuel, i.e. the loop is still running). -/
def gridLoop (e : GridEnv K) (vargrid : Bool) (shape : List ℤ) : ℕ → ℕ → Inf K → GridState K → Option (GridOut K)
  | 0, _, _, _ => none
  | fuel + 1, n, s, g =>
    let ind := s.stepNums
    let vary := decide (s.varying ≠ [])
    match e.eval n s with
    | (s, .error x) => some (s, g, some x)
    | (s, .ok v) =>
      match g.store e.maximize vary vargrid shape ind v with
      | none => some (s, g, some .index)
      | some g =>
        match s.nextStep with
        | (s, none) => gridLoop e vargrid shape fuel (n + 1) s g
        | (s, some .stopStepping) => some (s, g, none)
        | (s, some x) => some (s, g, some x)

/-- `do_grid`, inference_base.py:401-470. `ScalarGrid` (containers.py:47-64) raises `ValueError` for a negative number
of steps. With `vargrid` but nothing varying, `opt_ind` is unbound at line 467. -/
def doGrid (e : GridEnv K) (vargrid : Bool) (fuel : ℕ) (s : Inf K) : Option (GridOut K) :=
  if ∃ n ∈ s.stepShape, n < 0 then some (s, {}, some .value)
  else
    (gridLoop e vargrid s.stepShape fuel 0 s {}).map fun r =>
      match r with
      | (s, g, none) => if vargrid && g.opt.isNone then (s, g, some .name) else (s, g, none)
      | r => r

/-- What `fit` returns: a score, an optimum, or a grid; inference_base.py:542-574. -/
inductive FitOut (K : Type)
  | score (v : K)
  | optimum (params : List K) (v : K)
  | grid (g : GridState K)

/-- `fit`, inference_base.py:542-574. -/
def fit (e : GridEnv K) (vargrid : Bool) (fuel : ℕ) (s : Inf K) : Option (Inf K × Except Err (FitOut K)) :=
  if s.stepping = [] then
    some (match e.eval 0 s with
      | (s', .error x) => (s', .error x)
      | (s', .ok v) => (s', .ok (if s.varying = [] then .score v.1 else .optimum v.2 v.1)))
  else
    (doGrid e vargrid fuel s).map fun r =>
      match r with
      | (s', _, some x) => (s', .error x)
      | (s', g, none) => (s', .ok (.grid g))

end Verif.Pie
