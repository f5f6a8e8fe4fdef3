import Verif.Pie.Spec

/-!
# `ParamValues`, `get_params` and inferences with snapshots: the model
-/

namespace Verif.Pie
variable {K : Type} [Field K] [LinearOrder K]

/-- `ParamValues`, containers.py:5-20. `vals` are the attributes; `docs` is not modelled. -/
structure ParamValues (K : Type) where
  names : List ℕ := []
  vals : ℕ → Option K := fun _ => none

/-- `store`, containers.py:22-27. -/
def ParamValues.store (pv : ParamValues K) (i : ℕ) (v : K) : Res (ParamValues K) :=
  if i ∈ pv.names then raise .param pv
  else ok { names := pv.names ++ [i], vals := Function.update pv.vals i (some v) }

/-- The loop of `get_params`, inference_base.py:330-333: `getattr` (which may install a default), then `store`. -/
def Inf.getParamsLoop (c : Cfg K) : List ℕ → Inf K → ParamValues K → Res (Inf K × ParamValues K)
  | [], s, pv => ok (s, pv)
  | i :: l, s, pv =>
    match s.access c i with
    | (s', some e) => raise e (s', pv)
    | (s', none) =>
      match (s'.h i).bind (·.value) with
      | none => raise .attribute (s', pv)
      | some v =>
        match pv.store i v with
        | (pv', some e) => raise e (s', pv')
        | (pv', none) => Inf.getParamsLoop c l s' pv'

/-- `get_params`, inference_base.py:326-334. -/
def Inf.getParams (c : Cfg K) (s : Inf K) : Res (Inf K × ParamValues K) := Inf.getParamsLoop c c.params s {}

/-- An inference and the snapshots its user holds, oldest first. -/
structure World (K : Type) [Zero K] where
  inf : Inf K := {}
  snaps : List (ParamValues K) := []

/-- What the user can do: operate on the inference, take a snapshot with `get_params`, or restore the `k`-th snapshot
with `set_params`. -/
inductive WOp (K : Type)
  | op (o : Op K)
  | take
  | restore (k : ℕ)

/-- One user action; if `get_params` raises there is no new snapshot. -/
def World.step (c : Cfg K) (w : World K) : WOp K → World K
  | .op o => { w with inf := (w.inf.step c o).1 }
  | .take =>
    match w.inf.getParams c with
    | ((s, pv), none) => { inf := s, snaps := w.snaps ++ [pv] }
    | ((s, _), some _) => { w with inf := s }
  | .restore k =>
    match w.snaps[k]? with
    | none => w
    | some pv => { w with inf := (w.inf.setParams c pv.vals).1 }

/-- A history of user actions. -/
def World.run (c : Cfg K) (w : World K) (ops : List (WOp K)) : World K := ops.foldl (World.step c) w

end Verif.Pie
