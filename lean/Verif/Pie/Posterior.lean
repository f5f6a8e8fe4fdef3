import Verif.Pie.Param
import Verif.Deriv.ObsRun

/-!
# Bayesian inferences: the model

Models `BayesianInference.score`, `logp`, `_logp_func` and `obs_info`, package/inference/pie/bayes.py:29-91.

The log likelihoods of the predictors and the log prior are arbitrary functions of the values of the declared parameters; each evaluation reads all of them.  (Log likelihoods that raise are not modelled
here.)  The other methods of the class (bayes.py:93-126) only raise `NotImplementedError`.
-/

set_option linter.unusedSectionVars false

namespace Verif.Pie
open Verif.Obs

/-- What is fixed about a Bayesian inference. -/
structure PostEnv where
  cfg : Cfg ℝ
  /-- `getattr(self, name).log_like()` for the names in `predictor_names`, in order. -/
  likes : List ((ℕ → ℝ) → ℝ)
  /-- `self.log_prior()` -/
  prior : (ℕ → ℝ) → ℝ

/-- The state of a Bayesian inference: its parameters, and the attributes `_log_like` and `_log_prior`, which exist once `score` has been called. -/
structure Post where
  inf : Inf ℝ
  logLike : Option ℝ := none
  logPrior : Option ℝ := none

/-- bayes.py:37-39: the sum over the predictors. -/
def PostEnv.like (e : PostEnv) (vals : ℕ → ℝ) : ℝ := e.likes.foldl (fun a f => a + f vals) 0

/-- `score`, bayes.py:29-41. -/
noncomputable def PostEnv.score (e : PostEnv) (s : Post) : Post × Except Err ℝ :=
  match Inf.accessAll e.cfg e.cfg.params s.inf with
  | (i, some x) => ({ s with inf := i, logLike := some 0 }, .error x)
  | (i, none) =>
    let l := e.like (i.read e.cfg)
    let p := e.prior (i.read e.cfg)
    (⟨i, some l, some p⟩, .ok (l + p))

/-- `logp`, bayes.py:43-48. -/
noncomputable def PostEnv.logp (e : PostEnv) (s : Post) : Post × Except Err ℝ := e.score s

/-- `_logp_func`, bayes.py:50-62: `zip` pairs the varying parameters with the entries of the array (which start from 1 here). -/
noncomputable def PostEnv.logpFunc (e : PostEnv) (x : Vec) (s : Post) : Post × Except Err ℝ :=
  match Inf.setVaryingLoop (s.inf.varying.zip ((List.range s.inf.varying.length).map fun k => x (k + 1))) s.inf with
  | (i, some err) => ({ s with inf := i }, .error err)
  | (i, none) => e.score { s with inf := i }

/-- bayes.py:73-75: the current values of the varying parameters, numbered from 1. -/
noncomputable def Post.mode (s : Post) : Vec := fun k => ((s.inf.varying[k - 1]?).bind fun i => (s.inf.h i).bind (·.value)).getD 0

/-- bayes.py:80-82: the current scales of the varying parameters (`vary` has made sure that there is one). -/
noncomputable def Post.deltas (s : Post) : Vec := fun k => ((s.inf.varying[k - 1]?).bind fun i => (s.inf.h i).bind (·.delta)).getD 0

/-- `obs_info`, bayes.py:64-91, with the information matrix and its errors as result.  `fuel` bounds the number of trials in each search of `dllsteps`: none if one of them needs more.  The list with the mode
is converted to a new array in each call of the Fortran routines.  `steps`, if given, has one entry per varying parameter. -/
noncomputable def PostEnv.obsInfo (e : PostEnv) (fuel : ℕ) (steps : Option Vec) (dlogp : ℝ) (n : ℕ) (junk : Junk) (s : Post) : Option (Post × Except Stop Info) :=
  match s.logLike, s.logPrior with
  | some l, some p =>
    let nv := s.inf.varying.length
    let mode := s.mode
    match dllstepsS fuel e.logpFunc nv mode (steps.getD s.deltas) dlogp (l + p) 20 (1 / 100) s with
    | none => none
    | some (s, _, _, .error x) => some (s, .error x)
    | some (s, _, _, .ok d) =>
      let (s, _, r) := obsinfoS e.logpFunc nv mode d (l + p) n junk s
      some (s, r)
  | _, _ => some (s, .error (.raised .attribute))

end Verif.Pie
