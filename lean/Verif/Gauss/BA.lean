import Verif.Gauss.Vba

/-!
# The Bretthorst algorithm

Model of the class `BA` of `package/inference/gauss/vecba.py`, with the extension module `vba` in place (the file has a placeholder for it).

The parameters of a call are a list of numbers without NaNs, so that comparing tuples is comparing lists.  Basis functions and the setup function are functions of the parameters that may
raise; the abscissas, which are their last argument, are fixed.  A basis function returns an array of as many numbers as there are samples.  The class `BAObj` is not modelled.
-/

set_option linter.unusedSectionVars false

namespace Verif.Vba

/-- What the constructor was given: the basis functions (of the parameters and of what the setup function returned), the samples and the sigmas: vecba.py:28-47. -/
structure Prob (Aux : Type) where
  M : ℕ
  N : ℕ
  setup : Option (List ℝ → Except Err Aux)
  basis : ℕ → List ℝ → Option Aux → Except Err Arr1
  smpls : Arr1
  sigs : Arr1

variable {Aux : Type}

/-- The check of the constructor, for data of `cols` columns: vecba.py:37-44; the result is the array of sigmas. -/
def sigmas (cols : ℕ) (column2 : Arr1) (sigma : Option ℝ) : Except Err Arr1 :=
  if cols ≠ 2 ∧ sigma.isSome then .error .value
  else match sigma with
    | some x => .ok fun _ => x * 1
    | none => if cols = 3 then .ok column2 else .error .value

/-- The standardised samples: vecba.py:46. -/
noncomputable def Prob.std (pr : Prob Aux) : Arr1 := fun i => pr.smpls i / pr.sigs i

/-- The sum of their squares: vecba.py:47. -/
noncomputable def Prob.dsqr (pr : Prob Aux) : ℝ := forUp 0 pr.N (fun i sum => sum + pr.std i * pr.std i) 0

/-- The attributes that change; those set by the first analysis do not exist before it: vecba.py:49-56, 107-111. -/
structure BA where
  pars : Option (List ℝ)
  suf : Option ℝ
  Q : Option ℝ
  Jac : Option ℝ
  modvals : Arr2
  res : Option Stats

/-- A new object: vecba.py:49-56. -/
def BA.new : BA := ⟨none, none, none, none, fun _ _ => 0, none⟩

/-- The loop over the basis functions, from `a` with `r` to go: vecba.py:101-103.  The rows computed before a function raises stay. -/
noncomputable def rows (pr : Prob Aux) (p : List ℝ) (aux : Option Aux) : ℕ → ℕ → Arr2 → Res Arr2
  | 0, _, D => (D, none)
  | r + 1, a, D =>
    match pr.basis a p aux with
    | .error e => (D, some e)
    | .ok g => rows pr p aux r (a + 1) (fun i j => if i = a then g j / pr.sigs j else D i j)

/-- `calc_marg_stats(*params)`: vecba.py:82-111. -/
noncomputable def BA.calc (pr : Prob Aux) (junk : Arr1) (s : BA) (p : List ℝ) : Res BA :=
  if some p = s.pars then (s, none)
  else
    match pr.setup.elim (Except.ok none) (fun f => (f p).map some) with
    | .error e => (s, some e)
    | .ok aux =>
      match rows pr p aux pr.M 0 s.modvals with
      | (D, some e) => ({ s with modvals := D }, some e)
      | (D, none) =>
        match metricAnalysis junk pr.M pr.N pr.N D pr.std with
        | .error e => ({ s with modvals := D }, some e)
        | .ok r => (⟨some p, some r.S, some (pr.dsqr - r.S), some (1 / r.rdet), D, some r⟩, none)

/-- `marg_stats(*params)`: vecba.py:61-80. -/
noncomputable def BA.margStats (pr : Prob Aux) (junk : Arr1) (s : BA) (p : List ℝ) : BA × Except Err (Option ℝ × Option ℝ × Option ℝ) :=
  match s.calc pr junk p with
  | (s, some e) => (s, .error e)
  | (s, none) => (s, .ok (s.Q, s.suf, s.Jac))

/-- The test at the start of `amplitudes` and `residuals`: vecba.py:118-120, 144-146. -/
noncomputable def BA.ensure (pr : Prob Aux) (junk : Arr1) (s : BA) (p : List ℝ) : Res BA :=
  if p ≠ [] ∧ some p ≠ s.pars then s.calc pr junk p else (s, none)

/-- `amplitudes(*params)`: vecba.py:113-123.  The attribute `ampl` does not exist before the first analysis. -/
noncomputable def BA.amplitudes (pr : Prob Aux) (junk : Arr1) (s : BA) (p : List ℝ) : BA × Except Err Arr1 :=
  match s.ensure pr junk p with
  | (s, some e) => (s, .error e)
  | (s, none) => (s, match s.res with
    | none => .error .attribute
    | some r => .ok r.A)

/-- `residuals(*params)`: vecba.py:139-150. -/
noncomputable def BA.residuals (pr : Prob Aux) (junk : Arr1) (s : BA) (p : List ℝ) : BA × Except Err Arr1 :=
  match s.ensure pr junk p with
  | (s, some e) => (s, .error e)
  | (s, none) => (s, match s.res with
    | none => .error .attribute
    | some r => .ok fun k => pr.std k - forUp 0 pr.M (fun a sum => sum + r.A a * s.modvals a k) 0)

/-- `covar()`: vecba.py:125-137 (the message that is printed once is not modelled). -/
noncomputable def BA.covar (pr : Prob Aux) (s : BA) : Except Err Arr2 :=
  match s.pars with
  | none => .error .value
  | some _ => match s.res with
    | none => .error .attribute
    | some r => .ok (Vba.covar pr.M r.L)

end Verif.Vba
