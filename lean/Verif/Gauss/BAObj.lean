import Verif.Gauss.BA

/-!
# The Bretthorst algorithm with an object for the model and the data: `BAObj`

vecba.py:153-279.  The object that provides the basis functions and the data has a state of its own, which others may change between calls.
-/

set_option linter.unusedSectionVars false

namespace Verif.Vba

/-- The object: `M` is `len(obj.std_basis)`, `N` is `len(obj.std_smpls)`, `setNonlin p` is `obj.set_nonlin(*p)`, which may change the state also when it raises, `basis a` is
`obj.std_basis[a]()` and `smpls` is `obj.std_smpls`: vecba.py:155-162.  A simplification: calling a basis function does not change the object, and neither number changes. -/
structure Obj (σ : Type) where
  M : ℕ
  N : ℕ
  setNonlin : List ℝ → σ → Res σ
  basis : ℕ → σ → Except Err Arr1
  smpls : σ → Arr1

variable {σ : Type}

/-- The attributes of a `BAObj`, and the state of its object: vecba.py:170-184. -/
structure BAObj (σ : Type) where
  obj : σ
  dsqr : ℝ
  pars : Option (List ℝ)
  suf : Option ℝ
  Q : Option ℝ
  Jac : Option ℝ
  modvals : Arr2
  res : Option Stats

/-- `BAObj(obj)`: vecba.py:164-184. -/
noncomputable def BAObj.new (ob : Obj σ) (o : σ) : BAObj σ :=
  ⟨o, forUp 0 ob.N (fun i sum => sum + ob.smpls o i * ob.smpls o i) 0, none, none, none, none, fun _ _ => 0, none⟩

/-- The loop over the basis functions, from `a` with `r` to go: vecba.py:231-232. -/
noncomputable def rowsO (ob : Obj σ) (o : σ) : ℕ → ℕ → Arr2 → Res Arr2
  | 0, _, D => (D, none)
  | r + 1, a, D =>
    match ob.basis a o with
    | .error e => (D, some e)
    | .ok g => rowsO ob o r (a + 1) (fun i j => if i = a then g j else D i j)

/-- `calc_marg_stats(*params)`: vecba.py:219-241. -/
noncomputable def BAObj.calc (ob : Obj σ) (junk : Arr1) (s : BAObj σ) (p : List ℝ) : Res (BAObj σ) :=
  if some p = s.pars then (s, none)
  else
    match ob.setNonlin p s.obj with
    | (o, some e) => ({ s with obj := o }, some e)
    | (o, none) =>
      match rowsO ob o ob.M 0 s.modvals with
      | (D, some e) => ({ s with obj := o, modvals := D }, some e)
      | (D, none) =>
        match metricAnalysis junk ob.M ob.N ob.N D (ob.smpls o) with
        | .error e => ({ s with obj := o, modvals := D }, some e)
        | .ok r => (⟨o, s.dsqr, some p, some r.S, some (s.dsqr - r.S), some (1 / r.rdet), D, some r⟩, none)

/-- `marg_stats(*params)`: vecba.py:186-217. -/
noncomputable def BAObj.margStats (ob : Obj σ) (junk : Arr1) (s : BAObj σ) (p : List ℝ) : BAObj σ × Except Err (Option ℝ × Option ℝ × Option ℝ) :=
  match s.calc ob junk p with
  | (s, some e) => (s, .error e)
  | (s, none) => (s, .ok (s.Q, s.suf, s.Jac))

/-- The test at the start of `amplitudes` and `residuals`: vecba.py:248-250, 272-274. -/
noncomputable def BAObj.ensure (ob : Obj σ) (junk : Arr1) (s : BAObj σ) (p : List ℝ) : Res (BAObj σ) :=
  if p ≠ [] ∧ some p ≠ s.pars then s.calc ob junk p else (s, none)

/-- `amplitudes(*params)`: vecba.py:243-253. -/
noncomputable def BAObj.amplitudes (ob : Obj σ) (junk : Arr1) (s : BAObj σ) (p : List ℝ) : BAObj σ × Except Err Arr1 :=
  match s.ensure ob junk p with
  | (s, some e) => (s, .error e)
  | (s, none) => (s, match s.res with
    | none => .error .attribute
    | some r => .ok r.A)

/-- `residuals(*params)`: vecba.py:267-279.  The samples are read anew. -/
noncomputable def BAObj.residuals (ob : Obj σ) (junk : Arr1) (s : BAObj σ) (p : List ℝ) : BAObj σ × Except Err Arr1 :=
  match s.ensure ob junk p with
  | (s, some e) => (s, .error e)
  | (s, none) => (s, match s.res with
    | none => .error .attribute
    | some r => .ok fun k => ob.smpls s.obj k - forUp 0 ob.M (fun a sum => sum + r.A a * s.modvals a k) 0)

/-- `covar()`: vecba.py:255-265. -/
noncomputable def BAObj.covar (ob : Obj σ) (s : BAObj σ) : Except Err Arr2 :=
  match s.pars with
  | none => .error .value
  | some _ => match s.res with
    | none => .error .attribute
    | some r => .ok (Vba.covar ob.M r.L)

end Verif.Vba
