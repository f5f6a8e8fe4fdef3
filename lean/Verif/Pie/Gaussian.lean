import Verif.Pie.Spec

/-!
# Gaussian predictors on instances: the model

Models package/inference/pie/gaussian.py, predictor.py and the scores of bayes.py, maxlike.py and chisqr.py, for any
number of instances of one inference class with any number of `SampledGaussian` predictors, together with the
instances' parameters. Arrays and lists are mutable objects in a heap, so that aliasing is visible. Locations are
scalars (`dimen = 1`); multi-dimensional locations are not modelled. The attributes `resids`, `_log_like` and
`_chisqr`, which only hold copies of what is returned, are not modelled. Division by a zero sigma is the field's
division (NumPy warns and yields inf or nan).
-/

namespace Verif.Pie
variable {K : Type} [Field K] [LinearOrder K]

/-- A mutable sequence: a one-dimensional NumPy array, or a Python list. -/
structure Obj (K : Type) where
  isArray : Bool
  data : List K
deriving DecidableEq

/-- A `SampledGaussian` declaration: the addresses of the original arrays, gaussian.py:250 and 278. -/
structure Decl where
  locns : ℕ
  vals : ℕ
  sigmas : ℕ
  ndata : ℕ

/-- A `SampledGaussianHandler`, gaussian.py:22-33. -/
structure PredH (K : Type) where
  locns : ℕ
  vals : ℕ
  sigmas : ℕ
  ndata : ℕ
  usingGlobals : Bool
  prdxns : Option (List K)

/-- What the user's model code sees: `on_param_change(i)`, `on_use()` and evaluations of `signal(s)`; the latter two
with the parameter values current at the time (ghost information). -/
inductive Ev (K : Type)
  | change (i : ℕ)
  | use (θ : ℕ → K)
  | eval (θ : ℕ → K) (locns : List K)

/-- All instances of one inference class. `inf k`, `pred k p` and `log k` belong to instance `k`; `decl p` is the `p`-th
predictor declaration, if there are so many. Addresses below `next` are in use. `log` is a ghost, most recent event first. -/
structure Sys (K : Type) [Zero K] where
  heap : ℕ → Obj K
  next : ℕ
  decl : ℕ → Option Decl
  pred : ℕ → ℕ → Option (PredH K) := fun _ _ => none
  inf : ℕ → Inf K := fun _ => {}
  log : ℕ → List (Ev K) := fun _ => []

/-- The class: its parameters, the parameters its signal model reads, and the signal model. `signals θ l = none` stands
for `NotImplementedError`. -/
structure Model (K : Type) where
  cfg : Cfg K
  reads : List ℕ
  signals : (ℕ → K) → List K → Option (List K)
  signal : (ℕ → K) → K → K
  logPrior : (ℕ → K) → K

/-- NumPy broadcasting of an elementwise binary operation on one-dimensional operands. -/
def bcast (f : K → K → K) (a b : List K) : Option (List K) :=
  if a.length = b.length then some (List.zipWith f a b)
  else
    match a, b with
    | [x], b => some (b.map (f x))
    | a, [y] => some (a.map (f · y))
    | _, _ => none

/-- Python sequence indices: negative ones count from the end. -/
def pyIndex (len : ℕ) (n : ℤ) : Option ℕ :=
  if 0 ≤ n then if n < len then some n.toNat else none
  else if 0 ≤ len + n then some (len + n).toNat else none

/-- A new object. -/
def Sys.alloc (s : Sys K) (o : Obj K) : Sys K × ℕ :=
  ({ s with heap := Function.update s.heap s.next o, next := s.next + 1 }, s.next)

/-- Bind instance `k`'s handler of predictor `p`. -/
def Sys.setP (s : Sys K) (k p : ℕ) (h : PredH K) : Sys K :=
  { s with pred := Function.update s.pred k (Function.update (s.pred k) p (some h)) }

/-- Append to instance `k`'s ghost log. -/
def Sys.note (s : Sys K) (k : ℕ) (e : List (Ev K)) : Sys K :=
  { s with log := Function.update s.log k (e ++ s.log k) }

/-- Parameter operations on instance `k`; `_on_param_value_change`, signalmodel.py, passes each notification on to
`on_param_change`. -/
def Sys.onInf (s : Sys K) (k : ℕ) (f : Inf K → Res (Inf K)) : Res (Sys K) :=
  let r := f (s.inf k)
  let new := r.1.changes.take (r.1.changes.length - (s.inf k).changes.length)
  ({ s with inf := Function.update s.inf k r.1 }.note k (new.map .change), r.2)

/-- `Predictor.__get__`, predictor.py:71-82, and `SampledGaussianHandler.init`, gaussian.py:30-33. -/
def Sys.access (s : Sys K) (k p : ℕ) : Res (Sys K) :=
  match s.pred k p with
  | some _ => ok s
  | none =>
    match s.decl p with
    | none => raise .attribute s
    | some d =>
      ok (s.setP k p { locns := d.locns, vals := d.vals, sigmas := d.sigmas, ndata := d.ndata, usingGlobals := true,
                       prdxns := none })

/-- Use the handler of predictor `p` of instance `k`. -/
def Sys.on (s : Sys K) (k p : ℕ) (f : PredH K → Res (Sys K)) : Res (Sys K) :=
  match s.pred k p with
  | none => raise .attribute s
  | some h => f h

/-- `localize_data`, gaussian.py:44-48. -/
def Sys.localize (s : Sys K) (k p : ℕ) : Res (Sys K) :=
  s.on k p fun h =>
    if h.usingGlobals then
      let (s, a) := s.alloc (s.heap h.locns)
      let (s, b) := s.alloc (s.heap h.vals)
      let (s, c) := s.alloc (s.heap h.sigmas)
      ok (s.setP k p { h with locns := a, vals := b, sigmas := c, usingGlobals := false })
    else ok s

/-- `changing_data`, gaussian.py:59-61. -/
def Sys.changingData (s : Sys K) (k p : ℕ) : Res (Sys K) :=
  (s.localize k p).andThen fun s => s.on k p fun h => ok (s.setP k p { h with prdxns := none })

/-- `get_prdxns`, gaussian.py:69-76, with `_on_use`, signalmodel.py. The model reads its parameters, which installs
missing defaults. -/
def Sys.getPrdxns (m : Model K) (s : Sys K) (k p : ℕ) : Res (Sys K) :=
  s.on k p fun h =>
    let s := s.note k [.use ((s.inf k).read m.cfg)]
    (s.onInf k (Inf.accessAll m.cfg m.reads)).andThen fun s =>
      let θ := (s.inf k).read m.cfg
      let l := (s.heap h.locns).data
      let s := s.note k [.eval θ l]
      match m.signals θ l with
      | some r => ok (s.setP k p { h with prdxns := some r })
      | none => ok (s.setP k p { h with prdxns := some (l.map (m.signal θ)) })

/-- `sum(((vals - prdxns)/sigmas)**2)`, gaussian.py:82-83 and 90-91. -/
def Sys.sumSq (s : Sys K) (h : PredH K) : Except Err K :=
  match h.prdxns with
  | none => .error .type
  | some pr =>
    match bcast (· - ·) (s.heap h.vals).data pr with
    | none => .error .value
    | some r =>
      match bcast (· / ·) r (s.heap h.sigmas).data with
      | none => .error .value
      | some q => .ok (q.map (· ^ 2)).sum

/-- `log_like`, gaussian.py:78-84, called on the predictor (`inst.p.log_like()`). -/
def Sys.logLike (m : Model K) (s : Sys K) (k p : ℕ) : Sys K × Except Err K :=
  match (s.access k p).andThen (fun s => s.getPrdxns m k p) with
  | (s, some e) => (s, .error e)
  | (s, none) =>
    match s.pred k p with
    | none => (s, .error .attribute)
    | some h => (s, (s.sumSq h).map fun x => -(1 / 2) * x)

/-- `chisqr`, gaussian.py:86-92. -/
def Sys.chisqr (m : Model K) (s : Sys K) (k p : ℕ) : Sys K × Except Err K :=
  match (s.access k p).andThen (fun s => s.getPrdxns m k p) with
  | (s, some e) => (s, .error e)
  | (s, none) =>
    match s.pred k p with
    | none => (s, .error .attribute)
    | some h => (s, s.sumSq h)

/-- The accumulation loops of the scores: bayes.py:37-39, maxlike.py:20-22, chisqr.py:21-23. -/
def Sys.sumOver (f : Sys K → ℕ → Sys K × Except Err K) : List ℕ → K → Sys K → Sys K × Except Err K
  | [], acc, s => (s, .ok acc)
  | p :: l, acc, s =>
    match f s p with
    | (s, .error e) => (s, .error e)
    | (s, .ok x) => Sys.sumOver f l (acc + x) s

/-- `MaxLikeInference.score`, maxlike.py:16-23. -/
def Sys.maxLikeScore (m : Model K) (names : List ℕ) (s : Sys K) (k : ℕ) : Sys K × Except Err K :=
  Sys.sumOver (fun s p => s.logLike m k p) names 0 s

/-- `ChisqrInference.score`, chisqr.py:15-24. -/
def Sys.chisqrScore (m : Model K) (names : List ℕ) (s : Sys K) (k : ℕ) : Sys K × Except Err K :=
  Sys.sumOver (fun s p => s.chisqr m k p) names 0 s

/-- `BayesianInference.score`, bayes.py:29-41. (`log_prior` is taken to read the parameters without side effects.) -/
def Sys.bayesScore (m : Model K) (names : List ℕ) (s : Sys K) (k : ℕ) : Sys K × Except Err K :=
  match Sys.sumOver (fun s p => s.logLike m k p) names 0 s with
  | (s, .error e) => (s, .error e)
  | (s, .ok x) => (s, .ok (x + m.logPrior ((s.inf k).read m.cfg)))

/-- An argument `locns` or `sigmas`: a newly made sequence, or one that exists already. -/
inductive Arg (K : Type)
  | fresh (o : Obj K)
  | ref (a : ℕ)

/-- Evaluate an optional argument to an address. -/
def Sys.withArg (s : Sys K) (a : Option (Arg K)) (f : Sys K → Option ℕ → Res (Sys K)) : Res (Sys K) :=
  match a with
  | none => f s none
  | some (.fresh o) => let (s, a) := s.alloc o; f s (some a)
  | some (.ref a) => if a < s.next then f s (some a) else raise .name s

/-- Python truth of an optional sequence: `None` is false; a list is true iff not empty; a NumPy array of more than one
element raises `ValueError`. -/
def Sys.truth (s : Sys K) : Option ℕ → Except Err Bool
  | none => .ok false
  | some a =>
    let o := s.heap a
    if o.isArray then
      match o.data with
      | [] => .ok false
      | [x] => .ok (x ≠ 0)
      | _ => .error .value
    else .ok (!o.data.isEmpty)

/-- Length of the sequence at an address. -/
def Sys.len (s : Sys K) (a : ℕ) : ℕ := (s.heap a).data.length

/-- The last two statements of `sim`, gaussian.py:126-128; `noise` are the standard normal draws. -/
def Sys.simDraw (m : Model K) (s : Sys K) (k p : ℕ) (noise : ℕ → K) : Res (Sys K) :=
  (s.getPrdxns m k p).andThen fun s => s.on k p fun h =>
    match h.prdxns with
    | none => raise .type s
    | some pr =>
      match bcast (· * ·) (s.heap h.sigmas).data ((List.range h.ndata).map noise) with
      | none => raise .value s
      | some e =>
        match bcast (· + ·) pr e with
        | none => raise .value s
        | some v =>
          let (s, a) := s.alloc { isArray := true, data := v }
          ok (s.setP k p { h with vals := a })

/-- `sim`, gaussian.py:94-128. -/
def Sys.sim (m : Model K) (s : Sys K) (k p : ℕ) (locns sigmas : Option (Arg K)) (noise : ℕ → K) : Res (Sys K) :=
  (s.access k p).andThen fun s => s.withArg locns fun s l => s.withArg sigmas fun s g =>
    (s.changingData k p).andThen fun s => s.on k p fun h =>
      match s.truth l with
      | .error e => raise e s
      | .ok true =>
        match s.truth g with
        | .error e => raise e s
        | .ok true =>
          match l, g with
          | some l, some g =>
            if s.len l ≠ s.len g then raise .value s
            else (s.setP k p { h with locns := l, sigmas := g }).simDraw m k p noise
          | _, _ => raise .type s
        | .ok false =>
          match l with
          | some l =>
            if s.len l ≠ h.ndata then raise .value s
            else (s.setP k p { h with locns := l }).simDraw m k p noise
          | none => raise .type s
      | .ok false =>
        match s.truth g with
        | .error e => raise e s
        | .ok true =>
          match g with
          | some g =>
            if s.len g ≠ h.ndata then raise .value s
            else (s.setP k p { h with sigmas := g }).simDraw m k p noise
          | none => raise .type s
        | .ok false => s.simDraw m k p noise

/-- In-place item assignment `seq[n] = v`. -/
def Sys.writeAt (s : Sys K) (a : ℕ) (n : ℤ) (v : K) : Res (Sys K) :=
  let o := s.heap a
  match pyIndex o.data.length n with
  | none => raise .index s
  | some i => ok { s with heap := Function.update s.heap a { o with data := o.data.set i v } }

/-- `if x: seq[n] = x` for an optional number: `None` and zero are false. -/
def Sys.writeIf (s : Sys K) (a : ℕ) (n : ℤ) (v : Option K) : Res (Sys K) :=
  match v with
  | none => ok s
  | some v => if v = 0 then ok s else s.writeAt a n v

/-- Item access `seq[n]`. -/
def item (l : List K) (n : ℤ) : Option K := (pyIndex l.length n).bind (l[·]?)

/-- `sim1`, gaussian.py:135-148; `z` is the standard normal draw. -/
def Sys.sim1 (m : Model K) (s : Sys K) (k p : ℕ) (n : ℤ) (locn sigma : Option K) (z : K) : Res (Sys K) :=
  (s.access k p).andThen fun s => (s.changingData k p).andThen fun s => s.on k p fun h =>
    (s.writeIf h.locns n locn).andThen fun s =>
    (s.writeIf h.sigmas n sigma).andThen fun s =>
    (s.getPrdxns m k p).andThen fun s => s.on k p fun h =>
      match h.prdxns with
      | none => raise .type s
      | some pr =>
        match item pr n with
        | none => raise .index s
        | some x =>
          match item (s.heap h.sigmas).data n with
          | none => raise .index s
          | some g => s.writeAt h.vals n (x + g * z)

/-- `len(self.locns)` added to `ndata`, the shape test and the predictions, gaussian.py:172-180. -/
def Sys.addTail (m : Model K) (s : Sys K) (k p : ℕ) : Res (Sys K) :=
  s.on k p fun h =>
    let s := s.setP k p { h with ndata := h.ndata + s.len h.locns }
    if (s.heap h.locns).isArray then s.getPrdxns m k p else raise .attribute s

/-- Python truth of an optional number. -/
def truthy (x : Option K) : Bool :=
  match x with
  | none => false
  | some x => x ≠ 0

/-- `concatenate((self.locns, l))`, `concatenate((self.sigmas, g))` and `ndata += n`, gaussian.py:163-165, 169-171. -/
def Sys.extend (s : Sys K) (k p : ℕ) (l g : List K) : Res (Sys K) :=
  s.on k p fun h =>
    let (s, a) := s.alloc { isArray := true, data := (s.heap h.locns).data ++ l }
    let (s, b) := s.alloc { isArray := true, data := (s.heap h.sigmas).data ++ g }
    ok (s.setP k p { h with ndata := h.ndata + l.length, locns := a, sigmas := b })

/-- `add_sim`, gaussian.py:150-180. -/
def Sys.addSim (m : Model K) (s : Sys K) (k p : ℕ) (locn sigma : Option K) (locns sigmas : Option (Arg K)) :
    Res (Sys K) :=
  (s.access k p).andThen fun s => s.withArg locns fun s l => s.withArg sigmas fun s g =>
    (s.changingData k p).andThen fun s =>
      match locn, sigma with
      | some x, some y =>
        if truthy (some x) && truthy (some y) then (s.extend k p [x] [y]).andThen fun s => s.addTail m k p
        else addMany s l g
      | _, _ => addMany s l g
where
  addMany (s : Sys K) (l g : Option ℕ) : Res (Sys K) :=
    match s.truth l with
    | .error e => raise e s
    | .ok false => s.addTail m k p
    | .ok true =>
      match s.truth g with
      | .error e => raise e s
      | .ok false => s.addTail m k p
      | .ok true =>
        match l, g with
        | some l, some g =>
          if s.len l ≠ s.len g then raise .value s
          else (s.extend k p (s.heap l).data (s.heap g).data).andThen fun s => s.addTail m k p
        | _, _ => raise .type s

/-- What a user can do with predictor `p` of an instance. -/
inductive POp (K : Type)
  | get
  | localize
  | sim (locns sigmas : Option (Arg K)) (noise : ℕ → K)
  | sim1 (n : ℤ) (locn sigma : Option K) (z : K)
  | addSim (locn sigma : Option K) (locns sigmas : Option (Arg K))
  | logLike
  | chisqr

/-- What a user can do with instances: a parameter operation, or a predictor operation, on instance `k`. -/
inductive SOp (K : Type)
  | param (k : ℕ) (op : Op K)
  | pred (k p : ℕ) (op : POp K)

/-- The instance an action is aimed at. -/
def SOp.inst : SOp K → ℕ
  | .param k _ => k
  | .pred k _ _ => k

/-- Outcome of a call whose returned number is dropped. -/
def dropValue (r : Sys K × Except Err K) : Res (Sys K) :=
  (r.1, match r.2 with | .ok _ => none | .error e => some e)

/-- Execute a predictor operation. -/
def Sys.pstep (m : Model K) (s : Sys K) (k p : ℕ) : POp K → Res (Sys K)
  | .get => s.access k p
  | .localize => (s.access k p).andThen fun s => s.localize k p
  | .sim l g z => s.sim m k p l g z
  | .sim1 n l g z => s.sim1 m k p n l g z
  | .addSim x y l g => s.addSim m k p x y l g
  | .logLike => dropValue (s.logLike m k p)
  | .chisqr => dropValue (s.chisqr m k p)

/-- Execute a user action. -/
def Sys.step (m : Model K) (s : Sys K) : SOp K → Res (Sys K)
  | .param k op => s.onInf k fun i => i.step m.cfg op
  | .pred k p op => s.pstep m k p op

/-- Execute a history; the user catches every exception and goes on. -/
def Sys.run (m : Model K) (s : Sys K) (ops : List (SOp K)) : Sys K := ops.foldl (fun s op => (s.step m op).1) s

/-- The data of a predictor declaration: three equally long arrays, gaussian.py:249-253 and 278-280 (`set_data` with
three array arguments; `DataError` otherwise). -/
structure Data (K : Type) where
  locns : List K
  vals : List K
  sigmas : List K

/-- `set_data`, gaussian.py:249-253, 278. -/
def Data.declare (d : Data K) : Except Err (Data K × ℕ) :=
  if d.locns.length ≠ d.vals.length ∨ d.vals.length ≠ d.sigmas.length then .error .data
  else .ok (d, d.vals.length)

/-- The state after the class with predictors `ds` has been defined: the declarations hold the arrays. -/
def Sys.init (ds : List (Data K)) : Sys K :=
  { heap := fun a =>
      let d := ds.getD (a / 3) ⟨[], [], []⟩
      { isArray := true, data := if a % 3 = 0 then d.locns else if a % 3 = 1 then d.vals else d.sigmas }
    next := 3 * ds.length
    decl := fun p =>
      ds[p]?.map fun d => { locns := 3 * p, vals := 3 * p + 1, sigmas := 3 * p + 2, ndata := d.vals.length } }

end Verif.Pie
