import Verif.Common
import Mathlib.Analysis.SpecialFunctions.Sqrt
import Mathlib.Data.Real.Basic

/-!
# Observed information

Model of `package/inference/deriv/_obsinfo.f` and `package/inference/deriv/obsinfo.py`.

Doubles are real numbers.  Arrays are functions of an index that starts at one, as in the Fortran code; only entries inside the array have a meaning.  The log likelihood is a Python function that
may raise: the wrapper then leaves the Fortran routine at once.  The arrays for the mode and the guesses are NumPy arrays of doubles, which the wrapper passes without a copy, so that what the
routine stores in them is seen by the caller; for other sequences the wrapper makes a copy.  Where the code would go on with a value that is not a finite number (a division by zero, the root of a
negative number) the model stops.
-/

set_option linter.unusedSectionVars false

namespace Verif.Obs

/-- The contents of an array. -/
abbrev Vec := ℕ → ℝ

/-- A log likelihood: it returns a number or raises. -/
abbrev LogF := Vec → Except Err ℝ

/-- Why a routine did not finish. -/
inductive Stop
  /-- the log likelihood raised, and the exception is passed on -/
  | raised (e : Err)
  /-- a value is not a finite number -/
  | nonFinite

/-- Store an entry of a vector. -/
def put (x : Vec) (i : ℕ) (v : ℝ) : Vec := fun k => if k = i then v else x k

/-- Store an entry of a matrix. -/
def put2 (A : ℕ → ℕ → ℝ) (i j : ℕ) (v : ℝ) : ℕ → ℕ → ℝ := fun k l => if k = i ∧ l = j then v else A k l

/-! ## Extrapolation -/

/-- The variables of `rid_ex`. -/
structure Rid where
  a : ℕ → ℕ → ℝ
  err : ℝ
  result : ℝ

/-- deriv/_obsinfo.f:310-318: the loop over `j`, from `j` for `cnt` values, with `fac` at its value there. -/
noncomputable def ridIn (con2 : ℝ) (i : ℕ) : ℕ → ℕ → ℝ → Rid → Rid
  | 0, _, _, s => s
  | cnt + 1, j, fac, s =>
    let v := (s.a (j - 1) i * fac - s.a (j - 1) (i - 1)) / (fac - 1)
    let a := put2 s.a j i v
    let errt := max |v - a (j - 1) i| |v - a (j - 1) (i - 1)|
    ridIn con2 i cnt (j + 1) (con2 * fac) (if errt ≤ s.err then ⟨a, errt, v⟩ else ⟨a, s.err, s.result⟩)

/-- deriv/_obsinfo.f:306-320: the loop over `i`, from `i` for `cnt` values.  The step size `hh` is computed there but not used. -/
noncomputable def ridOut (con2 : ℝ) (y : Vec) (n : ℕ) : ℕ → ℕ → Rid → Rid
  | 0, _, s => s
  | cnt + 1, i, s =>
    let s := ridIn con2 i (i - 1) 2 con2 { s with a := put2 s.a 1 i (y (n - i + 1)) }
    if 2 * s.err ≤ |s.a i i - s.a (i - 1) (i - 1)| then s else ridOut con2 y n cnt (i + 1) s

/-- deriv/_obsinfo.f:281-323, `rid_ex`.  `junk` are the contents of the work array and of the variable for the result on entry.  The argument for the step size is not used. -/
noncomputable def ridEx (rat : ℝ) (y : Vec) (n : ℕ) (junk : (ℕ → ℕ → ℝ) × ℝ) : Rid :=
  let con := 1 / rat
  let con2 := con * con
  ridOut con2 y n (n - 1) 2 ⟨put2 junk.1 1 1 (y n), 10 ^ 30, junk.2⟩

/-! ## The information matrix -/

/-- deriv/_obsinfo.f:203: the factor between step sizes. -/
noncomputable def ratio : ℝ := 707 / 1000

/-- deriv/_obsinfo.f:214-220 and 246-254: second differences for the steps `h k`, from `k` for `cnt` values.  `move t` stores the point at distance `t` from the mode, along the axis or the diagonal.
The results are the contents of the mode array and the differences. -/
noncomputable def diffs (lf : LogF) (lfmax : ℝ) (move : ℝ → Vec → Vec) (h : ℕ → ℝ) : ℕ → ℕ → Vec → Vec → Vec × Except Stop Vec
  | 0, _, mu, d => (mu, .ok d)
  | cnt + 1, k, mu, d =>
    let mu := move (h k) mu
    match lf mu with
    | .error e => (mu, .error (.raised e))
    | .ok f1 =>
      let mu := move (-(h k)) mu
      match lf mu with
      | .error e => (mu, .error (.raised e))
      | .ok f2 => if h k = 0 then (mu, .error .nonFinite) else diffs lf lfmax move h cnt (k + 1) mu (put d k ((f1 + f2 - 2 * lfmax) / h k ^ 2))

/-- deriv/_obsinfo.f:223-230 and 258-270: the extrapolated difference and its error. -/
noncomputable def extrap (iter : ℕ) (d : Vec) (junk : (ℕ → ℕ → ℝ) × ℝ) : ℝ × ℝ :=
  if iter > 1 then ((ridEx ratio d iter junk).result, (ridEx ratio d iter junk).err) else (d 1, 0)

/-- The information matrix and its errors. -/
structure Info where
  info : ℕ → ℕ → ℝ
  ierr : ℕ → ℕ → ℝ

/-- What is found in uninitialised memory. -/
structure Junk where
  rid : (ℕ → ℕ → ℝ) × ℝ
  d2f : Vec

/-- deriv/_obsinfo.f:210-234: the loop over the diagonal, from `i` for `cnt` values. -/
noncomputable def diag (lf : LogF) (lfmax : ℝ) (dp : Vec) (iter : ℕ) (junk : Junk) : ℕ → ℕ → Vec → Info → Vec × Except Stop Info
  | 0, _, mu, s => (mu, .ok s)
  | cnt + 1, i, mu, s =>
    let mu1 := mu i
    match diffs lf lfmax (fun t mu => put mu i (mu1 + t)) (fun j => dp i * ratio ^ (iter - j)) iter 1 mu junk.d2f with
    | (mu, .error e) => (mu, .error e)
    | (mu, .ok d) =>
      let (x, di) := extrap iter d junk.rid
      diag lf lfmax dp iter junk cnt (i + 1) (put mu i mu1) ⟨put2 s.info i i (-x), put2 s.ierr i i |di|⟩

/-- deriv/_obsinfo.f:240-273: the loop over `j`, from `j` for `cnt` values. -/
noncomputable def mixed (lf : LogF) (lfmax : ℝ) (iter : ℕ) (junk : Junk) (i : ℕ) (mu1 sig1 : ℝ) : ℕ → ℕ → Vec → Info → Vec × Except Stop Info
  | 0, _, mu, s => (mu, .ok s)
  | cnt + 1, j, mu, s =>
    let mu2 := mu j
    if s.info j j ≤ 0 then (mu, .error .nonFinite)
    else
      let sig2 := 1 / √(s.info j j)
      match diffs lf lfmax (fun t mu => put (put mu i (mu1 + t * sig1)) j (mu2 + t * sig2)) (fun k => ratio ^ (iter - k)) iter 1 mu junk.d2f with
      | (mu, .error e) => (mu, .error e)
      | (mu, .ok d) =>
        let (x, di) := extrap iter d junk.rid
        let v := -(1 / 2) * (x + 2) / (sig1 * sig2)
        let e := 1 / 2 * |di| / (sig1 * sig2)
        mixed lf lfmax iter junk i mu1 sig1 cnt (j + 1) (put mu j mu2) ⟨put2 (put2 s.info i j v) j i v, put2 (put2 s.ierr i j e) j i e⟩

/-- deriv/_obsinfo.f:237-275: the loop over `i`, from `i` for `cnt` values. -/
noncomputable def pairs (lf : LogF) (lfmax : ℝ) (n iter : ℕ) (junk : Junk) : ℕ → ℕ → Vec → Info → Vec × Except Stop Info
  | 0, _, mu, s => (mu, .ok s)
  | cnt + 1, i, mu, s =>
    let mu1 := mu i
    if s.info i i ≤ 0 then (mu, .error .nonFinite)
    else
      match mixed lf lfmax iter junk i mu1 (1 / √(s.info i i)) (n - i) (i + 1) mu s with
      | (mu, .error e) => (mu, .error e)
      | (mu, .ok s) => pairs lf lfmax n iter junk cnt (i + 1) (put mu i mu1) s

/-- deriv/_obsinfo.f:121-278, `ninfol`, for `iter` at least one.  The results are the contents of the mode array on exit, and the matrices. -/
noncomputable def ninfol (lf : LogF) (n : ℕ) (mu : Vec) (lfmax : ℝ) (dp : Vec) (iter : ℕ) (junk : Junk) : Vec × Except Stop Info :=
  match diag lf lfmax dp iter junk n 1 mu ⟨fun _ _ => 0, fun _ _ => 0⟩ with
  | (mu, .error e) => (mu, .error e)
  | (mu, .ok s) => pairs lf lfmax n iter junk (n - 1) 1 mu s

/-- deriv/obsinfo.py:38-69, `obsinfo`. -/
noncomputable def obsinfo (lf : LogF) (n : ℕ) (mle deltas : Vec) (maxll : Option ℝ) (niter : ℕ) (junk : Junk) : Vec × Except Stop Info :=
  match maxll.elim (lf mle) .ok with
  | .error e => (mle, .error (.raised e))
  | .ok m => ninfol lf n mle m deltas (niter + 1) junk

/-! ## Scales -/

/-- What `pk_scales` does besides changing the arrays: it returns a status, or does not get there. -/
inductive Status
  | done | notMax | maxIter
  | stop (s : Stop)
  deriving Inhabited

/-- deriv/_obsinfo.f:74-85: the search for a point below the maximum, with at most `fuel` trials.  The results are the mode array, the factor and the function value. -/
noncomputable def guess (f : LogF) (fmax : ℝ) (i : ℕ) (x0 dxi : ℝ) : ℕ → ℝ → Vec → Option (Vec × Except Status (ℝ × ℝ))
  | 0, _, _ => none
  | fuel + 1, s, x =>
    let x := put x i (x0 + s * dxi)
    match f x with
    | .error e => some (x, .error (.stop (.raised e)))
    | .ok fnew =>
      if fnew > fmax then some (x, .error .notMax)
      else if fmax - fnew ≤ 0 then guess f fmax i x0 dxi fuel (13 / 10 * s) x
      else some (x, .ok (s, fmax - fnew))

/-- deriv/_obsinfo.f:90-112: the iterations, from the one with number `nit`; `left` is what is left of `maxnr`. -/
noncomputable def newton (f : LogF) (fmax fc tol : ℝ) (i : ℕ) (step : ℝ) : ℕ → Vec → Vec × Status
  | left, x =>
    match f x with
    | .error e => (x, .stop (.raised e))
    | .ok fnew =>
      if fnew > fmax then (x, .notMax)
      else
        match left with
        | 0 => (x, .maxIter)
        | left + 1 =>
          if |fnew - fc| > tol then
            let x := put x i (x i + step)
            match f x with
            | .error e => (x, .stop (.raised e))
            | .ok fp =>
              if fp > fmax then (x, .notMax)
              else if step = 0 ∨ fp - fnew = 0 then (x, .stop .nonFinite)
              else newton f fmax fc tol i step left (put x i (x i - step - (fnew - fc) / ((fp - fnew) / step)))
          else (x, .done)

/-- deriv/_obsinfo.f:69-115: the loop over the parameters, from `i` for `cnt` values.  The results are the mode array, the scales, and the status; none if a search needs more trials than `fuel`. -/
noncomputable def scales (fuel : ℕ) (f : LogF) (fmax df : ℝ) (maxnr : ℕ) (tol : ℝ) : ℕ → ℕ → Vec → Vec → Option (Vec × Vec × Status)
  | 0, _, x, dx => some (x, dx, .done)
  | cnt + 1, i, x, dx =>
    let x0 := x i
    match guess f fmax i x0 (dx i) fuel 1 x with
    | none => none
    | some (x, .error st) => some (x, dx, st)
    | some (x, .ok (s, del)) =>
      if df < 0 then some (x, dx, .stop .nonFinite)
      else
        match newton f fmax (fmax - df) tol i (s * dx i) maxnr (put x i (x0 + s * dx i * √(df / del))) with
        | (x, .done) => scales fuel f fmax df maxnr tol cnt (i + 1) (put x i x0) (put dx i (x i - x0))
        | (x, st) => some (x, dx, st)

/-- deriv/obsinfo.py:11-35, `dllsteps`.  The results are the contents of the two arrays of the caller, and the scales or an exception (the result is the array with the guesses itself). -/
noncomputable def dllsteps (fuel : ℕ) (f : LogF) (n : ℕ) (mle gs : Vec) (dll : ℝ) (maxll : Option ℝ) (maxiter : ℕ) (tol : ℝ) : Option (Vec × Vec × Except Stop Vec) :=
  match maxll.elim (f mle) .ok with
  | .error e => some (mle, gs, .error (.raised e))
  | .ok m =>
    match scales fuel f m dll maxiter tol n 1 mle gs with
    | none => none
    | some (x, dx, .done) => some (x, dx, .ok dx)
    | some (x, dx, .notMax) => some (x, dx, .error (.raised .value))
    | some (x, dx, .maxIter) => some (x, dx, .error (.raised .runtime))
    | some (x, dx, .stop s) => some (x, dx, .error s)

end Verif.Obs
