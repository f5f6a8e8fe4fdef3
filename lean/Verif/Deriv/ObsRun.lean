import Verif.Deriv.ObsInfo

/-!
# Observed information of a function with a state

The routines of `package/inference/deriv/_obsinfo.f` once more, for a log likelihood whose calls change the state `σ` of some object (as `BayesianInference._logp_func` does).  The control flow and the
numbers are those of `Verif/Deriv/ObsInfo.lean`; the state is passed from each call to the next.
-/

set_option linter.unusedSectionVars false

namespace Verif.Obs

variable {σ : Type}

/-- A log likelihood that changes a state. -/
abbrev LogS (σ : Type) := Vec → σ → σ × Except Err ℝ

/-- deriv/_obsinfo.f:214-220 and 246-254, as `diffs`. -/
noncomputable def diffsS (lf : LogS σ) (lfmax : ℝ) (move : ℝ → Vec → Vec) (h : ℕ → ℝ) : ℕ → ℕ → Vec → Vec → σ → σ × Vec × Except Stop Vec
  | 0, _, mu, d, st => (st, mu, .ok d)
  | cnt + 1, k, mu, d, st =>
    let mu := move (h k) mu
    match lf mu st with
    | (st, .error e) => (st, mu, .error (.raised e))
    | (st, .ok f1) =>
      let mu := move (-(h k)) mu
      match lf mu st with
      | (st, .error e) => (st, mu, .error (.raised e))
      | (st, .ok f2) => if h k = 0 then (st, mu, .error .nonFinite) else diffsS lf lfmax move h cnt (k + 1) mu (put d k ((f1 + f2 - 2 * lfmax) / h k ^ 2)) st

/-- deriv/_obsinfo.f:210-234, as `diag`. -/
noncomputable def diagS (lf : LogS σ) (lfmax : ℝ) (dp : Vec) (iter : ℕ) (junk : Junk) : ℕ → ℕ → Vec → Info → σ → σ × Vec × Except Stop Info
  | 0, _, mu, s, st => (st, mu, .ok s)
  | cnt + 1, i, mu, s, st =>
    let mu1 := mu i
    match diffsS lf lfmax (fun t mu => put mu i (mu1 + t)) (fun j => dp i * ratio ^ (iter - j)) iter 1 mu junk.d2f st with
    | (st, mu, .error e) => (st, mu, .error e)
    | (st, mu, .ok d) =>
      let (x, di) := extrap iter d junk.rid
      diagS lf lfmax dp iter junk cnt (i + 1) (put mu i mu1) ⟨put2 s.info i i (-x), put2 s.ierr i i |di|⟩ st

/-- deriv/_obsinfo.f:240-273, as `mixed`. -/
noncomputable def mixedS (lf : LogS σ) (lfmax : ℝ) (iter : ℕ) (junk : Junk) (i : ℕ) (mu1 sig1 : ℝ) : ℕ → ℕ → Vec → Info → σ → σ × Vec × Except Stop Info
  | 0, _, mu, s, st => (st, mu, .ok s)
  | cnt + 1, j, mu, s, st =>
    let mu2 := mu j
    if s.info j j ≤ 0 then (st, mu, .error .nonFinite)
    else
      let sig2 := 1 / √(s.info j j)
      match diffsS lf lfmax (fun t mu => put (put mu i (mu1 + t * sig1)) j (mu2 + t * sig2)) (fun k => ratio ^ (iter - k)) iter 1 mu junk.d2f st with
      | (st, mu, .error e) => (st, mu, .error e)
      | (st, mu, .ok d) =>
        let (x, di) := extrap iter d junk.rid
        let v := -(1 / 2) * (x + 2) / (sig1 * sig2)
        let e := 1 / 2 * |di| / (sig1 * sig2)
        mixedS lf lfmax iter junk i mu1 sig1 cnt (j + 1) (put mu j mu2) ⟨put2 (put2 s.info i j v) j i v, put2 (put2 s.ierr i j e) j i e⟩ st

/-- deriv/_obsinfo.f:237-275, as `pairs`. -/
noncomputable def pairsS (lf : LogS σ) (lfmax : ℝ) (n iter : ℕ) (junk : Junk) : ℕ → ℕ → Vec → Info → σ → σ × Vec × Except Stop Info
  | 0, _, mu, s, st => (st, mu, .ok s)
  | cnt + 1, i, mu, s, st =>
    let mu1 := mu i
    if s.info i i ≤ 0 then (st, mu, .error .nonFinite)
    else
      match mixedS lf lfmax iter junk i mu1 (1 / √(s.info i i)) (n - i) (i + 1) mu s st with
      | (st, mu, .error e) => (st, mu, .error e)
      | (st, mu, .ok s) => pairsS lf lfmax n iter junk cnt (i + 1) (put mu i mu1) s st

/-- deriv/_obsinfo.f:121-278, as `ninfol`. -/
noncomputable def ninfolS (lf : LogS σ) (n : ℕ) (mu : Vec) (lfmax : ℝ) (dp : Vec) (iter : ℕ) (junk : Junk) (st : σ) : σ × Vec × Except Stop Info :=
  match diagS lf lfmax dp iter junk n 1 mu ⟨fun _ _ => 0, fun _ _ => 0⟩ st with
  | (st, mu, .error e) => (st, mu, .error e)
  | (st, mu, .ok s) => pairsS lf lfmax n iter junk (n - 1) 1 mu s st

/-- deriv/obsinfo.py:38-69, `obsinfo`, when the maximum is given. -/
noncomputable def obsinfoS (lf : LogS σ) (n : ℕ) (mle deltas : Vec) (maxll : ℝ) (niter : ℕ) (junk : Junk) (st : σ) : σ × Vec × Except Stop Info :=
  ninfolS lf n mle maxll deltas (niter + 1) junk st

/-- deriv/_obsinfo.f:74-85, as `guess`. -/
noncomputable def guessS (f : LogS σ) (fmax : ℝ) (i : ℕ) (x0 dxi : ℝ) : ℕ → ℝ → Vec → σ → Option (σ × Vec × Except Status (ℝ × ℝ))
  | 0, _, _, _ => none
  | fuel + 1, s, x, st =>
    let x := put x i (x0 + s * dxi)
    match f x st with
    | (st, .error e) => some (st, x, .error (.stop (.raised e)))
    | (st, .ok fnew) =>
      if fnew > fmax then some (st, x, .error .notMax)
      else if fmax - fnew ≤ 0 then guessS f fmax i x0 dxi fuel (13 / 10 * s) x st
      else some (st, x, .ok (s, fmax - fnew))

/-- deriv/_obsinfo.f:90-112, as `newton`. -/
noncomputable def newtonS (f : LogS σ) (fmax fc tol : ℝ) (i : ℕ) (step : ℝ) : ℕ → Vec → σ → σ × Vec × Status
  | left, x, st =>
    match f x st with
    | (st, .error e) => (st, x, .stop (.raised e))
    | (st, .ok fnew) =>
      if fnew > fmax then (st, x, .notMax)
      else
        match left with
        | 0 => (st, x, .maxIter)
        | left + 1 =>
          if |fnew - fc| > tol then
            let x := put x i (x i + step)
            match f x st with
            | (st, .error e) => (st, x, .stop (.raised e))
            | (st, .ok fp) =>
              if fp > fmax then (st, x, .notMax)
              else if step = 0 ∨ fp - fnew = 0 then (st, x, .stop .nonFinite)
              else newtonS f fmax fc tol i step left (put x i (x i - step - (fnew - fc) / ((fp - fnew) / step))) st
          else (st, x, .done)

/-- deriv/_obsinfo.f:69-115, as `scales`. -/
noncomputable def scalesS (fuel : ℕ) (f : LogS σ) (fmax df : ℝ) (maxnr : ℕ) (tol : ℝ) : ℕ → ℕ → Vec → Vec → σ → Option (σ × Vec × Vec × Status)
  | 0, _, x, dx, st => some (st, x, dx, .done)
  | cnt + 1, i, x, dx, st =>
    let x0 := x i
    match guessS f fmax i x0 (dx i) fuel 1 x st with
    | none => none
    | some (st, x, .error e) => some (st, x, dx, e)
    | some (st, x, .ok (s, del)) =>
      if df < 0 then some (st, x, dx, .stop .nonFinite)
      else
        match newtonS f fmax (fmax - df) tol i (s * dx i) maxnr (put x i (x0 + s * dx i * √(df / del))) st with
        | (st, x, .done) => scalesS fuel f fmax df maxnr tol cnt (i + 1) (put x i x0) (put dx i (x i - x0)) st
        | (st, x, e) => some (st, x, dx, e)

/-- deriv/obsinfo.py:11-35, `dllsteps`, when the maximum is given. -/
noncomputable def dllstepsS (fuel : ℕ) (f : LogS σ) (n : ℕ) (mle gs : Vec) (dll maxll : ℝ) (maxiter : ℕ) (tol : ℝ) (st : σ) : Option (σ × Vec × Vec × Except Stop Vec) :=
  match scalesS fuel f maxll dll maxiter tol n 1 mle gs st with
  | none => none
  | some (st, x, dx, .done) => some (st, x, dx, .ok dx)
  | some (st, x, dx, .notMax) => some (st, x, dx, .error (.raised .value))
  | some (st, x, dx, .maxIter) => some (st, x, dx, .error (.raised .runtime))
  | some (st, x, dx, .stop s) => some (st, x, dx, .error s)

end Verif.Obs
