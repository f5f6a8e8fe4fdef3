import Verif.Common
import Mathlib.Data.Real.Sqrt
import Mathlib.Algebra.BigOperators.Fin

/-!
# Linear regressions

Models sandbox/regress/_regress.f and sandbox/regress/regress.py.  An array is a function of its (zero based) index.  Arithmetic is exact.  A number that is not finite is `none`; where a division is not guarded by the code, the theorems show that its denominator is not zero or the model says what happens.  The conversion of sequences to arrays and `import Float` are not modelled.
-/

set_option linter.unusedSectionVars false

namespace Verif.Regress

open Real

/-- `S = 0`, then `do i=1,n: S = S + f(i)`: the accumulation loops of _regress.f. -/
def tot (n : ℕ) (f : ℕ → ℝ) : ℝ := (List.range n).foldl (fun s i => s + f i) 0

/-- The sign of `Sxy`: _regress.f:65-69, 390-391. -/
noncomputable def sgn (s : ℝ) : ℝ := if s < 0 then -1 else 1

/-- The square root of an array, `NaN` where the argument is negative. -/
noncomputable def fsqrt (v : ℝ) : Option ℝ := if v < 0 then none else some √v

/-- Slope of the bisector: _regress.f:62-64, 397-398. -/
noncomputable def bisSlope (b1 b2 : ℝ) : ℝ := (b1 * b2 - 1 + √((1 + b1 ^ 2) * (1 + b2 ^ 2))) / (b1 + b2)

/-- Slope of the orthogonal line: _regress.f:70-71, 399-400. -/
noncomputable def orthSlope (sign b1 b2 : ℝ) : ℝ := 1 / 2 * (b2 - 1 / b1 + sign * √(4 + (b2 - 1 / b1) ^ 2))

/-- The slopes: _regress.f:395-402. -/
noncomputable def slopes (sign b1 b2 : ℝ) : Fin 6 → ℝ :=
  ![b1, b2, bisSlope b1 b2, orthSlope sign b1 b2, sign * √(b1 * b2), 1 / 2 * (b1 + b2)]

/-- `Gam1`: _regress.f:412-413. -/
noncomputable def gam1 (b1 b2 b3 : ℝ) : ℝ := b3 / ((b1 + b2) * √((1 + b1 ^ 2) * (1 + b2 ^ 2)))

/-- `Gam2`: _regress.f:414. -/
noncomputable def gam2 (b1 b2 b4 : ℝ) : ℝ := b4 / √(4 * b1 ^ 2 + (b1 * b2 - 1) ^ 2)

/-- The variances of the slopes: _regress.f:415-433. -/
noncomputable def slopeVars (n : ℕ) (X Y : ℕ → ℝ) (sxx sxy : ℝ) (B : Fin 6 → ℝ) : Fin 6 → ℝ :=
  let b1 := B 0
  let b2 := B 1
  let g1 := gam1 b1 b2 (B 2)
  let g2 := gam2 b1 b2 (B 3)
  let sum1 := tot n fun i => (X i * (Y i - b1 * X i)) ^ 2
  let sum2 := tot n fun i => (Y i * (Y i - b2 * X i)) ^ 2
  let sum3 := tot n fun i => X i * Y i * (Y i - b1 * X i) * (Y i - b2 * X i)
  let cov := sum3 / (b1 * sxx ^ 2)
  let v1 := sum1 / sxx ^ 2
  let v2 := sum2 / sxy ^ 2
  ![v1, v2,
    g1 ^ 2 * ((1 + b2 ^ 2) ^ 2 * v1 + 2 * (1 + b1 ^ 2) * (1 + b2 ^ 2) * cov + (1 + b1 ^ 2) ^ 2 * v2),
    g2 ^ 2 * (v1 / b1 ^ 2 + 2 * cov + b1 ^ 2 * v2),
    1 / 4 * (b2 * v1 / b1 + 2 * cov + b1 * v2 / b2),
    1 / 4 * (v1 + 2 * cov + v2)]

/-- The sums for the variances of the intercepts: _regress.f:437-456. -/
noncomputable def interSums (n : ℕ) (X Y : ℕ → ℝ) (xavg sxx sxy : ℝ) (B : Fin 6 → ℝ) : Fin 6 → ℝ :=
  let rn : ℝ := n
  let b1 := B 0
  let b2 := B 1
  let g1 := gam1 b1 b2 (B 2)
  let g2 := gam2 b1 b2 (B 3)
  ![tot n fun i => ((Y i - b1 * X i) * (1 - rn * xavg * X i / sxx)) ^ 2,
    tot n fun i => ((Y i - b2 * X i) * (1 - rn * xavg * Y i / sxy)) ^ 2,
    tot n fun i => ((X i * (Y i - b1 * X i) * (1 + b2 ^ 2) / sxx + Y i * (Y i - b2 * X i) * (1 + b1 ^ 2) / sxy) * g1 * xavg * rn
      - Y i + B 2 * X i) ^ 2,
    tot n fun i => ((X i * (Y i - b1 * X i) / sxx + Y i * (Y i - b2 * X i) * b1 ^ 2 / sxy) * g2 * xavg * rn / √(b1 ^ 2)
      - Y i + B 3 * X i) ^ 2,
    tot n fun i => ((X i * (Y i - b1 * X i) * √(b2 / b1) / sxx + Y i * (Y i - b2 * X i) * √(b1 / b2) / sxy) * (1 / 2) * rn * xavg
      - Y i + B 4 * X i) ^ 2,
    tot n fun i => ((X i * (Y i - b1 * X i) / sxx + Y i * (Y i - b2 * X i) / sxy) * (1 / 2) * rn * xavg
      - Y i + B 5 * X i) ^ 2]

/-- What `sixlin` returns: intercepts, slopes and their standard deviations. -/
structure Six where
  a : Fin 6 → ℝ
  b : Fin 6 → ℝ
  siga : Fin 6 → Option ℝ
  sigb : Fin 6 → Option ℝ

/-- The arrays `X`, `Y` as `sixlin` leaves them, and its results (`none`: `ierr = 0`): _regress.f:309-473. -/
noncomputable def sixlin (n : ℕ) (x y : ℕ → ℝ) : (ℕ → ℝ) × (ℕ → ℝ) × Option Six :=
  let xavg := tot n x / n
  let yavg := tot n y / n
  let X := fun i => x i - xavg
  let Y := fun i => y i - yavg
  let sxx := tot n fun i => X i ^ 2
  let syy := tot n fun i => Y i ^ 2
  let sxy := tot n fun i => X i * Y i
  if sxy = 0 then (X, Y, none)
  else
    let B := slopes (sgn sxy) (sxy / sxx) (syy / sxy)
    (fun i => X i + xavg, fun i => Y i + yavg, some {
      a := fun j => yavg - B j * xavg
      b := B
      sigb := fun j => fsqrt (slopeVars n X Y sxx sxy B j)
      siga := fun j => (fsqrt (interSums n X Y xavg sxx sxy B j)).map (· / n) })

/-- What `datstt` returns: means, variances, covariance, correlation (`none`: `ierr = 0`): _regress.f:253-304. -/
noncomputable def datstt (n : ℕ) (x y : ℕ → ℝ) : Option (ℝ × ℝ × ℝ × ℝ × ℝ × ℝ) :=
  let xavg := tot n x / n
  let yavg := tot n y / n
  let sxx := tot n fun i => (x i - xavg) ^ 2
  let syy := tot n fun i => (y i - yavg) ^ 2
  let sxy := tot n fun i => (x i - xavg) * (y i - yavg)
  if sxy = 0 then none else some (xavg, sxx / n, yavg, syy / n, sxy / n, sxy / √(sxx * syy))

/-- `wlss` of _regress.f:178-248.  The outer `none` is `ierr = 0`.  The variance of the scatter; then intercept, its variance, slope, its variance, which are not finite as soon as one of the denominators `estarvar`, `denom` is zero: `1/0` is infinite, and `denom` is then the difference of infinities. -/
noncomputable def wlssF (n : ℕ) (x y yerr : ℕ → ℝ) : Option (ℝ × Option (ℝ × ℝ × ℝ × ℝ)) :=
  match sixlin n x y with
  | (_, _, none) => none
  | (x1, y2, some s) =>
    let res := fun i => y2 i - s.a 0 - s.b 0 * x1 i
    let resav := tot n res / n
    let resvar := (tot n fun i => (res i - resav) ^ 2) / n
    let sig22var := (tot n fun i => yerr i ^ 2) / n
    let evar := resvar - sig22var
    let estar := fun i => evar + yerr i ^ 2
    let wsum := tot n fun i => 1 / estar i
    let wsumx := tot n fun i => x1 i / estar i
    let wsumxy := tot n fun i => x1 i * y2 i / estar i
    let wsumy := tot n fun i => y2 i / estar i
    let wsumxx := tot n fun i => x1 i * x1 i / estar i
    let denom := wsum * wsumxx - wsumx ^ 2
    some (evar,
      if (List.range n).any (fun i => estar i = 0) ∨ denom = 0 then none
      else some ((wsumxx * wsumy - wsumx * wsumxy) / denom, wsumxx / denom, (wsum * wsumxy - wsumx * wsumy) / denom, wsum / denom))

/-- Mean and standard deviation, `class` and `nclass`: _regress.f:127-176. -/
noncomputable def cls (n : ℕ) (x : ℕ → ℝ) : ℝ × ℝ :=
  let xav := tot n x / n
  (xav, √((tot n fun i => (x i - xav) ^ 2) / n))

/-- What `bess` returns: intercepts, slopes, their variances, and the alternative variances of the slopes of the bisector and the orthogonal line. -/
structure Bess where
  a : Fin 4 → ℝ
  b : Fin 4 → ℝ
  avar : Fin 4 → ℝ
  bvar : Fin 4 → ℝ
  ifab3 : ℝ
  ifab4 : ℝ

/-- `xi(i,·)`: _regress.f:83-101. -/
noncomputable def bessXi (y1 y1err y2 y2err : ℕ → ℝ) (y1av y2av vx cov : ℝ) (a b : Fin 4 → ℝ) : Fin 4 → ℕ → ℝ :=
  let xi1 := fun i => ((y1 i - y1av) * (y2 i - b 0 * y1 i - a 0) + b 0 * y1err i ^ 2) / vx
  let xi2 := fun i => ((y2 i - y2av) * (y2 i - b 1 * y1 i - a 1) - y2err i ^ 2) / cov
  ![xi1, xi2,
    fun i => xi1 i * (1 + b 1 ^ 2) * b 2 / ((b 0 + b 1) * √((1 + b 0 ^ 2) * (1 + b 1 ^ 2)))
      + xi2 i * (1 + b 0 ^ 2) * b 2 / ((b 0 + b 1) * √((1 + b 0 ^ 2) * (1 + b 1 ^ 2))),
    fun i => xi1 i * b 3 / (b 0 ^ 2 * √(4 + (b 1 - 1 / b 0) ^ 2)) + xi2 i * b 3 / √(4 + (b 1 - 1 / b 0) ^ 2)]

/-- `bess`: _regress.f:2-125.  `none` when a denominator is zero (some of the results are then not finite). -/
noncomputable def bess (n : ℕ) (y1 y1err y2 y2err cerr : ℕ → ℝ) : Option Bess :=
  let rn : ℝ := n
  let sig11 := (tot n fun i => y1err i ^ 2) / rn
  let sig22 := (tot n fun i => y2err i ^ 2) / rn
  let sig12 := tot n cerr / rn
  let y1av := (cls n y1).1
  let y2av := (cls n y2).1
  let y1var := (cls n y1).2 ^ 2
  let y2var := (cls n y2).2 ^ 2
  let cov := (tot n fun i => (y1 i - y1av) * (y2 i - y2av)) / rn
  let b1 := (cov - sig12) / (y1var - sig11)
  let b2 := (y2var - sig22) / (cov - sig12)
  if y1var - sig11 = 0 ∨ cov - sig12 = 0 ∨ cov = 0 ∨ b1 + b2 = 0 then none
  else
    let b : Fin 4 → ℝ := ![b1, b2, bisSlope b1 b2, orthSlope (sgn cov) b1 b2]
    let a : Fin 4 → ℝ := fun j => y2av - b j * y1av
    let xi := bessXi y1 y1err y2 y2err y1av y2av (y1var - sig11) cov a b
    let zeta := fun j i => y2 i - b j * y1 i - y1av * xi j i
    let bvar := fun j => (cls n (xi j)).2 ^ 2 / rn
    let avar := fun j => (cls n (zeta j)).2 ^ 2 / rn
    let covb := (cls n (xi 0)).2 * (cls n (xi 1)).2 / rn
    some {
      a := a, b := b, avar := avar, bvar := bvar
      ifab3 := b 2 ^ 2 / ((b1 + b2) ^ 2 * (1 + b1 ^ 2) * (1 + b2 ^ 2))
        * ((1 + b2 ^ 2) ^ 2 * bvar 0 + (1 + b1 ^ 2) ^ 2 * bvar 1 + 2 * (1 + b1 ^ 2) * (1 + b2 ^ 2) * covb)
      ifab4 := b 3 ^ 2 / (4 * b1 ^ 2 + (b1 * b2 - 1) ^ 2) * (bvar 0 / b1 ^ 2 + 2 * covb + b1 ^ 2 * bvar 1) }

/-! ## regress.py -/

/-- A sequence as an array. -/
def arr (x : List ℝ) : ℕ → ℝ := fun i => x.getD i 0

/-- An error argument: a number or a sequence. -/
inductive Errs
  | scalar (v : ℝ)
  | vector (v : List ℝ)

/-- `LinRegResult`: regress.py:65-95.  Errors are used for the extent of the data and not stored. -/
structure LinReg where
  slope : Option ℝ
  inter : Option ℝ
  serr : Option ℝ
  ierr : Option ℝ
  x : List ℝ
  y : List ℝ
  npts : ℕ
  xmin : Option ℝ
  xmax : Option ℝ
  ymin : Option ℝ
  ymax : Option ℝ

/-- `LinRegResult.__init__`: regress.py:80-95 (`min([])` cannot happen: there are two points or more). -/
noncomputable def linReg (slope inter serr ierr : Option ℝ) (x y : List ℝ) (xerr yerr : Option (List ℝ)) : LinReg :=
  { slope, inter, serr, ierr, x, y
    npts := x.length
    xmin := match xerr with
      | none => x.min?
      | some e => (List.zipWith (· - ·) x e).min?
    xmax := match xerr with
      | none => x.max?
      | some e => (List.zipWith (· + ·) x e).max?
    ymin := match yerr with
      | none => y.min?
      | some e => (List.zipWith (· - ·) y e).min?
    ymax := match yerr with
      | none => y.max?
      | some e => (List.zipWith (· + ·) y e).max? }

/-- A vector of errors: regress.py:114-118, 168-194. -/
def errVec (npts : ℕ) : Errs → Except Err (List ℝ)
  | .scalar v => .ok (List.replicate npts v)
  | .vector v => if v.length ≠ npts then .error .value else .ok v

/-- `SixLin(x, y)`: regress.py:240-274. -/
noncomputable def SixLin (x y : List ℝ) : Except Err (Fin 6 → LinReg) :=
  if y.length ≠ x.length then .error .value
  else if x.length < 2 then .error .value
  else match (sixlin x.length (arr x) (arr y)).2.2 with
    | none => .error .value
    | some s => .ok fun j => linReg (some (s.b j)) (some (s.a j)) (s.sigb j) (s.siga j) x y none none

/-- `bistats(x, y)`, and the attributes of `BiStats(x, y)`: means, standard deviations, covariance, correlation: regress.py:5-24, 43-62. -/
noncomputable def bistats (x y : List ℝ) : Except Err (ℝ × Option ℝ × ℝ × Option ℝ × ℝ × ℝ) :=
  if x.length ≠ y.length then .error .value
  else if x.length < 2 then .error .value
  else match datstt x.length (arr x) (arr y) with
    | none => .error .value
    | some (xbar, vx, ybar, vy, cov, rho) => .ok (xbar, fsqrt vx, ybar, fsqrt vy, cov, rho)

/-- `wlss(x, y, yerr)`: the result and its `scat` attribute: regress.py:99-143. -/
noncomputable def wlss (x y : List ℝ) (yerr : Errs) : Except Err (LinReg × Option ℝ) :=
  match errVec x.length yerr with
  | .error e => .error e
  | .ok ye =>
    if y.length ≠ x.length then .error .value
    else if x.length < 2 then .error .value
    else match wlssF x.length (arr x) (arr y) (arr ye) with
      | none => .error .value
      | some (evar, none) => .ok (linReg none none none none x y none (some ye), fsqrt evar)
      | some (evar, some (a, avar, b, bvar)) =>
        .ok (linReg (some b) (some a) (fsqrt bvar) (fsqrt avar) x y none (some ye), fsqrt evar)

/-- `BCES(x, xerr, y, yerr, covar)`: the four results, and `serr_IFAB` of the bisector and the orthogonal line: regress.py:164-219.  `none`: some of the numbers are not finite. -/
noncomputable def BCES (x : List ℝ) (xerr : Errs) (y : List ℝ) (yerr covar : Errs) :
    Except Err (Option ((Fin 4 → LinReg) × Option ℝ × Option ℝ)) :=
  match errVec x.length xerr, errVec x.length yerr, errVec x.length covar with
  | .ok xe, .ok ye, .ok ce =>
    if y.length ≠ x.length then .error .value
    else if x.length < 2 then .error .value
    else match bess x.length (arr x) (arr xe) (arr y) (arr ye) (arr ce) with
      | none => .ok none
      | some r => .ok (some (fun j => linReg (some (r.b j)) (some (r.a j)) (fsqrt (r.bvar j)) (fsqrt (r.avar j)) x y (some xe) (some ye),
          fsqrt r.ifab3, fsqrt r.ifab4))
  | _, _, _ => .error .value

/-- The attributes a result has: regress.py:81-95, and `scat` set by `wlss` (142). -/
def linRegAttrs (ofWlss : Bool) : List String :=
  ["method", "slope", "inter", "serr", "ierr", "x", "y", "npts", "xmin", "xmax", "ymin", "ymax"]
    ++ if ofWlss then ["scat"] else []

end Verif.Regress
