import Mathlib.Analysis.SpecialFunctions.Pow.Real

/-!
# The likelihood of a burst distribution (sandbox/integrate/lkcalc.f)

Over the reals; common blocks are arguments or fields of a state. `quit` and a logarithm or quotient that does not exist are `none`.
`setstp`, `stpinf`, `eta_F`, `T_obs`, `sky_int`, `dR_dFdO`, `flagb`, `setmod` are not in the repository: they are arguments.
-/

noncomputable section

namespace Verif.Lk

open Real

/-! ## The grid of fluxes -/

/-- One more step, with the sign that selects logarithmic steps kept (sandbox/integrate/lkcalc.f:255-259, 267-271). -/
def oneMore (n : ℤ) : ℤ := if n < 0 then n - 1 else n + 1

/-- `set_Fgrid` (sandbox/integrate/lkcalc.f:208-282); `pt lo hi n i` is the point `stpinf` gives for step `i` after `setstp(lo, hi, n)`, `nFmax` the size of the array. For `n1 = 0` the threshold is written before the array. -/
def setFgrid (pt : ℝ → ℝ → ℤ → ℕ → ℝ) (nFmax : ℕ) (fth f1 f2 f3 : ℝ) (n1 n2 n3 : ℤ) : Option (List ℝ) :=
  if n1.natAbs + n2.natAbs + n3.natAbs > nFmax then none
  else if f1 ≥ fth then none
  else if f2 ≤ fth then none
  else if n1 = 0 then none
  else some ((List.range (n1.natAbs - 1)).map (fun i => pt f1 fth n1 (i + 1)) ++ [fth] ++
    (List.range n2.natAbs).map (fun i => pt fth f2 (oneMore n2) (i + 2)) ++
    (List.range n3.natAbs).map (fun i => pt f2 f3 (oneMore n3) (i + 2)))

/-! ## Interpolation -/

/-- The bisection of `dR_dF` and `dR_dF_2` (sandbox/integrate/lkcalc.f:353-364, 402-413); `sgn` is the sign of the grid. -/
def locate (g : ℕ → ℝ) (sgn f : ℝ) (nlo nhi : ℕ) : ℕ × ℕ :=
  if nhi - nlo > 1 then
    let new := (nhi + nlo) / 2
    if (g new - f) / sgn > 0 then locate g sgn f nlo new else locate g sgn f new nhi
  else (nlo, nhi)
termination_by nhi - nlo

/-- Power law through two points (sandbox/integrate/lkcalc.f:367-371, 416-420). -/
def powInterp (f1 f2 y1 y2 f : ℝ) : Option ℝ :=
  if 0 < y2 / y1 ∧ 0 < f2 / f1 ∧ f2 ≠ f1 then
    let slope := log (y2 / y1) / log (f2 / f1)
    some (y1 * (f / f1) ^ slope)
  else none

/-- `dR_dF` and `dR_dF_2` (sandbox/integrate/lkcalc.f:325-374, 377-423): `g` and `y` are the grid and the rates, from index 1. -/
def dRdFat (g y : ℕ → ℝ) (n : ℕ) (flo f : ℝ) : Option ℝ :=
  if f < flo then some 0
  else
    let sgn := (g n - g 1) / |g n - g 1|
    let q := locate g sgn f 1 n
    powInterp (g q.1) (g q.2) (y q.1) (y q.2) f

/-- The rates `lksetup` puts on the grid (sandbox/integrate/lkcalc.f:530-558): `iso` is `pi4 * dR_dFdO`, `sky` the integral over the sky. -/
def fill (iso sky : ℝ → ℝ) (etaMax : ℝ) (curtype comp nF1 nF : ℕ) (f : ℝ) : ℝ :=
  if curtype = 1 then iso f
  else if curtype = 2 then (if nF < nF1 then 0 else sky f / etaMax)
  else if comp = 1 then iso f
  else if nF < nF1 then 0 else sky f / etaMax

/-! ## Integrals over the grid -/

/-- One interval of the integral of `eta_F*dR/dF` (sandbox/integrate/lkcalc.f:568-590); the same code is in `moments` (787-797). -/
def seg (f1 f2 y1 y2 : ℝ) : ℝ :=
  if y2 * y1 > 0 then
    let ls := log (y2 / y1) / log (f2 / f1) + 1
    if ls ≠ 0 then y1 * f1 * ((f2 / f1) ^ ls - 1) / ls else y1 * f1 * log (f2 / f1)
  else 1 / 2 * (y1 + y2) * (f2 - f1)

/-- `R_eff` on the grid (sandbox/integrate/lkcalc.f:566-591): the points are those from the threshold on, with `y = eta_F*dRdF`. -/
def rEff : List (ℝ × ℝ) → ℝ
  | p :: q :: l => seg p.1 q.1 p.2 q.2 + rEff (q :: l)
  | _ => 0

/-- What is added for fluxes above the grid (sandbox/integrate/lkcalc.f:619-628, 847-874). -/
def tail (f0 f1 y0 y1 : ℝ) : Option ℝ :=
  let ls := log (y1 / y0) / log (f1 / f0) + 1
  if ls ≥ 0 then none else some (-(y1 * f1 ^ ls / ls))

/-- What is added to `R_tot`, which nothing sets to zero (sandbox/integrate/lkcalc.f:610-618). -/
def addTot (f0 f1 r0 r1 rtot : ℝ) : Option ℝ :=
  let ls := log (r1 / r0) / log (f1 / f0) + 1
  if ls ≥ 0 then none else some (rtot - r1 * f1 / ls)

/-! ## Moments -/

/-- One interval of the dipole moment (sandbox/integrate/lkcalc.f:798-809, 824): `e1`, `e2` efficiencies, `r1`, `r2` rates, `d1`, `d2` dipoles. -/
def segD (f1 f2 e1 e2 r1 r2 d1 d2 : ℝ) : ℝ :=
  if (e2 * r2) * (e1 * r1) > 0 then
    if d1 * d2 ≤ 0 then 1 / 2 * (e1 * d1 + e2 * d2) * (f2 - f1)
    else
      let ls := log (e2 * d2 / (e1 * d1)) / log (f2 / f1) + 1
      if ls ≠ 0 then e1 * d1 * f1 * ((f2 / f1) ^ ls - 1) / ls else e1 * d1 * f1 * log (f2 / f1)
  else 1 / 2 * (e1 * d1 + e2 * d2) * (f2 - f1)

/-- One interval of the quadrupole moment (sandbox/integrate/lkcalc.f:810-821, 825). -/
def segQ (f1 f2 e1 e2 r1 r2 q1 q2 : ℝ) : ℝ :=
  if (e2 * r2) * (e1 * r1) > 0 then
    if q1 ≤ 0 ∨ q2 ≤ 0 then 1 / 2 * (e1 * q1 + e2 * q2) * (f2 - f1)
    else
      let ls := log (e2 * q2 / (e1 * q1)) / log (f2 / f1) + 1
      if ls ≠ 0 then e1 * q1 * f1 * ((f2 / f1) ^ ls - 1) / ls else e1 * q1 * f1 * log (f2 / f1)
  else 1 / 2 * (e1 * q1 + e2 * q2) * (f2 - f1)

/-- A point of the grid of `moments`. -/
structure Pt where
  f : ℝ
  e : ℝ
  r : ℝ
  d : ℝ
  q : ℝ

/-- The sums of `moments` over the grid, without the part above it (sandbox/integrate/lkcalc.f:778-827). -/
def sums : List Pt → ℝ × ℝ × ℝ
  | a :: b :: l =>
      let s := sums (b :: l)
      (seg a.f b.f (a.e * a.r) (b.e * b.r) + s.1, segD a.f b.f a.e b.e a.r b.r a.d b.d + s.2.1, segQ a.f b.f a.e b.e a.r b.r a.q b.q + s.2.2)
  | _ => (0, 0, 0)

/-- The normalised moments (sandbox/integrate/lkcalc.f:913-914). -/
def moms (l : List Pt) : Option (ℝ × ℝ) :=
  let s := sums l
  if s.1 = 0 then none else some (s.2.1 / s.1, s.2.2 / s.1 - 1 / 3)

/-! ## The cumulative distribution -/

/-- One interval of the rate in `wmodel` (sandbox/integrate/lkcalc.f:1100-1117), for nonnegative rates. -/
def wSeg (f1 f2 y1 y2 : ℝ) : Option ℝ :=
  if y1 = 0 then some (1 / 2 * y2 * (f2 - f1))
  else if y2 = 0 then none
  else
    let ls := log (y2 / y1) / log (f2 / f1) + 1
    some (if ls ≠ 0 then y1 * f1 * ((f2 / f1) ^ ls - 1) / ls else y1 * f1 * log (f2 / f1))

/-- The column `cum` that `wmodel` writes (sandbox/integrate/lkcalc.f:1250-1251, 1288-1290): one value before each interval and one at the end. -/
def cums (rtot : ℝ) : ℝ → List ℝ → List ℝ
  | cum, [] => [cum]
  | cum, r :: l => cum :: cums rtot (cum - r / rtot) l

/-! ## The likelihood -/

/-- `bquad` for simple models (sandbox/integrate/lkcalc.f:160-166, 202): `q` is the quadrature for the burst. -/
def bquad (margl : Bool) (reff tobs q : ℝ) : ℝ := if margl then q / reff / tobs else q

/-- `bquad` for a superposition (sandbox/integrate/lkcalc.f:176-199, 202). -/
def bquad3 (fh r1 r2 tobs qc qh : ℝ) : ℝ :=
  (if fh = 1 then qh / r2
   else if fh = 0 then qc / r1
   else
     let fac := fh / (1 - fh)
     let r := r1 / (1 - fh)
     (qc + fac * r1 * qh / r2) / r) / tobs

/-- One burst in the sum of `ljlike` (sandbox/integrate/lkcalc.f:117-121). -/
def term (tiny dR : ℝ) : ℝ := if dR > tiny then log dR else -500

/-- `ljlike` (sandbox/integrate/lkcalc.f:113-126) from the quadratures of the bursts that are used. -/
def ljlike (tiny day : ℝ) (margl : Bool) (reff tobs : ℝ) (qs : List ℝ) : ℝ :=
  let l := (qs.map fun q => term tiny (bquad margl reff tobs q)).sum
  if margl then l else l - tobs * day * reff

/-- The scale factor `modout` writes (sandbox/integrate/lkcalc.f:992-996). -/
def scale (day reff tobs : ℝ) (nuse : ℕ) : ℝ := nuse / (tobs * day * reff)

/-! ## What has been calculated -/

/-- The part of the common block that records what has been calculated. -/
structure St (P : Type) where
  par : P
  marg : Bool
  didR : Bool
  didl : Bool
  reff : ℝ
  llcur : ℝ

/-- What a user does. -/
inductive Op (P : Type)
  | set (p : P)
  | newpar
  | lkreset
  | setLtype (m : Bool)
  | like

/-- One step: changing parameters, `newpar` (sandbox/integrate/lkcalc.f:8-28), `lkreset` (31-53), `set_ltype` (56-74), `ljlike` (98-130) with `lksetup` (455, 636). -/
def step {P : Type} (rate : P → ℝ) (like : P → Bool → ℝ → ℝ) (s : St P) : Op P → St P × Option ℝ
  | .set p => ({ s with par := p }, none)
  | .newpar => ({ s with didR := false, didl := false }, none)
  | .lkreset => ({ s with didR := false, didl := false }, none)
  | .setLtype m => ({ s with marg := m, didR := false, didl := false }, none)
  | .like =>
      if s.didl then (s, some s.llcur)
      else
        let r := if s.didR then s.reff else rate s.par
        let l := like s.par s.marg r
        ({ s with didR := true, reff := r, llcur := l, didl := true }, some l)

/-- A history of steps. -/
def run {P : Type} (rate : P → ℝ) (like : P → Bool → ℝ → ℝ) : St P → List (Op P) → St P × List ℝ
  | s, [] => (s, [])
  | s, o :: l =>
      let a := step rate like s o
      let b := run rate like a.1 l
      (b.1, a.2.toList ++ b.2)

end Verif.Lk
