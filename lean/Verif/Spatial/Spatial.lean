import Mathlib.Analysis.SpecialFunctions.Pow.Real
import Mathlib.Analysis.SpecialFunctions.Trigonometric.Basic
import Mathlib.MeasureTheory.Integral.IntervalIntegral.Basic

/-!
# Spatial distribution of bursts (sandbox/integrate/spatial.f)

Over the reals. The Romberg quadratures `romb` and the outer one of `oromb` are modelled by the integral they approximate. Common blocks are arguments. A division by zero or an array element outside its bounds gives `none`; `pause` gives `none` as well.
-/

noncomputable section

namespace Verif.Spatial

open Real

/-- `set_n_mod` (sandbox/integrate/spatial.f:32-55): the model in use before and the one requested give the model in use and the number of parameters. The test is on the model in use before, line 50. -/
def setNMod (dmodel model : ℕ) : Option (ℕ × ℕ) :=
  if dmodel > 2 then none
  else match model with
    | 1 => some (1, 4)
    | 2 => some (2, 5)
    | _ => none

/-- `set_E_mod` (sandbox/integrate/spatial.f:104-127). -/
def setEMod (model : ℕ) : Option (ℕ × ℕ) :=
  if model > 3 then none else match model with
    | 0 => none
    | _ => some (model, 3)

/-- The parameters kept for the spheroid (sandbox/integrate/spatial.f:83-94): amplitude, square of the minor axis, square of the core radius, boundaries. -/
def setNPar2 (c e rc rl ru : ℝ) : Option (ℝ × ℝ × ℝ × ℝ × ℝ) :=
  if rl = 0 ∧ rc = 0 then none
  else if e ≥ 1 ∨ e < 0 then none
  else some (c, 1 - e ^ 2, rc ^ 2, rl, ru)

/-- The normalisation kept for a power law (sandbox/integrate/spatial.f:163-169, 180-186, 196-202). -/
def ampl (p el eu : ℝ) : ℝ := if p = 1 then 1 / log (eu / el) else (p - 1) / ((eu / el) ^ (p - 1) - 1) * eu ^ p

/-- The limits kept for energy model 2 (sandbox/integrate/spatial.f:178-179); `rc2` is the square of the core radius. -/
def limits2 (pi4 r0 rc2 r sc : ℝ) : ℝ × ℝ := (sc * pi4 * (r0 ^ 2 + rc2) / r, sc * pi4 * (r0 ^ 2 + rc2))

/-- The limits kept for energy model 3 (sandbox/integrate/spatial.f:193-194). -/
def limits3 (pi4 r r1 : ℝ) : ℝ × ℝ := (pi4 * r1 ^ 2 / r, pi4 * r1 ^ 2)

/-- The tolerance at the boundaries (sandbox/integrate/spatial.f:229, 275). -/
def del : ℝ := 1 + 1 / 10 ^ 10

/-- `dn_dV` of the bounded sphere (sandbox/integrate/spatial.f:239-246). -/
def density1 (c p inner outer x y z : ℝ) : ℝ :=
  let r := √(x * x + y * y + z * z)
  if r ≥ inner / del ∧ r ≤ outer * del then (if p ≠ 0 then c / r ^ p else c) else 0

/-- `dn_dV` of the spheroid (sandbox/integrate/spatial.f:249-256). -/
def density2 (c q rc2 inner outer x y z : ℝ) : ℝ :=
  let r := √(x * x + y * y + z * z / q)
  if r ≥ inner / del ∧ r ≤ outer * del then c / (rc2 + r ^ 2) else 0

/-- `E_dist` (sandbox/integrate/spatial.f:285-292). -/
def eDist (p el eu : ℝ) (e : ℝ) : ℝ := if e ≥ el / del ∧ e ≤ eu * del then ampl p el eu / e ^ p else 0

/-- `r_range_1` for the sphere (sandbox/integrate/spatial.f:328-367). -/
def sphere1 (r0 inner outer mu : ℝ) : ℝ × ℝ :=
  if r0 = 0 then (inner, outer)
  else if r0 ≤ inner then (r0 * (√(mu * mu - 1 + (inner / r0) ^ 2) + mu), r0 * (√(mu * mu - 1 + (outer / r0) ^ 2) + mu))
  else if r0 > inner ∧ r0 < outer then
    if mu > √(1 - (inner / r0) ^ 2) then (0, r0 * (mu - √(mu * mu - 1 + (inner / r0) ^ 2)))
    else (0, r0 * (√(mu * mu - 1 + (outer / r0) ^ 2) + mu))
  else if mu > √(1 - (outer / r0) ^ 2) then
    if mu > √(1 - (inner / r0) ^ 2) then (r0 * (mu - √(mu * mu - 1 + (outer / r0) ^ 2)), r0 * (mu - √(mu * mu - 1 + (inner / r0) ^ 2)))
    else (r0 * (mu - √(mu * mu - 1 + (outer / r0) ^ 2)), r0 * (mu + √(mu * mu - 1 + (outer / r0) ^ 2)))
  else (0, 0)

/-- `r_range_2` for the sphere (sandbox/integrate/spatial.f:454-489). -/
def sphere2 (r0 inner outer mu : ℝ) : ℝ × ℝ :=
  if r0 = 0 ∨ r0 ≤ inner then (0, 0)
  else if r0 > inner ∧ r0 < outer then
    if mu > √(1 - (inner / r0) ^ 2) then (r0 * (mu + √(mu * mu - 1 + (inner / r0) ^ 2)), r0 * (mu + √(mu * mu - 1 + (outer / r0) ^ 2)))
    else (0, 0)
  else if mu > √(1 - (outer / r0) ^ 2) then
    if mu > √(1 - (inner / r0) ^ 2) then (r0 * (mu + √(mu * mu - 1 + (inner / r0) ^ 2)), r0 * (mu + √(mu * mu - 1 + (outer / r0) ^ 2)))
    else (0, 0)
  else (0, 0)

/-- The number `C` of the spheroid (sandbox/integrate/spatial.f:374, 502). -/
def losC (q mu phi : ℝ) : ℝ := √(mu * mu + (1 - mu * mu) * (sin phi ^ 2 + cos phi ^ 2 / q))

/-- `r_range_1` for the spheroid, `c` being the number `C` (sandbox/integrate/spatial.f:369-417). -/
def spheroid1 (r0 c inner outer mu : ℝ) : ℝ × ℝ :=
  let rm := r0 * mu
  let din := r0 * r0 - inner * inner
  let dout := r0 * r0 - outer * outer
  if r0 = 0 then (inner * c, outer * c)
  else if r0 ≤ inner then ((rm + √(rm * rm - din * c)) / c, (rm + √(rm * rm - dout * c)) / c)
  else if r0 > inner ∧ r0 < outer then
    if rm * rm - din * c > 0 then (0, (rm - √(rm * rm - din * c)) / c)
    else (0, (rm + √(rm * rm - dout * c)) / c)
  else if rm * rm - dout * c > 0 then
    if rm * rm - din * c > 0 then ((rm - √(rm * rm - dout * c)) / c, (rm - √(rm * rm - din * c)) / c)
    else ((rm - √(rm * rm - dout * c)) / c, (rm + √(rm * rm - dout * c)) / c)
  else (0, 0)

/-- `r_range_2` for the spheroid (sandbox/integrate/spatial.f:492-532). `junk` is the value of the local variable `inner` at line 494, where it has not been assigned yet. -/
def spheroid2 (junk r0 c inner outer mu : ℝ) : ℝ × ℝ :=
  let rm := r0 * mu
  let din := r0 * r0 - inner * inner
  let dout := r0 * r0 - outer * outer
  if r0 = 0 ∨ r0 ≤ junk then (0, 0)
  else if r0 > inner ∧ r0 < outer then
    if rm * rm - din * c > 0 then ((rm + √(rm * rm - din * c)) / c, (rm + √(rm * rm - dout * c)) / c)
    else (0, 0)
  else if rm * rm - dout * c > 0 ∧ rm * rm - din * c > 0 then ((rm + √(rm * rm - din * c)) / c, (rm + √(rm * rm - dout * c)) / c)
  else (0, 0)

/-- `r_min` for the sphere (sandbox/integrate/spatial.f:589-596). -/
def rmin1 (r0 inner outer : ℝ) : ℝ := if r0 < inner then inner - r0 else if r0 ≥ inner ∧ r0 ≤ outer then 0 else r0 - outer

/-- `r_min` for the spheroid (sandbox/integrate/spatial.f:601-618). -/
def rmin2 (r0 q inner outer : ℝ) : ℝ :=
  if r0 < inner then
    if r0 ≥ inner * (1 - q) then inner - r0 else √(q * inner ^ 2 - r0 ^ 2 * q / (1 - q))
  else if r0 ≥ inner ∧ r0 ≤ outer then 0
  else if r0 ≥ outer * (1 - q) then r0 - outer else √(q * outer ^ 2 - r0 ^ 2 * q / (1 - q))

/-- The lower limit of `mu_range`, for both models (sandbox/integrate/spatial.f:652-671). The upper one is 1. -/
def muLo (r0 outer : ℝ) : ℝ := if r0 ≥ outer then √(1 - (outer / r0) ^ 2) else -1

/-- The Galactic coordinates of a point at distance `r` (sandbox/integrate/spatial.f:860-864, 1139-1143). -/
def gx (r0 mu r : ℝ) : ℝ := r0 - r * mu
/-- See `gx`. -/
def gy (mu phi r : ℝ) : ℝ := r * √(1 - mu * mu) * sin phi
/-- See `gx`. -/
def gz (mu phi r : ℝ) : ℝ := r * √(1 - mu * mu) * cos phi

/-- The exponent of the transformation from the slope `p` found (sandbox/integrate/spatial.f:781-786, 808-813). -/
def alphaOf (p : ℝ) : ℝ :=
  let p := if p < 1 then p + 1 / 2 else p
  if p = 1 then 1 else 1 - p

/-- The exponent of the transformation of the outer integral of `dn_dO` (sandbox/integrate/spatial.f:952-956, 989-993). -/
def p1Of (p : ℝ) : ℝ := if p = 1 then 1 else 1 - p

/-- `i_dSdO` (sandbox/integrate/spatial.f:832-874), given the energy distribution and the density as a function of distance. -/
def integrand (pi4 s alpha1 : ℝ) (dist dens : ℝ → ℝ) (xx : ℝ) : ℝ :=
  let e := xx ^ (1 / alpha1)
  dist e * e ^ (5 / 2 - alpha1) * dens √(e / (pi4 * s)) / alpha1

/-- One of the two parts of `dn_dSdO` (sandbox/integrate/spatial.f:771-794, 798-819); the quadrature is the integral. `slope` stands for lines 777-780 and 804-807. -/
def part (pi4 s el eu : ℝ) (dist dens : ℝ → ℝ) (slope : ℝ → ℝ → ℝ) (rl ru : ℝ) : ℝ :=
  let e1 := max el (pi4 * s * rl * rl)
  let e2 := min eu (pi4 * s * ru * ru)
  if e2 > e1 then
    let a := alphaOf (slope e1 e2)
    ∫ x in (e1 ^ a)..(e2 ^ a), integrand pi4 s a dist dens x
  else 0

/-- `dn_dSdO` (sandbox/integrate/spatial.f:728-829) from the two ranges of distance. -/
def dnDSdO (pi4 pi32 s el eu : ℝ) (dist dens : ℝ → ℝ) (slope : ℝ → ℝ → ℝ) (range1 range2 : ℝ × ℝ) : ℝ :=
  if range1.2 > range1.1 then
    let d1 := part pi4 s el eu dist dens slope range1.1 range1.2
    let d2 := if range2.2 > range2.1 then part pi4 s el eu dist dens slope range2.1 range2.2 else 0
    (d1 + d2) / (s ^ (5 / 2 : ℝ) * 16 * pi32)
  else 0

/-- `inner` (sandbox/integrate/spatial.f:1080-1115). -/
def innerInt (pi4 : ℝ) (dist dens : ℝ → ℝ) (rl ru s1 e : ℝ) : ℝ :=
  let r2 := min ru √(e / (pi4 * s1))
  dist e * (if r2 > rl then ∫ r in rl..r2, r ^ 2 * dens r else 0)

/-- `oromb` (sandbox/integrate/spatial.f:1002-1077). -/
def oromb (p1 e1 e2 : ℝ) (f : ℝ → ℝ) : ℝ := ∫ y in (e1 ^ p1)..(e2 ^ p1), (y ^ (1 / p1)) ^ (1 - p1) * f (y ^ (1 / p1)) / p1

/-- The least flux in a range of distances and the lower limit of the energies (sandbox/integrate/spatial.f:924-926, 966-968). `none` is a division by zero. -/
def lower (pi4 sl el rl ru : ℝ) : Option (ℝ × ℝ) :=
  if pi4 * ru * ru = 0 then none
  else
    let s1 := max sl (el / (pi4 * ru * ru))
    some (s1, max el (pi4 * s1 * rl ^ 2))

/-- `dn_dO` (sandbox/integrate/spatial.f:877-999) from the two ranges; `slope` gives the exponents of lines 935-951 and 973-988. -/
def dnDO (pi4 sl el eu : ℝ) (dist dens : ℝ → ℝ) (slope1 slope2 : ℝ) (range1 range2 : ℝ × ℝ) : Option ℝ :=
  let rl := range1.1
  let ru := range1.2
  if rl > 0 ∧ sl ≥ eu / (pi4 * rl * rl) then some 0
  else do
    let (s1, e1) ← lower pi4 sl el rl ru
    if e1 ≥ eu then some 0
    else
      let d1 := oromb (p1Of slope1) e1 eu (innerInt pi4 dist dens rl ru s1)
      if range2.2 ≤ range2.1 then some d1
      else do
        let (s1', e1') ← lower pi4 sl el range2.1 range2.2
        if e1' ≥ eu then some d1
        else some (d1 + oromb (p1Of slope2) e1' eu (innerInt pi4 dist dens range2.1 range2.2 s1'))

end Verif.Spatial
