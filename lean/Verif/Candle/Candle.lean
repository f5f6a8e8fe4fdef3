import Mathlib.Analysis.SpecialFunctions.Pow.Real
import Mathlib.MeasureTheory.Integral.IntervalIntegral.Basic

/-!
# Bursts in a matter-dominated cosmology (sandbox/integrate/cosmo.f)

Over the reals; the common block is arguments, the Romberg quadrature `qromb` is the integral it approximates. `c` is the constant `c100`, `pi4` is 4 pi.
-/

noncomputable section

namespace Verif.Candle

open Real

/-- `d_prop` (sandbox/integrate/cosmo.f:299-320), with `q0 = Omega/2` (line 28). -/
def dProp (c h om z : ℝ) : ℝ :=
  let q0 := om / 2
  c * (z * q0 + (1 - q0) * (1 - √(1 + om * z))) / (h * q0 ^ 2 * (1 + z))

/-- The constant of the spectrum (sandbox/integrate/cosmo.f:153-157). -/
def specK (alpha el eu e2 : ℝ) : ℝ :=
  if alpha ≠ 1 then (e2 / eu) ^ (1 - alpha) / ((eu / el) ^ (alpha - 1) - 1) else 1 / log (eu / el)

/-- `F_spec` (sandbox/integrate/cosmo.f:420-452). -/
def fSpec (alpha el eu e1 e2 z : ℝ) : ℝ :=
  let r := el / eu
  let f := (1 + z) / eu
  let x1 := max (e1 * f) r
  let x2 := min (e2 * f) 1
  if x2 ≤ x1 then 0
  else if alpha = 1 then specK alpha el eu e2 * log (x2 / x1)
  else specK alpha el eu e2 * ((x2 / x1) ^ (alpha - 1) - 1) * (1 + z) ^ (1 - alpha)

/-- `set_lfun`: largest and least luminosity and the normalisation (sandbox/integrate/cosmo.f:59-66); `f0` is `F_spec(0)`. -/
def setLfun (c pi4 h f0 p nu ratio : ℝ) : ℝ × ℝ × ℝ :=
  let n := nu * pi4 * c ^ 2 / (h ^ 2 * f0)
  (n / ratio, n, if p ≠ 1 then (p - 1) / (ratio ^ (p - 1) - 1) else 1 / log ratio)

/-- The function of redshift in `dR_intgd`, without the factor of the transformation (sandbox/integrate/cosmo.f:284-292); `d` and `f` are `d_prop(z)` and `F_spec(z)`. -/
def intgd (pi4 om p nu a beta cc z d f : ℝ) : ℝ :=
  let d2 := d * d
  let ndot := pi4 * d2 * (1 + z) * cc / f / nu
  d2 * d2 * (1 + z) ^ (-beta) * a * ndot ^ (-p) / ((1 + z) * √(1 + om * z) * f * nu)

/-- The exponent of the transformation (sandbox/integrate/cosmo.f:227, 243). -/
def powOf (slope : ℝ) : ℝ := if slope = 1 then 0 else slope

/-- One integral over redshift of `cdR_dOdC` (sandbox/integrate/cosmo.f:223-233, 239-249). -/
def zInt (g : ℝ → ℝ) (slope z1 z2 : ℝ) : ℝ :=
  let pow := powOf slope
  let pow1 := 1 - pow
  (∫ tz in (z1 ^ pow1)..(z2 ^ pow1), (tz ^ (1 / pow1)) ^ pow * g (tz ^ (1 / pow1))) / pow1

/-- `cdR_dOdC` (sandbox/integrate/cosmo.f:184-258) from the range of redshifts; `g` is `intgd` as a function of redshift. -/
def cdRdOdC (c pi4 h n0 : ℝ) (g : ℝ → ℝ) (slope : ℝ → ℝ → ℝ) (z1 z2 zm : ℝ) : ℝ :=
  if z2 ≤ z1 then 0
  else
    let q : ℝ × ℝ := if zm > z1 ∧ zm < z2 then (zm, z2) else (z2, 0)
    let i1 := zInt g (slope z1 q.1) z1 q.1
    let i2 := if q.2 > q.1 then i1 + zInt g (slope q.1 q.2) q.1 q.2 else i1
    pi4 * n0 * i2 * c / h

/-- `cdR_dz` (sandbox/integrate/cosmo.f:455-501); `none` for a division of zero by zero. -/
def cdRdz (c pi4 h om p nl nu a n0 beta zcut cmin z d f : ℝ) : Option ℝ :=
  if zcut > 0 ∧ z > zcut then some 0
  else if f = 0 then none
  else
    let area := pi4 * d ^ 2
    let ncmin := area * (1 + z) * cmin / f
    if ncmin > nu then some 0
    else if p - 1 = 0 then none
    else
      let n1r := max nl ncmin / nu
      some (a * (n1r ^ (1 - p) - 1) / (p - 1) * n0 * area * c / ((1 + z) ^ (beta + 2) * √(1 + om * z) * h))

/-- The function of which `z_range` and `scdR_dOdC` seek the argument (sandbox/integrate/cosmo.f:371, 399, 556). -/
def xOf (d f : ℝ → ℝ) (z : ℝ) : ℝ := (1 + z) * d z ^ 2 / f z

/-- The iterations of `z_range` (sandbox/integrate/cosmo.f:369-382, 397-410), `fuel` of them at most; the `pause` after 25 is resumed. Roots of negative numbers are 0. -/
def newton (d f : ℝ → ℝ) (x zmax del : ℝ) : ℕ → ℝ → Option ℝ
  | 0, _ => none
  | fuel + 1, z1 =>
      let xcur := xOf d f z1
      if |x - xcur| > 1 / 10000 * x then
        let dx := (xOf d f (z1 + del) - xcur) / del
        let z' := z1 - (xcur - x) / dx
        let z' := if z' > zmax then √(z1 * zmax) else z'
        let z' := if z' < 0 then √z1 else z'
        newton d f x zmax del fuel z'
      else some z1

/-- The upper limit after the cutoff (sandbox/integrate/cosmo.f:411). -/
def cut (zcut z2 : ℝ) : ℝ := if zcut > 0 ∧ z2 > zcut then zcut else z2

/-- The logarithmic derivative of the fraction of the spectrum in `scdR_dOdC` (sandbox/integrate/cosmo.f:578-592). -/
def dF (alpha eu e1 e2 z : ℝ) : ℝ :=
  let z1 := 1 + z
  if z1 > eu / e2 then
    let r := eu / (e1 * z1)
    if alpha ≠ 1 then (1 - alpha) * r ^ (alpha - 2) / (z1 * (r ^ (alpha - 1) - 1)) else -1 / (z1 * log r)
  else if alpha ≠ 1 then (1 - alpha) / z1 else 0

/-- The logarithmic derivative of the distance (sandbox/integrate/cosmo.f:595-600). -/
def dD (c h om z : ℝ) : ℝ :=
  let q0 := om / 2
  let q1 := 1 - q0
  let rt := √(om * z + 1)
  c / (h * q0 ^ 2 * (1 + z)) * (q0 - q0 * q1 / rt - (z * q0 + q1 * (1 - rt)) / (1 + z)) / dProp c h om z

/-- The Jacobian of `scdR_dOdC` (sandbox/integrate/cosmo.f:604-605). -/
def dCdz (pi4 ndot z d f lF lD : ℝ) : ℝ := ndot * f / (pi4 * d ^ 2 * (1 + z)) * |lF - 2 * lD - 1 / (1 + z)|

/-- `scdR_dOdC` at the redshift found (sandbox/integrate/cosmo.f:571-610). -/
def scdRdOdC (c h om n0 beta zcut z d jac : ℝ) : ℝ :=
  if zcut > 0 ∧ z > zcut then 0 else c / h * d ^ 2 * n0 / (jac * (1 + z) ^ (beta + 2) * √(1 + om * z))

/-- `scdR_dz` (sandbox/integrate/cosmo.f:615-665). -/
def scdRdz (c pi4 h om n0 beta zcut ndot cmin z d f : ℝ) : ℝ :=
  if z = 0 then 0
  else if zcut > 0 ∧ z > zcut then 0
  else
    let area := pi4 * d ^ 2
    let cz := ndot * f / (area * (1 + z))
    if cz < cmin then 0 else n0 * area * c / ((1 + z) ^ (beta + 2) * √(1 + om * z) * h)

end Verif.Candle
