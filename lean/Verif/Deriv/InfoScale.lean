import Mathlib.Analysis.SpecialFunctions.Sqrt
import Mathlib.Logic.Function.Basic

/-!
# The scales for the derivatives in `expt/deriv/flotsam/doinfo.f`

Simplifications: real arithmetic for `real*8`; the parameters count from 0 and all of them vary; `lpp_tv` is a function of the vector of transformed parameters and `mode` the current one; the first loop carries a fuel, `none` when it runs out; a division by a zero slope is an outcome of its own.
-/

namespace Verif.Deriv.InfoScale

/-- How the calculation of the scales can end. -/
inductive Out (α : Type*) where
  | done (a : α)
  | offset
  | tooMany
  | zeroSlope

/-- `expt/deriv/flotsam/doinfo.f:62-67` (`doinfo`): `frac`, with `mfrac` 0.01. -/
noncomputable def frac (t0 : ℝ) : ℝ := if 0 < t0 then 0.01 * t0 else 0.01

/-- `expt/deriv/flotsam/doinfo.f:68-75` (`doinfo`, label 10): `g` is the log posterior as a function of the parameter; `f` grows by 1.3 until there is a difference; `f` and `diff`. -/
noncomputable def grow (g : ℝ → ℝ) (t0 lpjmax : ℝ) : ℕ → ℝ → Option (Out (ℝ × ℝ))
  | 0, _ => none
  | fuel + 1, f =>
    let lpjnew := g (t0 + f * frac t0)
    if lpjnew > lpjmax then some .offset
    else if lpjmax - lpjnew ≤ 0 then grow g t0 lpjmax fuel (1.3 * f)
    else some (.done (f, lpjmax - lpjnew))

/-- `expt/deriv/flotsam/doinfo.f:79-91` (`doinfo`, label 20): `left` is `maxnr - nit`, `s` is `f*frac`; the value found. -/
noncomputable def newton (g : ℝ → ℝ) (lpjmax lpjc s : ℝ) : ℕ → ℝ → Out ℝ
  | 0, t => if g t > lpjmax then .offset else .tooMany
  | left + 1, t =>
    if g t > lpjmax then .offset
    else if |g t - lpjc| > 0.03 then
      if g (t + s) > lpjmax then .offset
      else
        let dlpj := (g (t + s) - g t) / s
        if dlpj = 0 then .zeroSlope
        else newton g lpjmax lpjc s left (t + s - s - (g t - lpjc) / dlpj)
    else .done t

/-- `expt/deriv/flotsam/doinfo.f:61-92` (`doinfo`): the scale of one parameter, from `f = 1`. -/
noncomputable def scale (g : ℝ → ℝ) (t0 lpjmax del : ℝ) (fuel : ℕ) : Option (Out ℝ) :=
  match grow g t0 lpjmax fuel 1 with
  | none => none
  | some .offset => some .offset
  | some .tooMany => some .tooMany
  | some .zeroSlope => some .zeroSlope
  | some (.done (f, diff)) =>
    match newton g lpjmax (lpjmax - del) (f * frac t0) 15 (t0 + f * frac t0 * √(del / diff)) with
    | .done t => some (.done (t - t0))
    | .offset => some .offset
    | .tooMany => some .tooMany
    | .zeroSlope => some .zeroSlope

/-- `expt/deriv/flotsam/doinfo.f:57-94` (`doinfo`, loop 40): the `r` parameters from `i` on; `tval` and `dp`. -/
noncomputable def scales (lpp : (ℕ → ℝ) → ℝ) (lpjmax del : ℝ) (fuel : ℕ) :
    ℕ → ℕ → (ℕ → ℝ) → (ℕ → ℝ) → Option (Out (ℕ → ℝ))
  | 0, _, _, dp => some (.done dp)
  | r + 1, i, tval, dp =>
    match scale (fun t => lpp (Function.update tval i t)) (tval i) lpjmax del fuel with
    | none => none
    | some .offset => some .offset
    | some .tooMany => some .tooMany
    | some .zeroSlope => some .zeroSlope
    | some (.done d) => scales lpp lpjmax del fuel r (i + 1) (Function.update tval i (tval i)) (Function.update dp i d)

/-- `expt/deriv/flotsam/doinfo.f:54-94` (`doinfo`): the scales for `npar` parameters about `mode`. -/
noncomputable def infoScales (lpp : (ℕ → ℝ) → ℝ) (mode : ℕ → ℝ) (npar : ℕ) (del : ℝ) (fuel : ℕ) : Option (Out (ℕ → ℝ)) :=
  scales lpp (lpp mode) del fuel npar 0 mode fun _ => 0

end Verif.Deriv.InfoScale
