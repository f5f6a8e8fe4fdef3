import Verif.Cosmo.Romberg
import Mathlib.Analysis.SpecialFunctions.Trigonometric.Basic
import Mathlib.Analysis.SpecialFunctions.Pow.Real
import Mathlib.Analysis.SpecialFunctions.Log.Base

/-!
# Model of /repo/expt/signals/cosmology.py and _cosmo.f

Floating point numbers are real numbers.  `Q f a b` is what `QROMB` leaves in `SS` for the integrand `f` (see Romberg.lean); the integrands of the program are handed to it.  Square roots of negative numbers and divisions by zero are not modelled except where it is said.  The three common blocks are the fields of `World`.
-/

set_option linter.unusedSectionVars false

noncomputable section

namespace Verif.Cosmo

/-- What `QROMB` makes of an integrand and two limits. -/
abbrev Quad := (ℝ → ℝ) → ℝ → ℝ → ℝ

/-- `common /cosmo_cb/`, _cosmo.f:17-18. -/
structure Frw where
  h : ℝ
  OM : ℝ
  OL : ℝ
  Ok : ℝ
  rtOk : ℝ
  ch : ℝ

/-- All common blocks, _cosmo.f:17-18, 468-469, 487-488. -/
structure World where
  frw : Frw
  ffid : ℝ
  lam : ℝ

/-- `set_frw_cosmo`, _cosmo.f:9-33. -/
def setFrw (h OM OL : ℝ) (w : World) : World :=
  let Ok := 1 - OM - OL
  { w with frw := ⟨h, OM, OL, Ok, √|Ok|, 299792458 / h⟩ }

/-- `dd_l_ig`, _cosmo.f:253-276. -/
def ddIg (g : Frw) (z : ℝ) : ℝ := 1 / √((g.OM * (1 + z) + g.Ok) * (1 + z) ^ 2 + g.OL)

/-- `E_Hub`, _cosmo.f:279-302. -/
def eHub (g : Frw) (z : ℝ) : ℝ := √((g.OM * (1 + z) + g.Ok) * (1 + z) ^ 2 + g.OL)

/-- `coord_int`, _cosmo.f:80-111. -/
def coordInt (Q : Quad) (g : Frw) (z : ℝ) : ℝ := Q (ddIg g) 0 z

/-- The transverse distance with the factor 1 + z, the same lines in `ldist`, `nldist`, `mu_z` and `mu_z_noh`, _cosmo.f:66-73, 145-151. -/
def curve (g : Frw) (z d : ℝ) : ℝ :=
  if g.Ok < 0 then (1 + z) * |Real.sin (g.rtOk * d)| / g.rtOk
  else if 0 < g.Ok then (1 + z) * Real.sinh (g.rtOk * d) / g.rtOk
  else (1 + z) * d

/-- `ldist`, _cosmo.f:36-77. -/
def ldistF (Q : Quad) (g : Frw) (z : ℝ) : ℝ := g.ch * curve g z (Q (ddIg g) 0 z)

/-- `nldist`, _cosmo.f:114-157. -/
def nldistF (Q : Quad) (g : Frw) (zs : List ℝ) : List ℝ := zs.map fun z => g.ch * curve g z (Q (ddIg g) 0 z)

/-- `mu_z`, _cosmo.f:160-205, without the message for distances that are not positive. -/
def muF (Q : Quad) (g : Frw) (z : ℝ) : ℝ := 5 * Real.logb 10 (g.ch * curve g z (Q (ddIg g) 0 z))

/-- `mu_z_noh`, _cosmo.f:208-250, without the message. -/
def muNohF (Q : Quad) (g : Frw) (z : ℝ) : ℝ := 5 * Real.logb 10 (curve g z (Q (ddIg g) 0 z))

/-- `vol_elem`, _cosmo.f:305-349. -/
def volF (Q : Quad) (g : Frw) (z : ℝ) : ℝ :=
  let dist := Q (ddIg g) 0 z
  let dist := if g.Ok < 0 then |Real.sin (g.rtOk * dist)| / g.rtOk else if 0 < g.Ok then Real.sinh (g.rtOk * dist) / g.rtOk else dist
  g.ch * dist ^ 2 / √((g.OM * (1 + z) + g.Ok) * (1 + z) ^ 2 + g.OL)

/-- `lbt_ig`, _cosmo.f:384-404. -/
def lbtIg (g : Frw) (z : ℝ) : ℝ := 1 / ((1 + z) * √(g.OL + (1 + z) ^ 2 * ((1 + z) * g.OM + g.Ok)))

/-- `dlbt_z`, _cosmo.f:352-381. -/
def dlbtF (Q : Quad) (g : Frw) (z : ℝ) : ℝ := Q (lbtIg g) 0 z

/-- `age_ig`, _cosmo.f:438-454 with the value, `none` if the denominator is zero (0/0 is not a number, a/0 is infinite). -/
def ageIg (g : Frw) (a : ℝ) : Option ℝ :=
  let den := g.OM + a * (g.Ok + a ^ 2 * g.OL)
  if den = 0 then none else some √(a / den)

/-- `dage`, _cosmo.f:407-435.  The first thing `QROMB` does is to evaluate the integrand at both limits; if one of the values is not a number, nor is any sum (`none`).  Denominators that are zero inside are left out: the integrand is then taken as 0. -/
def dageF (Q : Quad) (g : Frw) : Option ℝ :=
  match ageIg g 0, ageIg g 1 with
  | some _, some _ => some (Q (fun a => (ageIg g a).getD 0) 0 1)
  | _, _ => none

/-- The single precision constant 0.0001 of `flux2z`, _cosmo.f:518. -/
def tolF : ℝ := 13743895 / 137438953472

/-- The Newton–Raphson iterations of `flux2z`, _cosmo.f:533-546, at most `fuel` of them (`none` if they do not suffice; the `pause` at the 26th is resumed).  `I` and `E` are `coord_int` and `E_Hub`; `dg` is a single precision variable: `sgl` is the rounding. -/
def newton (I E sgl : ℝ → ℝ) (x : ℝ) : ℕ → ℝ → Option ℝ
  | 0, _ => none
  | fuel + 1, z =>
    let Icur := I z
    let zp1 := 1 + z
    let xcur := zp1 * Icur
    if tolF * x < |x - xcur| then
      let dg := sgl (Icur + zp1 / E z)
      let z' := z + (x - xcur) / dg
      newton I E sgl x fuel (if z' < 0 then 1 / 2 * (zp1 - 1) else z')
    else some z

/-- `flux2z`, _cosmo.f:496-551. -/
def flux2zF (Q : Quad) (sgl : ℝ → ℝ) (fuel : ℕ) (w : World) (F : ℝ) : Option ℝ :=
  let x := √(w.lam * w.ffid / F)
  newton (coordInt Q w.frw) (eHub w.frw) sgl x fuel (-1 / 2 + 1 / 2 * √(1 + 4 * x))

/-! ## cosmology.py -/

/-- An object of class `Cosmology`, cosmology.py:11-15 (`O_k` is never used). -/
structure Obj where
  h : ℝ
  OM : ℝ
  OL : ℝ

/-- `ldist`, cosmology.py:17-27, of a number. -/
def Obj.ldist (Q : Quad) (o : Obj) (z : ℝ) (w : World) : World × ℝ :=
  let w := setFrw o.h o.OM o.OL w
  (w, ldistF Q w.frw z / 100000)

/-- `ldist`, cosmology.py:17-27, of a vector. -/
def Obj.ldistV (Q : Quad) (o : Obj) (zs : List ℝ) (w : World) : World × List ℝ :=
  let w := setFrw o.h o.OM o.OL w
  (w, (nldistF Q w.frw zs).map (· / 100000))

/-- `mu`, cosmology.py:29-40, of a number. -/
def Obj.mu (Q : Quad) (o : Obj) (z : ℝ) (w : World) : World × ℝ :=
  let w := setFrw o.h o.OM o.OL w
  (w, muF Q w.frw z)

/-- `mu`, cosmology.py:29-40, of a vector. -/
def Obj.muV (Q : Quad) (o : Obj) (zs : List ℝ) (w : World) : World × List ℝ :=
  let w := setFrw o.h o.OM o.OL w
  (w, (nldistF Q w.frw zs).map fun d => 5 * Real.logb 10 d)

/-- `vol_elem`, cosmology.py:42-47. -/
def Obj.volElem (Q : Quad) (o : Obj) (z : ℝ) (w : World) : World × ℝ :=
  let w := setFrw o.h o.OM o.OL w
  (w, volF Q w.frw z)

/-- `dlbt`, cosmology.py:49-55. -/
def Obj.dlbt (Q : Quad) (o : Obj) (z : ℝ) (w : World) : World × ℝ :=
  let w := setFrw o.h o.OM o.OL w
  (w, dlbtF Q w.frw z)

/-- `dage`, cosmology.py:57-63. -/
def Obj.dage (Q : Quad) (o : Obj) (w : World) : World × Option ℝ :=
  let w := setFrw o.h o.OM o.OL w
  (w, dageF Q w.frw)

/-- An object of class `StdCdlCosmology`, cosmology.py:66-78; `lum` is `none` until `set_lum` is called. -/
structure Std where
  cos : Obj
  ffid : ℝ
  lum : Option ℝ

/-- The constructor, cosmology.py:68-71. -/
def Std.make (h OM OL ffid : ℝ) (w : World) : World × Std := ({ w with ffid := ffid }, ⟨⟨h, OM, OL⟩, ffid, none⟩)

/-- `set_lum`, cosmology.py:73-78. -/
def Std.setLum (s : Std) (lum : ℝ) (w : World) : World × Std := ({ w with lam := lum }, { s with lum := some lum })

/-- What `flux2z` does: raise AttributeError, return a value, or go on. -/
inductive FluxOut where
  | attribute
  | value (z : ℝ)
  | running

/-- `flux2z`, cosmology.py:80-87. -/
def Std.flux2z (Q : Quad) (sgl : ℝ → ℝ) (fuel : ℕ) (s : Std) (F : ℝ) (w : World) : World × FluxOut :=
  let w := { w with ffid := s.ffid }
  match s.lum with
  | none => (w, .attribute)
  | some l =>
    let w := { w with lam := l }
    match flux2zF Q sgl fuel w F with
    | some z => (w, .value z)
    | none => (w, .running)

/-- The calls a program makes, on any objects. -/
inductive Call where
  | ldist (o : Obj) (z : ℝ)
  | ldistV (o : Obj) (zs : List ℝ)
  | mu (o : Obj) (z : ℝ)
  | muV (o : Obj) (zs : List ℝ)
  | volElem (o : Obj) (z : ℝ)
  | dlbt (o : Obj) (z : ℝ)
  | dage (o : Obj)
  | std (h OM OL ffid : ℝ)
  | setLum (s : Std) (lum : ℝ)
  | flux2z (s : Std) (F : ℝ)

/-- What a call does to the common blocks, cosmology.py:17-87. -/
def Call.run (Q : Quad) (sgl : ℝ → ℝ) (fuel : ℕ) (w : World) : Call → World
  | .ldist o z => (o.ldist Q z w).1
  | .ldistV o zs => (o.ldistV Q zs w).1
  | .mu o z => (o.mu Q z w).1
  | .muV o zs => (o.muV Q zs w).1
  | .volElem o z => (o.volElem Q z w).1
  | .dlbt o z => (o.dlbt Q z w).1
  | .dage o => (o.dage Q w).1
  | .std h OM OL ffid => (Std.make h OM OL ffid w).1
  | .setLum s lum => (s.setLum lum w).1
  | .flux2z s F => (s.flux2z Q sgl fuel F w).1

end Verif.Cosmo
