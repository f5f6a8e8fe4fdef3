import Verif.Count.Gammln
import Mathlib.Analysis.SpecialFunctions.Log.Basic

/-!
# Periodic point processes: the model

Models sandbox/point/periodic/_pcperiodic.f, the computations for the piecewise constant rate model of Gregory and Loredo.  Double precision numbers are real numbers; the constants are the decimals in the file.  Integers do not overflow.
A subscript out of bounds, which the Fortran code does not check, is the outcome `oob`.  Arrays declared "inplace" are returned.
-/

namespace Verif.Point

open Real

/-- The constant `twopi`: _pcperiodic.f:189 and elsewhere. -/
noncomputable def twopi : ℝ := 6.2831853071795862

/-- The constant `tiny` of `fbindata`: _pcperiodic.f:188. -/
noncomputable def tiny : ℝ := 1 / 10 ^ 10

/-- The outcome of a subroutine: a result, a subscript out of bounds, or (for the loops that have no bound in the code) more turns than the model was allowed. -/
inductive Out (α : Type*)
  | val (a : α)
  | oob
  | short

def Out.bind {α β : Type*} (o : Out α) (f : α → Out β) : Out β :=
  match o with
  | .val a => f a
  | .oob => .oob
  | .short => .short

/-- Fortran's conversion to an integer, towards zero. -/
noncomputable def trunc (x : ℝ) : ℤ := if 0 ≤ x then ⌊x⌋ else ⌈x⌉

/-- Fortran's `mod`. -/
noncomputable def fmod (a p : ℝ) : ℝ := a - trunc (a / p) * p

/-- `phases0`: _pcperiodic.f:19-50. -/
noncomputable def phases0 (w : ℝ) (data : List ℝ) : List ℝ := data.map fun d => w / twopi * d

/-- `phasesd`: _pcperiodic.f:53-86. -/
noncomputable def phasesd (w wdot : ℝ) (data : List ℝ) : List ℝ := data.map fun d => (0.5 * wdot / twopi * d + w / twopi) * d

/-- `phasesdd`: _pcperiodic.f:89-123. -/
noncomputable def phasesdd (w wdot wddot : ℝ) (data : List ℝ) : List ℝ :=
  data.map fun d => ((wddot / 6 / twopi * d + 0.5 * wdot / twopi) * d + w / twopi) * d

/-- `binbounds`: _pcperiodic.f:126-154. -/
noncomputable def binbounds (nb : ℕ) : List ℝ := (List.range nb).map fun (j : ℕ) => (j : ℝ) * (1 / nb)

/-- The loop to label 20 of `fbindata`: _pcperiodic.f:203-215.  `j` here is the subscript minus one. -/
noncomputable def fbinLoop (nb : ℕ) (phibins : List ℝ) (phi1 : ℝ) : List ℝ → List ℕ → ℝ → Out (List ℕ × ℝ)
  | [], bins, dphi => .val (bins, dphi)
  | p :: ps, bins, dphi =>
    let phase := p + phi1
    let phase := phase - trunc phase
    let j := trunc (nb * phase)
    if 0 ≤ j ∧ j < nb then
      let bins := bins.modify j.toNat (· + 1)
      let phase := if j + 1 < nb then phibins.getD (j.toNat + 1) 0 - phase else 1 - phase
      let dphi := if phase < dphi ∧ 0 < phase then phase else dphi
      fbinLoop nb phibins phi1 ps bins dphi
    else .oob

/-- `fbindata`: _pcperiodic.f:157-223. -/
noncomputable def fbindata (phases : List ℝ) (phi : ℝ) (nb : ℕ) (phibins : List ℝ) : Out (List ℕ × ℝ) :=
  (fbinLoop nb phibins (phi / twopi) phases (List.replicate nb 0) (1 / nb)).bind fun (bins, dphi) => .val (bins, twopi * (dphi + nb * tiny))

/-- `factln`: _pcperiodic.f:697-724.  (The table of values already computed holds what `gammln` returns; the model computes them each time.)  `gammln` (_pcperiodic.f:727-754) is the function of that name in _cbmlike.f. -/
noncomputable def factln (n : ℕ) : ℝ := OnOff.gammln (n + 1)

/-- `plimult`: _pcperiodic.f:253-277. -/
noncomputable def plimult (bins : List ℕ) : ℝ := bins.foldl (fun s b => s + factln b) 0

/-- `limult` (and `lql_wp`, which calls it): _pcperiodic.f:226-250, 313-342. -/
noncomputable def limult (ndat : ℕ) (bins : List ℕ) : ℝ := bins.foldl (fun s b => s + factln b) (-factln ndat)

/-- `ll_wpb`: _pcperiodic.f:280-310. -/
noncomputable def llWpb (ndat : ℕ) (bins : List ℕ) : ℝ :=
  let ll := factln (bins.length - 1)
  let ll := ll - factln (ndat + (bins.length - 1))
  ll + (1 * ndat) * bins.length + factln ndat + limult ndat bins

/-- `chisqr`: _pcperiodic.f:667-694. -/
noncomputable def chisqr (ndat : ℕ) (bins : List ℕ) : ℝ :=
  let expect := (ndat : ℝ) / bins.length
  bins.foldl (fun (s : ℝ) (b : ℕ) => s + ((b : ℝ) - expect) ^ 2) 0 / expect

/-- `trap_absc`: _pcperiodic.f:345-369.  The increment is not declared, hence of single precision: `rnd` is the rounding to it. -/
noncomputable def trapAbsc (rnd : ℝ → ℝ) (npts nb : ℕ) : List ℝ := (List.range npts).map fun (i : ℕ) => i * rnd (twopi / nb / (npts - 1))

/-- The loop to label 40 of `qlw_trap`: _pcperiodic.f:431-446, from point `np`. -/
noncomputable def trapLoop (ndat : ℕ) (lndfac : ℝ) (phases : List ℝ) (nb : ℕ) (phibins : List ℝ) (npts : ℕ) (lfac : ℝ) : List ℝ → ℕ → ℝ × ℝ → Out (ℝ × ℝ)
  | [], _, s => .val s
  | a :: as, np, s =>
    (fbindata phases a nb phibins).bind fun (bins, _) =>
      let arg := plimult bins - lndfac + lfac
      if np = 1 ∨ np = npts then trapLoop ndat lndfac phases nb phibins npts lfac as (np + 1) (s.1 + 0.5 * exp arg, s.2 + 0.5 * chisqr ndat bins)
      else trapLoop ndat lndfac phases nb phibins npts lfac as (np + 1) (s.1 + exp arg, s.2 + chisqr ndat bins)

/-- `qlw_trap`: _pcperiodic.f:372-451; with fewer than two abscissas `absc(2)` is out of bounds. -/
noncomputable def qlwTrap (lndfac : ℝ) (phases : List ℝ) (nb : ℕ) (phibins : List ℝ) (absc : List ℝ) (lfac : ℝ) : Out (ℝ × ℝ) :=
  match absc with
  | a1 :: a2 :: rest =>
    let del := a2 - a1
    (trapLoop phases.length lndfac phases nb phibins absc.length lfac absc 1 (0, 0)).bind fun s => .val (s.1 * nb * del, s.2 * nb * del / twopi)
  | _ => .oob

/-- The loop at label 40 of `qlw_exact`: _pcperiodic.f:511-534, for at most `fuel` turns. -/
noncomputable def exactLoop (ndat : ℕ) (lndfac : ℝ) (phases : List ℝ) (nb : ℕ) (phibins : List ℝ) (lfac : ℝ) : ℕ → ℝ → ℝ × ℝ → Out (ℝ × ℝ)
  | 0, _, _ => .short
  | fuel + 1, phi, s =>
    (fbindata phases phi nb phibins).bind fun (bins, dphi) =>
      let arg := plimult bins - lndfac + lfac
      let del := twopi / nb
      if phi + dphi < del then
        exactLoop ndat lndfac phases nb phibins lfac fuel (phi + dphi) (s.1 + exp arg * dphi, s.2 + chisqr ndat bins * dphi)
      else .val (s.1 + exp arg * (del - phi), s.2 + chisqr ndat bins * (del - phi))

/-- `qlw_exact`: _pcperiodic.f:454-539. -/
noncomputable def qlwExact (fuel : ℕ) (lndfac : ℝ) (phases : List ℝ) (nb : ℕ) (phibins : List ℝ) (lfac : ℝ) : Out (ℝ × ℝ) :=
  (exactLoop phases.length lndfac phases nb phibins lfac fuel 0 (0, 0)).bind fun s => .val (s.1 * nb, s.2 * nb / twopi)

/-- The saved variables of `lodds`: _pcperiodic.f:565-566; `curf` is undefined at first. -/
structure Saved where
  curnb : ℤ := -1
  curnd : ℤ := -1
  curf : ℝ

/-- `lodds`: _pcperiodic.f:542-580 (for `nbins ≥ 1`). -/
noncomputable def lodds (s : Saved) (nb ndat : ℕ) (intimult lfac : ℝ) : Saved × ℝ :=
  let s := if (nb : ℤ) ≠ s.curnb ∨ (ndat : ℤ) ≠ s.curnd then
      let curf := factln (nb - 1) + ndat * log nb
      let curf := curf - factln (ndat + nb - 1)
      { curnb := nb, curnd := ndat, curf := curf + factln ndat }
    else s
  (s, s.curf + log (intimult / twopi) - lfac)

/-- The loop to label 60 of `rate_wb` for one of the phases: _pcperiodic.f:642-651.  `r`, `r2` are the sums so far; `j` here is the subscript minus one. -/
noncomputable def rateOne (ndat nb : ℕ) (bins : List ℕ) (arg phi dphi rphase : ℝ) (s : ℝ × ℝ) : Out (ℝ × ℝ) :=
  let del := twopi / nb
  let j := trunc (1 + nb * fmod (rphase + phi) twopi / twopi) - 1
  if 0 ≤ j ∧ j < nb then
    let b : ℝ := bins.getD j.toNat 0
    let rc := nb * (b + 1) / (ndat + nb)
    let r2c := rc * nb * (b + 2) / (ndat + nb + 1)
    if phi + dphi < del then .val (s.1 + rc * arg * dphi, s.2 + r2c * arg * dphi)
    else .val (s.1 + rc * arg * (del - phi), s.2 + r2c * arg * (del - phi))
  else .oob

/-- All phases, one after the other. -/
noncomputable def rateAll (ndat nb : ℕ) (bins : List ℕ) (arg phi dphi : ℝ) : List ℝ → List (ℝ × ℝ) → Out (List (ℝ × ℝ))
  | rp :: rps, s :: ss => (rateOne ndat nb bins arg phi dphi rp s).bind fun t => (rateAll ndat nb bins arg phi dphi rps ss).bind fun ts => .val (t :: ts)
  | _, _ => .val []

/-- The loop at label 40 of `rate_wb`: _pcperiodic.f:631-656, for at most `fuel` turns. -/
noncomputable def rateLoop (lndfac : ℝ) (phases : List ℝ) (nb : ℕ) (phibins : List ℝ) (lfac : ℝ) (rphases : List ℝ) : ℕ → ℝ → ℝ → List (ℝ × ℝ) → Out (ℝ × List (ℝ × ℝ))
  | 0, _, _, _ => .short
  | fuel + 1, phi, nrm, s =>
    (fbindata phases phi nb phibins).bind fun (bins, dphi) =>
      let arg := exp (plimult bins - lndfac + lfac)
      let nrm := nrm + arg * dphi
      (rateAll phases.length nb bins arg phi dphi rphases s).bind fun s =>
        if phi + dphi < twopi / nb then rateLoop lndfac phases nb phibins lfac rphases fuel (phi + dphi) nrm s
        else .val (nrm, s)

/-- `rate_wb`: _pcperiodic.f:583-664; the pairs are the members of `r` and `r2`. -/
noncomputable def rateWb (fuel : ℕ) (lndfac : ℝ) (phases : List ℝ) (nb : ℕ) (phibins : List ℝ) (lfac : ℝ) (rphases : List ℝ) : Out (List (ℝ × ℝ)) :=
  (rateLoop lndfac phases nb phibins lfac rphases fuel 0 0 (rphases.map fun _ => (0, 0))).bind fun (nrm, s) => .val (s.map fun x => (x.1 / nrm, x.2 / nrm))

end Verif.Point
