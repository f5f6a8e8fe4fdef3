import Verif.Signals.Kepler

/-!
# Velocity curves folded at the period: expt/signals/kepler_vec.py

`fkepler` is here expt/signals/fkeplermodule-Tp.c, whose solver starts at the mean anomaly; the rest of its text is that of sandbox/signals/fkeplermodule.c.
Lines of text are modelled by the numbers in them, rounded to the four decimals written; rounding of the arithmetic is not modelled.
-/

set_option linter.unusedSectionVars false

namespace Verif.Signals.Kepler

open Real

/-- One row of `vt2TA(times)`: expt/signals/fkeplermodule-Tp.c:440-500, with the solver at 456-477; without convergence the row is (-1, -1). -/
noncomputable def Glob.rowTA (g : Glob) (t : ℝ) : ℝ × ℝ :=
  match newton g.e (g.phase t) g.err 20 (g.phase t) (-π) π with
  | none => (-1, -1)
  | some EA => trueAnom g.e EA

/-- `Kepler_setup` and `amps[0]*K0 + amps[1]*K1 + amps[2]*K2`, one element: kepler_vec.py:9-22, 38-42, 65-69. -/
noncomputable def Glob.vel (g : Glob) (tau e T0 : ℝ) (amps : ℝ × ℝ × ℝ) (t : ℝ) : ℝ :=
  let cs := (g.setupTp tau e T0).rowTA t
  amps.1 * 1 + amps.2.1 * (e + cs.1) + amps.2.2 * cs.2

/-- `%-6.4f` as a number: kepler_vec.py:44, 60, 76.  (Ties go up here; the doubles nearest to ties are not ties.) -/
noncomputable def written (x : ℝ) : ℝ := round (10000 * x) / 10000

/-- `divmod(t, tau)[1] / tau`: kepler_vec.py:52-53. -/
noncomputable def foldPhase (tau t : ℝ) : ℝ := (t - tau * ⌊t / tau⌋) / tau

/-- What `phaseCurve` writes, and what it returns. -/
structure PhaseOut where
  curve : List (ℝ × ℝ)
  data : List (ℝ × ℝ × ℝ)
  chisq : ℝ

/-- `phaseCurve(ofile, tau, e, T0, amps, data, n, sigma)`: kepler_vec.py:24-78, with the third column of the data, if any, given apart.
`if sigma:` takes 0 for absent.  A zero in the third column gives inf or nan in numpy, here an error; so does, here at once, `tau = 0`. -/
noncomputable def phaseCurve (g : Glob) (tau e T0 : ℝ) (amps : ℝ × ℝ × ℝ) (data : List (ℝ × ℝ)) (col : Option (List ℝ)) (n : ℕ) (sigma : Option ℝ) : Except Err PhaseOut :=
  if n = 1 ∨ tau = 0 then .error .zeroDiv
  else
    let dt : ℝ := 2 / ((n : ℝ) - 1)
    let phases := (List.range n).map fun i : ℕ => -(1 / 2 : ℝ) + (i : ℝ) * dt
    let curve := phases.map fun p => (written p, written (g.vel tau e T0 amps (tau * p)))
    let sigs : Except Err (List ℝ) :=
      match sigma, col with
      | some s, c => if s ≠ 0 then .ok (data.map fun _ => s) else match c with | none => .error .index | some l => .ok l
      | none, some l => .ok l
      | none, none => .error .index
    match sigs with
    | .error x => .error x
    | .ok sigs =>
      if 0 ∈ sigs then .error .zeroDiv
      else
        let lines := List.zipWith (fun d s => (written (foldPhase tau d.1), written d.2, written s)) data sigs
        let resid := List.zipWith (fun d s => (d.2 - g.vel tau e T0 amps d.1) / s) data sigs
        .ok ⟨curve, lines, (resid.map fun r => r * r).sum⟩

end Verif.Signals.Kepler
