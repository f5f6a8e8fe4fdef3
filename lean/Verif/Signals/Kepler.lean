import Verif.Common
import Mathlib.Analysis.SpecialFunctions.Trigonometric.Basic
import Mathlib.Analysis.SpecialFunctions.Sqrt

/-!
# Keplerian orbits: sandbox/signals/fkeplermodule.c and sandbox/signals/kepler.py

Numbers are real numbers; the constants `pi` and `twopi` of the C file are `π` and `2π`.
The C file holds five copies of the solver (scalar and vector, eccentric and true anomaly); they are the same text and are modelled once.
-/

namespace Verif.Signals.Kepler

open Real

/-- The hidden globals of the module: fkeplermodule.c:96-106. -/
structure Glob where
  tau : ℝ := 1
  e : ℝ := 0
  Tp : ℝ := 0
  M0 : ℝ := 0
  Mp : ℝ := 0
  err : ℝ := 1 / 10 ^ 8

/-- `setup_Tp(tau, e, Tp)`: fkeplermodule.c:112-130. -/
noncomputable def Glob.setupTp (g : Glob) (tau e Tp : ℝ) : Glob :=
  { g with tau := tau, e := e, Tp := Tp, Mp := 2 * π * Tp / tau, M0 := -(2 * π * Tp / tau) }

/-- `setup_M0(tau, e, M0)`: fkeplermodule.c:133-150. -/
noncomputable def Glob.setupM0 (g : Glob) (tau e M0 : ℝ) : Glob :=
  { g with tau := tau, e := e, M0 := M0, Tp := -tau * M0 / (2 * π) }

/-- `setup_Mp(tau, e, Mp)`: fkeplermodule.c:153-171. -/
noncomputable def Glob.setupMp (g : Glob) (tau e Mp : ℝ) : Glob :=
  { g with tau := tau, e := e, Mp := Mp, Tp := tau * Mp / (2 * π), M0 := -Mp }

/-- `settol(err)`: fkeplermodule.c:176-193. -/
def Glob.settol (g : Glob) (err : ℝ) : Glob := { g with err := err }

/-- The fractional part with the sign of the argument, as `modf` of C returns it (fkeplermodule.c:214). -/
noncomputable def modf (x : ℝ) : ℝ := if 0 ≤ x then x - ⌊x⌋ else x - ⌈x⌉

/-- "Convert time to phase mod 2*pi": fkeplermodule.c:213-218. -/
noncomputable def Glob.phase (g : Glob) (t : ℝ) : ℝ :=
  let f := modf ((t - g.Tp) / g.tau)
  2 * π * (if f > 1 / 2 then f - 1 else if f < -(1 / 2) then f + 1 else f)

/-- "O(e**3) guess": fkeplermodule.c:220-223. -/
noncomputable def guess (e f : ℝ) : ℝ := f + e * sin f * (1 + e * (cos f + 1 / 2 * e * (3 * cos f * cos f - 1)))

/-- "Use Newton-Raphson; but if we jump too far, bisect": the loop with `n` iterations left, fkeplermodule.c:227-242; `none` if it runs out. -/
noncomputable def newton (e f err : ℝ) : ℕ → ℝ → ℝ → ℝ → Option ℝ
  | 0, _, _, _ => none
  | n + 1, EA, lo, hi =>
    let W := EA - e * sin EA - f
    let lo := if W < 0 then EA else lo
    let hi := if W < 0 then hi else EA
    let dE := -W / (1 - e * cos EA)
    let out := EA + dE < lo ∨ EA + dE > hi
    let EA' := if out then lo + 1 / 2 * (hi - lo) else EA + dE
    let dE := if out then EA' - EA else dE
    if |dE| < err ∨ EA' = EA then some EA' else newton e f err n EA' lo hi

/-- The solver with its `maxit = 20`: fkeplermodule.c:208-242, and the same text at 265-299, 448-479, 614-661, 764-811. -/
noncomputable def Glob.solve (g : Glob) (t : ℝ) : Option ℝ := newton g.e (g.phase t) g.err 20 (guess g.e (g.phase t)) (-π) π

/-- `t2EA(t)`: fkeplermodule.c:198-249; "did not converge" is -99. -/
noncomputable def Glob.t2EA (g : Glob) (t : ℝ) : ℝ := (g.solve t).getD (-99)

/-- Cosine and sine of the true anomaly: fkeplermodule.c:303-318, 667-682, 819-836.
The test for `pi` is `abs(EA) == pi` with the `abs` for integers, so it never holds; at `±pi` the tangent of the double is ±1.6e16 and the result is (-1, 1e-16): modelled as (-1, 0). -/
noncomputable def trueAnom (e EA : ℝ) : ℝ × ℝ :=
  if EA = 0 then (1, 0)
  else if |EA| = π then (-1, 0)
  else
    let th := √((1 + e) / (1 - e)) * tan (1 / 2 * EA)
    let th2 := th * th
    let c := (1 - th2) / (1 + th2)
    (c, (1 - c) / th)

/-- `t2TA(t)`: fkeplermodule.c:254-324; without convergence it returns NULL with no exception set, which Python turns into SystemError. -/
noncomputable def Glob.t2TA (g : Glob) (t : ℝ) : Except Err (ℝ × ℝ) :=
  match g.solve t with
  | none => .error .system
  | some EA => .ok (trueAnom g.e EA)

/-- One element of `vt2EA(t)` and `t2EA_store(t, store)`: fkeplermodule.c:443-489. -/
noncomputable def Glob.elemEA (g : Glob) (t : ℝ) : ℝ × ℝ :=
  match g.solve t with
  | none => (-1, -1)
  | some EA => (cos EA, sin EA)

/-- One element of `vt2TA(t)` and `t2TA_store(t, store)`: fkeplermodule.c:608-683. -/
noncomputable def Glob.elemTA (g : Glob) (t : ℝ) : ℝ × ℝ :=
  match g.solve t with
  | none => (-1, -1)
  | some EA => trueAnom g.e EA

/-- One element of `t2anoms(t, ea, ta)`: fkeplermodule.c:757-837. -/
noncomputable def Glob.elemAnoms (g : Glob) (t : ℝ) : (ℝ × ℝ) × (ℝ × ℝ) :=
  match g.solve t with
  | none => ((-1, -1), (-1, -1))
  | some EA => ((cos EA, sin EA), trueAnom g.e EA)

/-- `vt2EA(t)`, an array with one row per time: fkeplermodule.c:330-382. -/
noncomputable def Glob.vt2EA (g : Glob) (ts : List ℝ) : List (ℝ × ℝ) := ts.map g.elemEA

/-- `vt2TA(t)`, an array with one row per time: fkeplermodule.c:495-547. -/
noncomputable def Glob.vt2TA (g : Glob) (ts : List ℝ) : List (ℝ × ℝ) := ts.map g.elemTA

/-- `t2EA_store(t, store)`; a store with another number of rows is refused: fkeplermodule.c:388-437 (the store is a contiguous array of doubles; of any other the C code fills a copy). -/
noncomputable def Glob.t2EAStore (g : Glob) (ts : List ℝ) (rows : ℕ) : Except Err (List (ℝ × ℝ)) :=
  if rows ≠ ts.length then .error .system else .ok (ts.map g.elemEA)

/-- `t2TA_store(t, store)`: fkeplermodule.c:553-602. -/
noncomputable def Glob.t2TAStore (g : Glob) (ts : List ℝ) (rows : ℕ) : Except Err (List (ℝ × ℝ)) :=
  if rows ≠ ts.length then .error .system else .ok (ts.map g.elemTA)

/-- `t2anoms(t, ea, ta)`: fkeplermodule.c:690-751. -/
noncomputable def Glob.t2anoms (g : Glob) (ts : List ℝ) (rowsE rowsT : ℕ) : Except Err (List (ℝ × ℝ) × List (ℝ × ℝ)) :=
  if rowsE ≠ ts.length ∨ rowsT ≠ ts.length then .error .system
  else .ok (ts.map fun t => (g.elemAnoms t).1, ts.map fun t => (g.elemAnoms t).2)

/-- `v_rad(K, tau, e, long, T0, v0, times)` with a float: kepler.py:7-31. -/
noncomputable def vRad (g : Glob) (K tau e long T0 v0 t : ℝ) : Except Err ℝ :=
  match (g.setupTp tau e T0).t2TA t with
  | .error x => .error x
  | .ok (c, s) => .ok (v0 + K * cos long * (e + c) + K * sin long * s)

/-- `v_rad(…)` with an array of times: kepler.py:27-31.  `c, s = fkepler.vt2TA(times)` takes the two rows of an array with one row per time. -/
noncomputable def vRadArr (g : Glob) (K tau e long T0 v0 : ℝ) (ts : List ℝ) : Except Err (List ℝ) :=
  match (g.setupTp tau e T0).vt2TA ts with
  | [c, s] => .ok [v0 + K * cos long * (e + c.1) + K * sin long * s.1, v0 + K * cos long * (e + c.2) + K * sin long * s.2]
  | _ => .error .value

/-- An `Orbit`: its parameters and the attribute `cs_TA`, if it exists; kepler.py:59-64. -/
structure Orbit where
  K : ℝ
  tau : ℝ
  e : ℝ
  long : ℝ
  T0 : ℝ
  v0 : ℝ
  csTA : Option (List (ℝ × ℝ)) := none

/-- What the program that uses an orbit has: the orbit and the state of the C module. -/
structure World where
  o : Orbit
  g : Glob

/-- `true_anom(times)`: kepler.py:73-78.  `tau`, `e` and `T0` are looked up as globals of the module kepler (`mod`): the module imported defines none; run as a script it defines all three (kepler.py:138-144). -/
noncomputable def World.trueAnom (mod : Option (ℝ × ℝ × ℝ)) (w : World) (ts : List ℝ) : Res World :=
  match mod with
  | none => raise .name w
  | some (tau, e, T0) =>
    let g := w.g.setupTp tau e T0
    ok { o := { w.o with csTA := some (g.vt2TA ts) }, g := g }

/-- `ecc_anom(times)`: kepler.py:66-71 (the attribute `cs_EA` it sets is the value returned). -/
noncomputable def World.eccAnom (mod : Option (ℝ × ℝ × ℝ)) (w : World) (ts : List ℝ) : World × Except Err (List (ℝ × ℝ)) :=
  match mod with
  | none => (w, .error .name)
  | some (tau, e, T0) => ({ w with g := w.g.setupTp tau e T0 }, .ok ((w.g.setupTp tau e T0).vt2EA ts))

/-- `K1()` without times: kepler.py:80-84. -/
def Orbit.K1 (o : Orbit) : Except Err (List ℝ) :=
  match o.csTA with
  | none => .error .attribute
  | some a => .ok (a.map fun cs => o.e + cs.1)

/-- `K2()` without times: kepler.py:86-90. -/
def Orbit.K2 (o : Orbit) : Except Err (List ℝ) :=
  match o.csTA with
  | none => .error .attribute
  | some a => .ok (a.map fun cs => cs.2)

/-- `v_rad()` without times: kepler.py:92-98. -/
noncomputable def Orbit.vRad0 (o : Orbit) : Except Err (List ℝ) :=
  match o.K1, o.K2 with
  | .ok a, .ok b => .ok (List.zipWith (fun k1 k2 => o.v0 + o.K * cos o.long * k1 - o.K * sin o.long * k2) a b)
  | .error x, _ => .error x
  | _, .error x => .error x

/-- `K1(times)`, `K2(times)`, `v_rad(times)`: kepler.py:80-98; without times they use the anomalies stored. -/
noncomputable def World.method (mod : Option (ℝ × ℝ × ℝ)) (f : Orbit → Except Err (List ℝ)) (w : World) : Option (List ℝ) → World × Except Err (List ℝ)
  | none => (w, f w.o)
  | some ts =>
    match w.trueAnom mod ts with
    | (w', none) => (w', f w'.o)
    | (w', some x) => (w', .error x)

/-- `phase_vel(n)`, the velocities: kepler.py:100-110 (`writeVelCurve` uses the same: kepler.py:112-121). -/
noncomputable def World.phaseVel (mod : Option (ℝ × ℝ × ℝ)) (w : World) (n : ℕ) : World × Except Err (List ℝ) :=
  if n = 1 then (w, .error .zeroDiv)
  else w.method mod Orbit.vRad0 (some ((List.range n).map fun i => w.o.tau * (-(1 / 2) + i * (2 / (n - 1)))))

/-- A call of a method of the orbit. -/
inductive Call
  | eccAnom (ts : List ℝ)
  | trueAnom (ts : List ℝ)
  | K1 (ts : Option (List ℝ))
  | K2 (ts : Option (List ℝ))
  | vRad (ts : Option (List ℝ))
  | phaseVel (n : ℕ)

/-- The state after a call and the exception raised, if any. -/
noncomputable def World.call (mod : Option (ℝ × ℝ × ℝ)) (w : World) : Call → Res World
  | .eccAnom ts => match w.eccAnom mod ts with | (w', .ok _) => ok w' | (w', .error x) => raise x w'
  | .trueAnom ts => w.trueAnom mod ts
  | .K1 ts => match w.method mod Orbit.K1 ts with | (w', .ok _) => ok w' | (w', .error x) => raise x w'
  | .K2 ts => match w.method mod Orbit.K2 ts with | (w', .ok _) => ok w' | (w', .error x) => raise x w'
  | .vRad ts => match w.method mod Orbit.vRad0 ts with | (w', .ok _) => ok w' | (w', .error x) => raise x w'
  | .phaseVel n => match w.phaseVel mod n with | (w', .ok _) => ok w' | (w', .error x) => raise x w'

/-- A history of calls, each made whether or not an earlier one raised an exception (the program caught it). -/
noncomputable def World.run (mod : Option (ℝ × ℝ × ℝ)) (w : World) : List Call → World
  | [] => w
  | c :: cs => World.run mod (w.call mod c).1 cs

end Verif.Signals.Kepler
