import Verif.Common
import Verif.Point.PeriodicProps

/-!
# The class of periodic models: the model

Models the class `PCModel` of sandbox/point/periodic/periodic.py under Python 2 (where a comparison of `None` with a number is an answer, not an exception).  The number of bins and of quadrature points are natural numbers, the parameters real numbers.
`gammaln` of `n + 1` is `log n!`.  The array of counts that the object holds is not part of the state: it is overwritten before every use.
-/

namespace Verif.Point

open Real

/-- The attributes of the object.  `nbins` and `logbfac` are `none` while the attribute does not exist. -/
structure PC where
  data : List ℝ
  nbins : Option ℕ
  qpts : Option ℕ
  absc : Option (List ℝ)
  logbfac : Option ℝ
  offset : Option ℝ
  w : Option ℝ
  wdot : ℝ
  wddot : ℝ
  phases : List ℝ

/-- What a method does: it returns, raises, goes out of bounds in Fortran, takes more turns than the model was allowed, or passes `None` for an array to Fortran (what then happens is left open). -/
inductive Ans (α : Type*)
  | ret (a : α)
  | exc (e : Err)
  | oob
  | short
  | none

def Ans.ofOut {α : Type*} : Out α → Ans α
  | .val a => .ret a
  | .oob => .oob
  | .short => .short

/-- `self.lndfac`: periodic.py:33. -/
noncomputable def PC.lndfac (s : PC) : ℝ := log s.data.length.factorial

/-- `PCModel.set_nbins`: periodic.py:56-70. -/
noncomputable def PC.setNbins (rnd : ℝ → ℝ) (s : PC) (nb : ℕ) : PC :=
  let s := { s with nbins := some nb, offset := .none, logbfac := some (log (nb - 1).factorial + s.data.length * log nb + log s.data.length.factorial - log (s.data.length + nb - 1).factorial) }
  match s.qpts with
  | some (q + 1) => { s with absc := some (trapAbsc rnd (q + 1) nb) }
  | _ => { s with absc := .none }

/-- `PCModel.__init__`: periodic.py:21-54, for a vector of data.  (`absc` is computed here and again by `set_nbins`.) -/
noncomputable def PC.init (rnd : ℝ → ℝ) (data : List ℝ) (nbins qpts : Option ℕ) : PC :=
  let s : PC := { data := data, nbins := .none, qpts := qpts, absc := .none, logbfac := .none, offset := .none, w := .none, wdot := 0, wddot := 0, phases := List.replicate data.length 0 }
  match nbins with
  | some nb => s.setNbins rnd nb
  | .none => s

/-- `PCModel.set_qpts`: periodic.py:72-80; negative numbers raise ValueError before any change. -/
noncomputable def PC.setQpts (rnd : ℝ → ℝ) (s : PC) (n : ℤ) : PC × Ans Unit :=
  if 0 ≤ n then
    let s := { s with qpts := some n.toNat }
    match s.nbins with
    | .none => (s, .exc .attribute)
    | some nb => if nb ≠ 0 ∧ 0 < n then ({ s with absc := some (trapAbsc rnd n.toNat nb) }, .ret ()) else ({ s with absc := .none }, .ret ())
  else (s, .exc .value)

/-- `PCModel._update_params`: periodic.py:88-120.  (`self.wdot` and `self.wddot` are never `None`.) -/
noncomputable def PC.update (s : PC) (w wdot wddot : Option ℝ) : PC × Option Err :=
  match s.nbins with
  | .none => (s, some .attribute)
  | some _ =>
    if w ≠ s.w ∨ wdot ≠ some s.wdot ∨ wddot ≠ some s.wddot then
      match w.or s.w with
      | .none => (s, some .value)
      | some w' =>
        let s := { s with w := some w', wdot := wdot.getD s.wdot, wddot := wddot.getD s.wddot }
        ({ s with phases := phasesdd w' s.wdot s.wddot s.data }, .none)
    else (s, .none)

/-- The bins of the data at phase `phi`: the call of `fbindata` in periodic.py:85, 135, 145. -/
noncomputable def PC.bin (s : PC) (phi : ℝ) : Out (List ℕ) :=
  let nb := s.nbins.getD 0
  (fbindata s.phases phi nb (binbounds nb)).bind fun r => .val r.1

/-- `PCModel.lml_pw`: periodic.py:122-138. -/
noncomputable def PC.lmlPw (s : PC) (phi : ℝ) (w wdot wddot : Option ℝ) : PC × Ans ℝ :=
  match s.update w wdot wddot with
  | (s, some e) => (s, .exc e)
  | (s, .none) =>
    match s.bin phi with
    | .val bins =>
      let lml := limult s.data.length bins
      ({ s with offset := if s.offset = .none then some (-lml) else s.offset }, .ret lml)
    | .oob => (s, .oob)
    | .short => (s, .short)

/-- `PCModel.chi_pw`: periodic.py:140-146. -/
noncomputable def PC.chiPw (s : PC) (phi : ℝ) (w wdot wddot : Option ℝ) : PC × Ans ℝ :=
  match s.update w wdot wddot with
  | (s, some e) => (s, .exc e)
  | (s, .none) =>
    match s.bin phi with
    | .val bins => (s, .ret (chisqr s.data.length bins))
    | .oob => (s, .oob)
    | .short => (s, .short)

/-- `if self.offset is None: self._set_offset()`: periodic.py:82-86, 160, 174, 204. -/
noncomputable def PC.needOffset (s : PC) : PC × Option (Ans (ℝ × ℝ)) :=
  match s.offset with
  | some _ => (s, .none)
  | .none =>
    match s.bin 0 with
    | .val bins => ({ s with offset := some (-limult s.data.length bins) }, .none)
    | .oob => (s, some .oob)
    | .short => (s, some .short)

/-- The quadrature: periodic.py:161-166 and 175-180. -/
noncomputable def PC.quad (fuel : ℕ) (s : PC) : Ans (ℝ × ℝ) :=
  let nb := s.nbins.getD 0
  if s.qpts = some 0 then .ofOut (qlwExact fuel s.lndfac s.phases nb (binbounds nb) (s.offset.getD 0))
  else
    match s.absc with
    | some absc => .ofOut (qlwTrap s.lndfac s.phases nb (binbounds nb) absc (s.offset.getD 0))
    | .none => .none

/-- `PCModel.sml_w` and `PCModel.avgchi_w`, which differ in which member of the pair they return: periodic.py:148-181. -/
noncomputable def PC.smlChi (fuel : ℕ) (s : PC) (w wdot wddot : Option ℝ) : PC × Ans (ℝ × ℝ) :=
  match s.update w wdot wddot with
  | (s, some e) => (s, .exc e)
  | (s, .none) =>
    match s.needOffset with
    | (s, some a) => (s, a)
    | (s, .none) => (s, s.quad fuel)

def Ans.map {α β : Type*} (f : α → β) : Ans α → Ans β
  | .ret a => .ret (f a)
  | .exc e => .exc e
  | .oob => .oob
  | .short => .short
  | .none => .none

/-- `PCModel.sml_w`: periodic.py:148-167. -/
noncomputable def PC.smlW (fuel : ℕ) (s : PC) (w wdot wddot : Option ℝ) : PC × Ans ℝ := ((s.smlChi fuel w wdot wddot).1, (s.smlChi fuel w wdot wddot).2.map Prod.fst)

/-- `PCModel.avgchi_w`: periodic.py:169-181. -/
noncomputable def PC.avgchiW (fuel : ℕ) (s : PC) (w wdot wddot : Option ℝ) : PC × Ans ℝ := ((s.smlChi fuel w wdot wddot).1, (s.smlChi fuel w wdot wddot).2.map Prod.snd)

/-- `PCModel.lml_const`: periodic.py:183-187; `lodds` takes four arguments (_pcperiodic.f:542). -/
def PC.lmlConst (_ : PC) : Ans ℝ := .exc .type

/-- The argument of `rate_est`: a number of phases, or a sequence of them. -/
inductive Phases
  | count (n : ℕ)
  | seq (l : List ℝ)

/-- `PCModel.rate_est`: periodic.py:189-219.  `len` of an integer raises TypeError, which is not the exception that is caught; for a sequence the name `array` is not defined (periodic.py:1).  The rest of the method (periodic.py:213-219) is not reached. -/
noncomputable def PC.rateEst (s : PC) (phases : Phases) (w wdot wddot : Option ℝ) : PC × Ans (List (ℝ × ℝ)) :=
  match s.update w wdot wddot with
  | (s, some e) => (s, .exc e)
  | (s, .none) =>
    match s.needOffset with
    | (s, some .oob) => (s, .oob)
    | (s, some _) => (s, .short)
    | (s, .none) =>
      match phases with
      | .count _ => (s, .exc .type)
      | .seq _ => (s, .exc .name)

/-- Calls on the object. -/
inductive Call
  | setNbins (nb : ℕ)
  | setQpts (n : ℤ)
  | lmlPw (phi : ℝ) (w wdot wddot : Option ℝ)
  | chiPw (phi : ℝ) (w wdot wddot : Option ℝ)
  | smlW (w wdot wddot : Option ℝ)
  | avgchiW (w wdot wddot : Option ℝ)
  | lmlConst
  | rateEst (phases : Phases) (w wdot wddot : Option ℝ)

/-- The object after a call, whether or not it raised. -/
noncomputable def PC.step (rnd : ℝ → ℝ) (fuel : ℕ) (s : PC) : Call → PC
  | .setNbins nb => s.setNbins rnd nb
  | .setQpts n => (s.setQpts rnd n).1
  | .lmlPw phi w wd wdd => (s.lmlPw phi w wd wdd).1
  | .chiPw phi w wd wdd => (s.chiPw phi w wd wdd).1
  | .smlW w wd wdd => (s.smlW fuel w wd wdd).1
  | .avgchiW w wd wdd => (s.avgchiW fuel w wd wdd).1
  | .lmlConst => s
  | .rateEst p w wd wdd => (s.rateEst p w wd wdd).1

/-- The object after a history of calls. -/
noncomputable def PC.run (rnd : ℝ → ℝ) (fuel : ℕ) (s : PC) (calls : List Call) : PC := calls.foldl (PC.step rnd fuel) s

end Verif.Point
