import Verif.Common
import Mathlib.Algebra.Order.Floor.Ring
import Mathlib.Algebra.Order.Field.Basic
import Mathlib.Analysis.SpecialFunctions.Log.Basic
import Mathlib.Analysis.SpecialFunctions.Sqrt

/-!
# Counting with a constant background

Model of `package/inference/count/_cbmlike.f` and of the class `OnOff` of `package/inference/count/onoff.py`.

Double precision numbers are real numbers.  Integers do not overflow.  The interval sizes `t_on` and `t_off` are positive; counts are natural numbers.  The
log gamma function of the file (`gammln`, a Lanczos approximation) is a parameter `g` of the model; `Gammln.lean` models it.
-/

set_option linter.unusedSectionVars false

namespace Verif.OnOff

/-- Assigning a real number to an integer variable truncates it. -/
noncomputable def trunc (x : ℝ) : ℤ := if 0 ≤ x then ⌊x⌋ else ⌈x⌉

/-! ## Signal count probabilities -/

/-- The index at which the recursion starts: _cbmlike.f:162-164. -/
noncomputable def startIdx (non : ℕ) (ton : ℝ) (noff : ℕ) (toff : ℝ) : ℕ :=
  (min (max (trunc (non - ton * noff / toff + 1)) 0) non).toNat

/-- The loop to label 20, `i` from one below the argument down to 0: _cbmlike.f:167-170. -/
noncomputable def downC (tfac n : ℝ) (non : ℕ) : ℕ → (ℕ → ℝ) × ℝ → (ℕ → ℝ) × ℝ
  | 0, st => st
  | i + 1, (c, sum) =>
    let v := c (i + 1) * (((n - i) / (non - i)) / tfac)
    downC tfac n non i (Function.update c i v, sum + v)

/-- The loop to label 30, with `r` rounds to go and `i` the next index: _cbmlike.f:171-174. -/
noncomputable def upC (tfac n : ℝ) (non : ℕ) : ℕ → ℕ → (ℕ → ℝ) × ℝ → (ℕ → ℝ) × ℝ
  | 0, _, st => st
  | r + 1, i, (c, sum) =>
    let v := c (i - 1) * (tfac * ((non - i + 1) / (n - i + 1)))
    upC tfac n non r (i + 1) (Function.update c i v, sum + v)

/-- The coefficients starting from a given index: _cbmlike.f:165-177. -/
noncomputable def coeffsFrom (mode non : ℕ) (ton : ℝ) (noff : ℕ) (toff : ℝ) : List ℝ :=
  let tfac := 1 + toff / ton
  let n : ℝ := non + noff
  let st := downC tfac n non mode (Function.update (fun _ => 0) mode 1, 1)
  let st := upC tfac n non (non - mode) (mode + 1) st
  (List.range (non + 1)).map fun i => st.1 i / st.2

/-- `sigctp(n_on, t_on, n_off, t_off)`: _cbmlike.f:138-181. -/
noncomputable def sigctp (non : ℕ) (ton : ℝ) (noff : ℕ) (toff : ℝ) : List ℝ :=
  coeffsFrom (startIdx non ton noff toff) non ton noff toff

/-! ## Poisson probabilities -/

/-- The saved variables of `ppois` (the table of factorials, entry `n + 1` of the array at `n`, and how far it is filled): _cbmlike.f:567-571. -/
structure Table where
  a : ℕ → ℝ
  ntop : ℕ

/-- `data a(1),ntop/1.,0/`: the other entries are whatever memory holds. -/
def Table.init (junk : ℕ → ℝ) : Table := ⟨fun n => if n = 0 then 1 else junk n, 0⟩

/-- The loop that extends the table, `r` rounds from `j`: _cbmlike.f:583-585. -/
noncomputable def extend : ℕ → ℕ → (ℕ → ℝ) → (ℕ → ℝ)
  | 0, _, a => a
  | r + 1, j, a => extend r (j + 1) (Function.update a j (j * a (j - 1)))

/-- `ppois(n, dm)` with the saved variables: _cbmlike.f:556-596. -/
noncomputable def ppois (g : ℝ → ℝ) (t : Table) (n : ℕ) (dm : ℝ) : Table × ℝ :=
  if dm = 0 then (t, if n = 0 then 1 else 0)
  else if n ≤ t.ntop then (t, dm ^ n * Real.exp (-dm) / t.a n)
  else if n ≤ 32 then
    let a := extend (n - t.ntop) (t.ntop + 1) t.a
    (⟨a, n⟩, dm ^ n * Real.exp (-dm) / a n)
  else (t, Real.exp (n * Real.log dm - dm - g (n + 1)))

/-- The loop of `lppois` that extends both tables: _cbmlike.f:625-628. -/
noncomputable def extend2 : ℕ → ℕ → (ℕ → ℝ) × (ℕ → ℝ) → (ℕ → ℝ) × (ℕ → ℝ)
  | 0, _, ab => ab
  | r + 1, j, (a, b) =>
    let v := j * a (j - 1)
    extend2 r (j + 1) (Function.update a j v, Function.update b j (Real.log v))

/-- `lppois(n, dm)`: _cbmlike.f:599-639.  `b` is what the array of logarithms holds when the function is entered: it is neither initialised nor saved. -/
noncomputable def lppois (g : ℝ → ℝ) (t : Table) (b : ℕ → ℝ) (n : ℕ) (dm : ℝ) : Table × ℝ :=
  if dm = 0 then (t, if n = 0 then 0 else -10 ^ 100)
  else if n ≤ t.ntop then (t, n * Real.log dm - dm - b n)
  else if n ≤ 32 then
    let ab := extend2 (n - t.ntop) (t.ntop + 1) (t.a, b)
    (⟨ab.1, n⟩, n * Real.log dm - dm - ab.2 n)
  else (t, n * Real.log dm - dm - g (n + 1))

/-- The loop of `psigc` over the remaining coefficients, from index `i`: _cbmlike.f:199-201. -/
noncomputable def psigcLoop (g : ℝ → ℝ) (ton st : ℝ) : Table → ℕ → ℝ → List ℝ → Table × ℝ
  | t, _, p, [] => (t, p)
  | t, i, p, c :: cs =>
    let r := ppois g t i st
    psigcLoop g ton st r.1 (i + 1) (p + c * ton * r.2) cs

/-- `psigc(s, n_on, t_on, c)`: _cbmlike.f:184-203. -/
noncomputable def psigc (g : ℝ → ℝ) (t : Table) (s ton : ℝ) (c : List ℝ) : Table × ℝ :=
  psigcLoop g ton (s * ton) t 0 0 c

/-! ## The series for the marginal likelihood -/

/-- The index of the largest term: _cbmlike.f:339-347 (and 228-236, 498-506). -/
noncomputable def kmIdx (stt : ℝ) (non noff : ℕ) : ℤ :=
  let nn : ℝ := non + noff
  let nns := nn + stt - 1
  let disc := nns * nns + 4 * (nn - non * stt)
  if 0 ≤ disc then min (trunc (1 / 2 * (nns - Real.sqrt disc) + 1)) non else non

/-- What a call of `slmlike` sets: the function value (absent if it was not set, as after an underflow, or a NaN), the number of terms and the error flag. -/
structure SlOut where
  ll : Option ℝ
  nt : ℕ
  ierr : ℕ

/-- The loop at label 20, working down: _cbmlike.f:373-379; the argument is `k` before it is decremented. -/
noncomputable def downS (low stt nn : ℝ) (non : ℕ) : ℕ → ℝ → ℝ → ℕ → ℝ × ℕ
  | 0, _, slike, nt => (slike, nt)
  | k + 1, term, slike, nt =>
    let term := term * (nn - k) * (k + 1) / (stt * (non - k))
    if term > low then downS low stt nn non k term (slike + term) (nt + 1) else (slike + term, nt + 1)

/-- The loop at label 40, working up: _cbmlike.f:384-390; `r` terms are left and `k` is its value before it is incremented. -/
noncomputable def upS (low stt nn : ℝ) (non : ℕ) : ℕ → ℕ → ℝ → ℝ → ℕ → ℝ × ℕ
  | 0, _, _, slike, nt => (slike, nt)
  | r + 1, k, term, slike, nt =>
    let term := term * stt * (non - (k + 1 : ℕ) + 1) / ((k + 1 : ℕ) * (nn - (k + 1 : ℕ) + 1))
    if term > low then upS low stt nn non r (k + 1) term (slike + term) (nt + 1) else (slike + term, nt + 1)

/-- The logarithm of the first term: _cbmlike.f:348-352. -/
noncomputable def lterm (g : ℝ → ℝ) (s ton toff offset : ℝ) (non noff : ℕ) (km : ℤ) : ℝ :=
  let stt := s * (ton + toff)
  let arg2 : ℝ := non - km + 1
  let arg1 := arg2 + noff
  let arg3 : ℝ := km + 1
  km * Real.log stt + g arg1 - g arg2 - g arg3 - s * ton - offset

/-- `slmlike(s, n_on, t_on, n_off, t_off, offset, cut)`: _cbmlike.f:288-396.  For negative `s` the logarithm of `stt` is a NaN and so is the result. -/
noncomputable def slmlike (g : ℝ → ℝ) (s : ℝ) (non : ℕ) (ton : ℝ) (noff : ℕ) (toff offset cut : ℝ) : SlOut :=
  if s = 0 then ⟨some (g (non + noff + 1) - g (non + 1) - offset), 1, 0⟩
  else if s < 0 then ⟨none, 1, 0⟩
  else
    let stt := s * (ton + toff)
    let nn : ℝ := non + noff
    let km := kmIdx stt non noff
    let lt := lterm g s ton toff offset non noff km
    if lt < -700 ∨ lt > 700 then ⟨none, 1, 1⟩
    else
      let lt := Real.exp lt
      let low := cut * lt
      let d := downS low stt nn non km.toNat lt lt 1
      let u := upS low stt nn non (non - km.toNat) km.toNat lt d.1 d.2
      ⟨some (Real.log u.1), u.2, 0⟩

/-- The loop at label 20 of `slmliked`: _cbmlike.f:530-537. -/
noncomputable def downD (low s ton stt nn : ℝ) (non : ℕ) : ℕ → ℝ → ℝ → ℝ → ℕ → ℝ × ℝ × ℕ
  | 0, _, slike, dsl, nt => (slike, dsl, nt)
  | k + 1, term, slike, dsl, nt =>
    let term := term * (nn - k) * (k + 1) / (stt * (non - k))
    if term > low then downD low s ton stt nn non k term (slike + term) (dsl + term * (k / s - ton)) (nt + 1)
    else (slike + term, dsl + term * (k / s - ton), nt + 1)

/-- The loop at label 40 of `slmliked`: _cbmlike.f:540-548. -/
noncomputable def upD (low s ton stt nn : ℝ) (non : ℕ) : ℕ → ℕ → ℝ → ℝ → ℝ → ℕ → ℝ × ℝ × ℕ
  | 0, _, _, slike, dsl, nt => (slike, dsl, nt)
  | r + 1, k, term, slike, dsl, nt =>
    let term := term * stt * (non - (k + 1 : ℕ) + 1) / ((k + 1 : ℕ) * (nn - (k + 1 : ℕ) + 1))
    if term > low then upD low s ton stt nn non r (k + 1) term (slike + term) (dsl + term * ((k + 1 : ℕ) / s - ton)) (nt + 1)
    else (slike + term, dsl + term * ((k + 1 : ℕ) / s - ton), nt + 1)

/-- What a call of `slmliked` sets. -/
structure SldOut where
  sll : Option ℝ
  dsll : Option ℝ
  nt : ℕ
  ierr : ℕ

/-- `slmliked(s, n_on, t_on, n_off, t_off, offset, cut)`: _cbmlike.f:440-553.  The log gamma function is infinite at 0 (the first term of its series divides by zero): without counts on
source the term at `s = 0` is zero, and a NaN if there are no counts off source either. -/
noncomputable def slmliked (g : ℝ → ℝ) (s : ℝ) (non : ℕ) (ton : ℝ) (noff : ℕ) (toff offset cut : ℝ) : SldOut :=
  if s = 0 then
    let sll := g (non + noff + 1) - g (non + 1) - offset
    let term := Real.log (1 + toff / ton) + g (non + noff + 1 - 1) - g (non + 1 - 1) - offset
    ⟨some sll, if non = 0 then (if noff = 0 then none else some (ton * (0 - 1))) else some (ton * (Real.exp (term - sll) - 1)), 1, 0⟩
  else if s < 0 then ⟨none, none, 1, 0⟩
  else
    let stt := s * (ton + toff)
    let nn : ℝ := non + noff
    let km := kmIdx stt non noff
    let lt := lterm g s ton toff offset non noff km
    if lt < -700 ∨ lt > 700 then ⟨none, none, 1, 1⟩
    else
      let lt := Real.exp lt
      let low := cut * lt
      let dsl := lt * (km / s - ton)
      let d := downD low s ton stt nn non km.toNat lt lt dsl 1
      let u := upD low s ton stt nn non (non - km.toNat) km.toNat lt d.1 d.2.1 d.2.2
      ⟨some (Real.log u.1), some (u.2.1 / u.1), u.2.2, 0⟩

/-- `slml_offset(n_on, t_on, n_off, t_off)`: _cbmlike.f:206-257; `none` if a logarithm of a number that is not positive is taken. -/
noncomputable def slmlOffset (g : ℝ → ℝ) (non : ℕ) (ton : ℝ) (noff : ℕ) (toff : ℝ) : Option ℝ :=
  let stt := (non / ton - noff / toff) * (ton + toff)
  let km := kmIdx stt non noff
  if km ≤ 0 then
    let arg2 : ℝ := non + 1
    let arg1 := arg2 + noff
    some (g arg1 - g arg2)
  else if stt ≤ 0 then none
  else
    let arg2 : ℝ := non - km + 1
    let arg1 := arg2 + noff
    let arg3 : ℝ := km + 1
    some (km * Real.log stt + g arg1 - g arg2 - g arg3 - (non - noff * ton / toff))

/-! ## The class `OnOff` -/

/-- An `OnOff` object: onoff.py:70-77; `p` is the cached array of signal count probabilities. -/
structure Obj where
  onCts : ℕ
  onIntvl : ℝ
  offCts : ℕ
  offIntvl : ℝ
  cutoff : ℝ
  offset : Option ℝ
  p : Option (List ℝ)

/-- `OnOff(on_cts, on_intvl, off_cts, off_intvl, cutoff)`: onoff.py:38-77. -/
noncomputable def Obj.new (g : ℝ → ℝ) (onCts : ℕ) (onIntvl : ℝ) (offCts : ℕ) (offIntvl cutoff : ℝ) : Obj :=
  ⟨onCts, onIntvl, offCts, offIntvl, cutoff, slmlOffset g onCts onIntvl offCts offIntvl, none⟩

/-- Fill the cache if it is empty: onoff.py:154-156, 200-202. -/
noncomputable def Obj.fill (o : Obj) : Obj :=
  match o.p with
  | some _ => o
  | none => { o with p := some (sigctp o.onCts o.onIntvl o.offCts o.offIntvl) }

/-- What `pnsig` returns. -/
inductive PnOut
  | num (x : ℝ)
  | array (xs : List ℝ)
  | err (e : Err)

/-- `pnsig(n)`: onoff.py:184-210.  `if n:` is false for `None` and for 0. -/
noncomputable def Obj.pnsig (o : Obj) (n : Option ℤ) : Obj × PnOut :=
  let o := o.fill
  let p := o.p.getD []
  match n with
  | none => (o, .array p)
  | some n =>
    if n = 0 then (o, .array p)
    else if n < 0 ∨ n > o.onCts then (o, .err .value)
    else (o, match p[n.toNat]? with
      | some x => .num x
      | none => .err .index)

/-- The caller writes into an array that `pnsig()` returned: a basic slice of a NumPy array shares its memory with the array: onoff.py:210. -/
def Obj.write (o : Obj) (i : ℕ) (x : ℝ) : Obj := { o with p := o.p.map fun p => p.set i x }

/-- `siglml(s)` for a number: onoff.py:101-107.  An offset that is a NaN makes the result one. -/
noncomputable def Obj.siglml (g : ℝ → ℝ) (o : Obj) (s : ℝ) : Except Err (Option ℝ) :=
  match o.offset with
  | none => .ok none
  | some off =>
    let r := slmlike g s o.onCts o.onIntvl o.offCts o.offIntvl off o.cutoff
    if r.ierr ≠ 0 then .error .value else .ok r.ll

/-- `sigmp(s)` for a number: onoff.py:153-160, with the saved variables of `ppois`. -/
noncomputable def Obj.sigmp (g : ℝ → ℝ) (t : Table) (o : Obj) (s : ℝ) : Table × Obj × ℝ :=
  let o := o.fill
  let r := psigc g t s o.onIntvl (o.p.getD [])
  (r.1, o, r.2)

/-- The element type of a NumPy array. -/
inductive DType
  | int
  | float
  deriving DecidableEq

/-- Storing a number in an array made by `zeros_like(s)`: it has the element type of `s`. -/
noncomputable def store (d : DType) (x : ℝ) : ℝ :=
  match d with
  | .int => trunc x
  | .float => x

/-- The loop of `siglml(s)` over the elements of a one dimensional array: onoff.py:111-116.  A NaN (no value) is stored as such. -/
noncomputable def siglmlLoop (g : ℝ → ℝ) (o : Obj) (d : DType) : List ℝ → Except Err (List (Option ℝ))
  | [] => .ok []
  | s :: ss =>
    match o.siglml g s with
    | .error e => .error e
    | .ok l =>
      match siglmlLoop g o d ss with
      | .error e => .error e
      | .ok ls => .ok (l.map (store d) :: ls)

/-- What the vector methods return: `float(s)` succeeds for an array of length one. -/
inductive VecOut (α : Type)
  | num (x : α)
  | array (xs : List α)

/-- `siglml(s)` for a one dimensional array: onoff.py:101-117. -/
noncomputable def Obj.siglmlV (g : ℝ → ℝ) (o : Obj) (d : DType) (ss : List ℝ) : Except Err (VecOut (Option ℝ)) :=
  match ss with
  | [s] => (o.siglml g s).map .num
  | ss => (siglmlLoop g o d ss).map .array

/-- The loop of `sigmp(s)` over the elements of a one dimensional array: onoff.py:161-166. -/
noncomputable def sigmpLoop (g : ℝ → ℝ) (d : DType) (ton : ℝ) (c : List ℝ) : Table → List ℝ → Table × List ℝ
  | t, [] => (t, [])
  | t, s :: ss =>
    let r := psigc g t s ton c
    let r' := sigmpLoop g d ton c r.1 ss
    (r'.1, store d r.2 :: r'.2)

/-- `sigmp(s)` for a one dimensional array: onoff.py:153-167. -/
noncomputable def Obj.sigmpV (g : ℝ → ℝ) (t : Table) (o : Obj) (d : DType) (ss : List ℝ) : Table × Obj × VecOut ℝ :=
  let o := o.fill
  match ss with
  | [s] =>
    let r := psigc g t s o.onIntvl (o.p.getD [])
    (r.1, o, .num r.2)
  | ss =>
    let r := sigmpLoop g d o.onIntvl (o.p.getD []) t ss
    (r.1, o, .array r.2)

end Verif.OnOff
