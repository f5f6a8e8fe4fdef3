import Verif.Count.OnOff

/-!
# The compiled counting routines as they are called from Python

Models package/inference/count/_cbmlikemodule.c (the wrappers that convert arguments, allocate results and call the Fortran routines) and the routines of package/inference/count/_cbmlike.f
that index arrays, with every access checked against the size of the array.  Not modelled: reference counts, the conversion of the elements of arrays, strings as numbers, and overflow of sums of counts.
`array_from_pyobj` is part of NumPy: for a dimension that is given it accepts arrays of exactly that length, for a negative one any length, and it refuses to make an array of negative length.
The error of the module itself, which failed checks raise, is modelled as `ValueError`.
-/

namespace Verif.OnOff.Wrap

/-- A Python object given as a number. `long` integers are those beyond 64 bits. -/
inductive Arg
  | int (z : ℤ)
  | float (x : ℝ)
  | seq (first : Arg)
  | empty
  | other

/-- Conversion of a number to a C `int`. -/
def wrap32 (z : ℤ) : ℤ := Int.bmod z (2 ^ 32)

/-- What a `long` has where an `int` has its value is given by `junk`. -/
def fromLong (junk : ℤ → ℤ) (z : ℤ) : ℤ := if -2 ^ 63 ≤ z ∧ z < 2 ^ 63 then wrap32 z else wrap32 (junk z)

/-- `int_from_pyobj`: _cbmlikemodule.c:168-197.  A float is truncated, of a sequence the first item is taken. -/
noncomputable def intOf (junk : ℤ → ℤ) : Arg → Except Err ℤ
  | .int z => .ok (fromLong junk z)
  | .float x => .ok (fromLong junk (trunc x))
  | .seq a => intOf junk a
  | .empty => .error .index
  | .other => .error .type

/-- What a call can lead to: a result, an exception, or an access outside an array. -/
inductive Out (α : Type)
  | ok (x : α)
  | exc (e : Err)
  | fault

/-- An array of doubles whose first index is `lo`. -/
structure Arr where
  lo : ℤ
  size : ℤ
  v : ℤ → ℝ

/-- The index is one of the array. -/
def Arr.has (a : Arr) (i : ℤ) : Bool := decide (a.lo ≤ i) && decide (i < a.lo + a.size)

/-- Read an entry. -/
def Arr.get (a : Arr) (i : ℤ) : Option ℝ := if a.has i then some (a.v i) else none

/-- Write an entry. -/
def Arr.set (a : Arr) (i : ℤ) (x : ℝ) : Option Arr := if a.has i then some { a with v := Function.update a.v i x } else none

/-- The loop to label 20, `r` rounds from index `i` down: _cbmlike.f:168-171. -/
noncomputable def downZ (tfac n : ℝ) (non : ℤ) : ℕ → ℤ → Arr × ℝ → Option (Arr × ℝ)
  | 0, _, st => some st
  | r + 1, i, (c, sum) => do
    let x ← c.get (i + 1)
    let v := x * (((n - i) / (non - i)) / tfac)
    let c ← c.set i v
    downZ tfac n non r (i - 1) (c, sum + v)

/-- The loop to label 30, `r` rounds from index `i` up: _cbmlike.f:172-175. -/
noncomputable def upZ (tfac n : ℝ) (non : ℤ) : ℕ → ℤ → Arr × ℝ → Option (Arr × ℝ)
  | 0, _, st => some st
  | r + 1, i, (c, sum) => do
    let x ← c.get (i - 1)
    let v := x * (tfac * ((non - i + 1) / (n - i + 1)))
    let c ← c.set i v
    upZ tfac n non r (i + 1) (c, sum + v)

/-- The loop to label 40, `r` rounds from index `i` up: _cbmlike.f:176-178. -/
noncomputable def normZ (sum : ℝ) : ℕ → ℤ → Arr → Option Arr
  | 0, _, c => some c
  | r + 1, i, c => do
    let x ← c.get i
    let c ← c.set i (x / sum)
    normZ sum r (i + 1) c

/-- `sigctp(n_on, t_on, n_off, t_off, c)` for any integers and any array: _cbmlike.f:138-181. -/
noncomputable def sigctpZ (non : ℤ) (ton : ℝ) (noff : ℤ) (toff : ℝ) (c : Arr) : Option Arr := do
  let tfac := 1 + toff / ton
  let n : ℝ := non + noff
  let mode := min (max (trunc (non - ton * noff / toff + 1)) 0) non
  let c ← c.set mode 1
  let st ← downZ tfac n non mode.toNat (mode - 1) (c, 1)
  let st ← upZ tfac n non (non - mode).toNat (mode + 1) st
  normZ st.2 (non + 1).toNat 0 st.1

/-- The entries of an array as a list. -/
def Arr.list (a : Arr) : List ℝ := (List.range a.size.toNat).map fun i : ℕ => a.v (a.lo + i)

/-- `_cbmlike.sigctp(n_on, t_on, n_off, t_off)`: _cbmlikemodule.c:274-371.  The length of the result is computed as a C `int`; `mem` is what its memory holds. -/
noncomputable def sigctpW (junk : ℤ → ℤ) (mem : ℤ → ℝ) (non : Arg) (ton : ℝ) (noff : Arg) (toff : ℝ) : Out (List ℝ) :=
  match intOf junk non with
  | .error e => .exc e
  | .ok n =>
    match intOf junk noff with
    | .error e => .exc e
    | .ok m =>
      let dims := wrap32 (n + 1)
      if dims < 0 then .exc .value
      else
        match sigctpZ n ton m toff ⟨0, dims, mem⟩ with
        | none => .fault
        | some c => .ok c.list

/-- The loop of `psigc` with checked accesses, `r` rounds from `i`: _cbmlike.f:198-200. -/
noncomputable def psigcZ (g : ℝ → ℝ) (ton st : ℝ) (c : List ℝ) : ℕ → ℕ → Table → ℝ → Option (Table × ℝ)
  | 0, _, t, p => some (t, p)
  | r + 1, i, t, p =>
    match c[i]? with
    | none => none
    | some x =>
      let q := ppois g t i st
      psigcZ g ton st c r (i + 1) q.1 (p + x * ton * q.2)

/-- `_cbmlike.psigc(s, t_on, c, n_on)`: _cbmlikemodule.c:386-485.  Without `n_on` it is one less than the length of `c`. -/
noncomputable def psigcW (g : ℝ → ℝ) (junk : ℤ → ℤ) (t : Table) (s ton : ℝ) (c : List ℝ) (non : Option Arg) : Out (Table × ℝ) :=
  match (match non with | none => .ok ((c.length : ℤ) - 1) | some a => intOf junk a : Except Err ℤ) with
  | .error e => .exc e
  | .ok n =>
    if (c.length : ℤ) - 1 ≥ n then
      match psigcZ g ton (s * ton) c (n + 1).toNat 0 t 0 with
      | none => .fault
      | some r => .ok r
    else .exc .value

/-- `array_from_pyobj` for an argument of `len` elements and a dimension. -/
def accepts (dims : ℤ) (len : ℕ) : Bool := decide (dims < 0) || decide (dims = len)

/-- The loop of `vslml_offset`, `r` rounds from index `i` (counted from 0): _cbmlike.f:280-282. -/
noncomputable def offsetLoop (g : ℝ → ℝ) (non : List ℕ) (ton : ℝ) (noff : List ℕ) (toff : ℝ) (size : ℕ) : ℕ → ℕ → Option (List (Option ℝ))
  | 0, _ => some []
  | r + 1, i => do
    let a ← non[i]?
    let b ← noff[i]?
    if i < size then
      let rest ← offsetLoop g non ton noff toff size r (i + 1)
      some (slmlOffset g a ton b toff :: rest)
    else none

/-- `_cbmlike.vslml_offset(n_on, t_on, n_off, t_off, nc)`: _cbmlikemodule.c:598-731. -/
noncomputable def vslmlOffsetW (g : ℝ → ℝ) (junk : ℤ → ℤ) (non : List ℕ) (ton : ℝ) (noff : List ℕ) (toff : ℝ) (nc : Option Arg) : Out (List (Option ℝ)) :=
  match (match nc with | none => .ok (non.length : ℤ) | some a => intOf junk a : Except Err ℤ) with
  | .error e => .exc e
  | .ok n =>
    if (non.length : ℤ) ≥ n then
      if accepts n noff.length then
        if n < 0 then .exc .value
        else
          match offsetLoop g non ton noff toff n.toNat n.toNat 0 with
          | none => .fault
          | some l => .ok l
      else .exc .value
    else .exc .value

/-- The loop of `vslmlike`, `r` rounds from index `i` (counted from 0): _cbmlike.f:431-434.  The number of terms and the error flag of each call are dropped. -/
noncomputable def likeLoop (g : ℝ → ℝ) (s : List ℝ) (non : List ℕ) (ton : ℝ) (noff : List ℕ) (toff : ℝ) (offset : List ℝ) (cut : ℝ) (size : ℕ) : ℕ → ℕ → Option (List (Option ℝ))
  | 0, _ => some []
  | r + 1, i => do
    let x ← s[i]?
    let a ← non[i]?
    let b ← noff[i]?
    let o ← offset[i]?
    if i < size then
      let rest ← likeLoop g s non ton noff toff offset cut size r (i + 1)
      some ((slmlike g x a ton b toff o cut).ll :: rest)
    else none

/-- `_cbmlike.vslmlike(s, n_on, t_on, n_off, t_off, offset, cut, nc)`: _cbmlikemodule.c:879-1059. -/
noncomputable def vslmlikeW (g : ℝ → ℝ) (junk : ℤ → ℤ) (s : List ℝ) (non : List ℕ) (ton : ℝ) (noff : List ℕ) (toff : ℝ) (offset : List ℝ) (cut : ℝ) (nc : Option Arg) : Out (List (Option ℝ)) :=
  match (match nc with | none => .ok (s.length : ℤ) | some a => intOf junk a : Except Err ℤ) with
  | .error e => .exc e
  | .ok n =>
    if (s.length : ℤ) ≥ n then
      if accepts n non.length && accepts n noff.length && accepts n offset.length then
        if n < 0 then .exc .value
        else
          match likeLoop g s non ton noff toff offset cut n.toNat n.toNat 0 with
          | none => .fault
          | some l => .ok l
      else .exc .value
    else .exc .value

end Verif.OnOff.Wrap
