import Verif.Common
import Verif.Grid.GridQuad
import Mathlib.Analysis.SpecialFunctions.Exp

/-!
# The quadrature above a level in logarithms: the model

Models `qgt1` of expt/grid/qgt-slow.py, the Python forerunner of `_gridquad.f` that takes logarithms of the integrand and keeps the sum relative to the largest value so far.  Real numbers are exact.
-/

namespace Verif.HPD.Slow

open Real

/-- The local variables `q`, `amaxp` and `amax`: qgt-slow.py:24-26. -/
structure Acc where
  q : ℝ
  amaxp : ℝ
  amax : ℝ

/-- One turn of the loop for the neighbours `u = a[i]` and `v = a[i+1]`: qgt-slow.py:28-41. -/
noncomputable def step (crit u v : ℝ) (s : Acc) : Acc :=
  if u > crit ∧ v > crit then
    let amax := max (max s.amaxp u) v
    ⟨s.q * exp (s.amaxp - amax) + 1 / 2 * (exp (u - amax) + exp (v - amax)), amax, amax⟩
  else if u > crit ∨ v > crit then
    let hi := max u v
    let lo := min u v
    let amax := max s.amaxp hi
    let lo := exp (lo - amax)
    let hi := exp (hi - amax)
    let c := exp (crit - amax)
    ⟨s.q * exp (s.amaxp - amax) + 1 / 2 * (hi + c) * (hi - c) / (hi - lo), s.amaxp, amax⟩
  else s

/-- The loop: qgt-slow.py:27. -/
noncomputable def loop (crit : ℝ) : List ℝ → Acc → Acc
  | u :: v :: l, s => loop crit (v :: l) (step crit u v s)
  | _, s => s

/-- `qgt1(a, crit)`: qgt-slow.py:14-43: the pair `amax, q`.  (`a[0]` of an empty array raises `IndexError`.) -/
noncomputable def qgt1 (a : List ℝ) (crit : ℝ) : Except Err (ℝ × ℝ) :=
  match a with
  | [] => .error .index
  | x :: l =>
    let s := loop crit (x :: l) ⟨0, x, x⟩
    .ok (s.amax, s.q)

/-! ### Specification -/

/-- No cell in which the level is crossed rises above `m` and above all the cells before it that are entirely above the level. -/
def Tame (crit : ℝ) : ℝ → List ℝ → Prop
  | m, u :: v :: l =>
    if u > crit ∧ v > crit then Tame crit (max (max m u) v) (v :: l)
    else if u > crit ∨ v > crit then max u v ≤ m ∧ Tame crit m (v :: l)
    else Tame crit m (v :: l)
  | _, _ => True

end Verif.HPD.Slow
