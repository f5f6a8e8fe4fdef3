import Mathlib.Algebra.Order.Ring.Rat
import Mathlib.Data.Nat.Size
import Verif.Common

/-!
# MT19937: the specification

The Mersenne Twister MT19937 as published (Matsumoto and Nishimura 1998): a recurrence on words of 32 bits and a tempering of each word; Knuth's initialisation; and the numbers
made from the words.  Nothing here refers to the model of the code.
-/

namespace Verif.MC.MT

/-- The recurrence: the word 624 places after `u`, from `u`, the next word `v`, and the word `m` 397 places after `u`. -/
def next (u v m : BitVec 32) : BitVec 32 :=
  let y := (u &&& 0x80000000#32) ||| (v &&& 0x7fffffff#32)
  m ^^^ (y >>> 1) ^^^ (if y.getLsbD 0 then 0x9908b0df#32 else 0#32)

/-- The sequence of words with the first 624 given. -/
def seq (key : ℕ → BitVec 32) (n : ℕ) : BitVec 32 :=
  if _h : n < 624 then key n else next (seq key (n - 624)) (seq key (n - 624 + 1)) (seq key (n - 624 + 397))

/-- Tempering. -/
def temper (x : BitVec 32) : BitVec 32 :=
  let y := x ^^^ (x >>> 11)
  let y := y ^^^ ((y <<< 7) &&& 0x9d2c5680#32)
  let y := y ^^^ ((y <<< 15) &&& 0xefc60000#32)
  y ^^^ (y >>> 18)

/-- The words given out. -/
def out (key : ℕ → BitVec 32) (n : ℕ) : ℕ := (temper (seq key n)).toNat

/-- The initial words for a seed. -/
def init (seed : BitVec 32) : ℕ → BitVec 32
  | 0 => seed
  | n + 1 => 1812433253#32 * (init seed n ^^^ (init seed n >>> 30)) + BitVec.ofNat 32 (n + 1)

/-- A number with 53 bits from the words at `n` and `n + 1`, over `2 ^ 53`. -/
def real (w : ℕ → ℕ) (n : ℕ) : ℚ := ((w n / 2 ^ 5 * 2 ^ 26 + w (n + 1) / 2 ^ 6 : ℕ) : ℚ) / 2 ^ 53

/-- The number tried for `0..hi` from the words at `n` and `n + 1`: as many low bits as `hi` has. -/
def trial (w : ℕ → ℕ) (hi n : ℕ) : ℕ := (w n * 2 ^ 32 + w (n + 1)) % 2 ^ hi.size

/-- The first of `fuel` trials that is in range, with the place of the next word. -/
def first (w : ℕ → ℕ) (hi : ℕ) : ℕ → ℕ → Option (ℕ × ℕ)
  | 0, _ => none
  | fuel + 1, n => if trial w hi n ≤ hi then some (n + 2, trial w hi n) else first w hi fuel (n + 2)

/-- A number from 0 to `hi`; none is drawn when there is only one. -/
def int (w : ℕ → ℕ) (hi fuel n : ℕ) : Option (ℕ × ℕ) := if hi = 0 then some (n, 0) else first w hi fuel n

/-- Calls a user makes: a number from 0 to 1, or an integer from 0 to `hi`. -/
inductive Call where
  | rand
  | irand (hi : ℤ)

/-- The numbers a list of calls gives from word `n` on, with at most `fuel` trials for each. -/
def calls (w : ℕ → ℕ) (fuel : ℕ) : List Call → ℕ → Option (ℕ × List ℚ)
  | [], n => some (n, [])
  | .rand :: cs, n => (calls w fuel cs (n + 2)).map fun r => (r.1, real w n :: r.2)
  | .irand hi :: cs, n => (int w hi.toNat fuel n).bind fun a => (calls w fuel cs a.1).map fun r => (r.1, (a.2 : ℚ) :: r.2)

end Verif.MC.MT
