import Mathlib.Algebra.Order.Ring.Rat
import Mathlib.Logic.Function.Basic
import Verif.MC.TwisterSpec

/-!
# The random number generator of the C sampler: the model

Models `package/inference/mc/randomkit.c` (`rk_seed`, `rk_random`, `rk_ulong`, `rk_long`, `rk_interval`, `rk_double`) and the functions `set_rng_state`, `get_rng_state`, `local_irand` and `local_rand` of
`package/inference/mc/_ppssampler.c`, for a platform where `unsigned long` has 64 bits.

`rk_randomseed`, `rk_hash`, `rk_fill` and `rk_gauss`, which the package does not call, are modelled in `Verif.MC.Fill`; the device read by `rk_devfill` is an argument there.
-/

set_option linter.unusedSectionVars false

namespace Verif.MC

/-- `unsigned long` -/
abbrev Word := BitVec 64

/-- `rk_state`, randomkit.h:66-71: the array `key` and `pos`.  The array has the offsets 0 to 623; at other offsets `mem` is whatever memory holds there (writes to the array are taken not to change it). -/
structure Rk where
  mem : ℤ → Word
  pos : ℤ

/-- randomkit.c:193-194, 198-199 and 201-202: the new word from `key[i]`, `key[i+1]` and `key[i+M]`. -/
def twist (u v m : Word) : Word :=
  let y := (u &&& 0x80000000#64) ||| (v &&& 0x7fffffff#64)
  m ^^^ (y >>> 1) ^^^ ((-(y &&& 1#64)) &&& 0x9908b0df#64)

/-- randomkit.c:191-200: the body of the loops over `i`, with the other word taken from `i + off`. -/
def genLoop (off : ℤ) : ℕ → ℤ → (ℤ → Word) → ℤ → Word
  | 0, _, key => key
  | cnt + 1, i, key => genLoop off cnt (i + 1) (Function.update key i (twist (key i) (key (i + 1)) (key (i + off))))

/-- randomkit.c:189-205: a new block of words. -/
def Rk.regen (s : Rk) : Rk :=
  let key := genLoop 397 (624 - 397) 0 s.mem
  let key := genLoop (397 - 624) (624 - 1 - (624 - 397)) (624 - 397) key
  ⟨Function.update key (624 - 1) (twist (key (624 - 1)) (key 0) (key (397 - 1))), 0⟩

/-- randomkit.c:209-213: tempering. -/
def temper (y : Word) : Word :=
  let y := y ^^^ (y >>> 11)
  let y := y ^^^ ((y <<< 7) &&& 0x9d2c5680#64)
  let y := y ^^^ ((y <<< 15) &&& 0xefc60000#64)
  y ^^^ (y >>> 18)

/-- `rk_random`, randomkit.c:183-216. -/
def Rk.random (s : Rk) : Rk × Word :=
  let s := if s.pos = 624 then s.regen else s
  (⟨s.mem, s.pos + 1⟩, temper (s.mem s.pos))

/-- `rk_ulong`, randomkit.c:223-230.  (C does not fix the order of the two calls; left to right is assumed.) -/
def Rk.ulong (s : Rk) : Rk × Word :=
  let (s, a) := s.random
  let (s, b) := s.random
  (s, (a <<< 32) ||| b)

/-- `rk_long`, randomkit.c:218-221. -/
def Rk.long (s : Rk) : Rk × Word :=
  let (s, a) := s.ulong
  (s, a >>> 1)

/-- randomkit.c:234-246: the bit mask. -/
def bitMask (max : Word) : Word :=
  let mask := max
  let mask := mask ||| (mask >>> 1)
  let mask := mask ||| (mask >>> 2)
  let mask := mask ||| (mask >>> 4)
  let mask := mask ||| (mask >>> 8)
  let mask := mask ||| (mask >>> 16)
  mask ||| (mask >>> 32)

/-- randomkit.c:249: the search for a value, with at most `fuel` trials. -/
def Rk.search (max mask : Word) : ℕ → Rk → Option (Rk × Word)
  | 0, _ => none
  | fuel + 1, s =>
    let (s, v) := s.ulong
    let value := v &&& mask
    if value > max then Rk.search max mask fuel s else some (s, value)

/-- `rk_interval`, randomkit.c:232-252; none if more than `fuel` trials are needed. -/
def Rk.interval (fuel : ℕ) (max : Word) (s : Rk) : Option (Rk × Word) :=
  if max = 0 then some (s, 0) else Rk.search max (bitMask max) fuel s

/-- `rk_double`, randomkit.c:254-259, as an exact quotient (for words of 32 bits that is the double). -/
def Rk.double (s : Rk) : Rk × ℚ :=
  let (s, r) := s.random
  let (s, r') := s.random
  (s, (((r >>> 5).toNat : ℚ) * 67108864 + ((r' >>> 6).toNat : ℚ)) / 9007199254740992)

/-- randomkit.c:118-122: the loop of `rk_seed`. -/
def seedLoop : ℕ → ℤ → Word → (ℤ → Word) → ℤ → Word
  | 0, _, _, key => key
  | cnt + 1, pos, seed, key =>
    seedLoop cnt (pos + 1) ((1812433253#64 * (seed ^^^ (seed >>> 30)) + BitVec.ofInt 64 pos + 1#64) &&& 0xffffffff#64) (Function.update key pos seed)

/-- `rk_seed`, randomkit.c:112-126. -/
def Rk.seed (seed : Word) (s : Rk) : Rk := ⟨seedLoop 624 0 (seed &&& 0xffffffff#64) s.mem, 624⟩

/-- `static rk_state rng_state`, _ppssampler.c:70: static memory starts as zeros. -/
def Rk.start (mem : ℤ → Word) : Rk := ⟨fun i => if 0 ≤ i ∧ i < 624 then 0 else mem i, 0⟩

/-- `set_rng_state`, _ppssampler.c:541-579. -/
def Rk.setState (s : Rk) (id : String) (key : List Word) (pos : ℤ) : Res Rk :=
  if id ≠ "MT19937" then (s, some .value)
  else if key.length ≠ 624 then (s, some .value)
  else (⟨fun i => if 0 ≤ i ∧ i < 624 then key.getD i.toNat 0 else s.mem i, pos⟩, none)

/-- `get_rng_state`, _ppssampler.c:587-612. -/
def Rk.getState (s : Rk) : String × List Word × ℤ := ("MT19937", (List.range 624).map fun i : ℕ => s.mem i, s.pos)

/-- `local_irand`, _ppssampler.c:621-635: `hi` is an `int`, and the result a `long`. -/
def Rk.irand (fuel : ℕ) (hi : ℤ) (s : Rk) : Option (Rk × ℤ) := (s.interval fuel (BitVec.ofInt 64 hi)).map fun r => (r.1, r.2.toInt)

/-- `local_rand`, _ppssampler.c:644-657. -/
def Rk.rand (s : Rk) : Rk × ℚ := s.double

/-- A session: the results of a list of calls of `local_rand` and `local_irand`; none if one needs more than `fuel` trials. -/
def Rk.run (fuel : ℕ) : List MT.Call → Rk → Option (Rk × List ℚ)
  | [], s => some (s, [])
  | .rand :: cs, s => (Rk.run fuel cs s.rand.1).map fun r => (r.1, s.rand.2 :: r.2)
  | .irand hi :: cs, s => (s.irand fuel hi).bind fun a => (Rk.run fuel cs a.1).map fun r => (r.1, (a.2 : ℚ) :: r.2)

end Verif.MC
