import Verif.MC.Twister
import Mathlib.Analysis.SpecialFunctions.Log.Basic
import Mathlib.Analysis.SpecialFunctions.Pow.NNReal

/-!
# The rest of randomkit.c: bytes, seeds from a device, normal deviates

Models `rk_hash`, `rk_randomseed`, `rk_fill` and `rk_gauss` of `package/inference/mc/randomkit.c`, which its header offers to other code (the package does not call them).
The bytes read from the random device are an argument; so are the clocks.  Real numbers are exact: `2.0*d - 1.0` is exact in floating point, the rest is not.
-/

set_option linter.unusedSectionVars false

namespace Verif.MC

/-- The low byte, `r & 0xFF` stored as an `unsigned char` (randomkit.c:269-272, 280). -/
def byte (r : Word) : BitVec 8 := (r &&& 0xFF#64).setWidth 8

/-- The last bytes, randomkit.c:279-280. -/
def lastBytes : ℕ → Word → List (BitVec 8)
  | 0, _ => []
  | n + 1, r => byte r :: lastBytes n (r >>> 8)

/-- `rk_fill`, randomkit.c:261-281: the bytes written. -/
def Rk.fill : ℕ → Rk → Rk × List (BitVec 8)
  | n + 4, s =>
      let (s, r) := s.random
      let (s, l) := Rk.fill n s
      (s, byte r :: byte (r >>> 8) :: byte (r >>> 16) :: byte (r >>> 24) :: l)
  | 0, s => (s, [])
  | n, s =>
      let (s, r) := s.random
      (s, lastBytes n r)

/-- `rk_hash`, randomkit.c:128-138. -/
def hash (key : Word) : Word :=
  let key := key + ~~~(key <<< 15)
  let key := key ^^^ (key >>> 10)
  let key := key + (key <<< 3)
  let key := key ^^^ (key >>> 6)
  let key := key + ~~~(key <<< 11)
  key ^^^ (key >>> 16)

/-- `rk_randomseed`, randomkit.c:140-174: `dev` holds the words read from the device, if that worked. The flag is `RK_NOERR`. -/
def Rk.randomseed (dev : Option (ℕ → Word)) (pid sec usec clk : Word) (s : Rk) : Rk × Bool :=
  match dev with
  | some d => (⟨fun i => if 0 ≤ i ∧ i < 624 then (if i = 0 then d 0 ||| 0x80000000#64 else d i.toNat) &&& 0xffffffff#64 else s.mem i, 624⟩, true)
  | none => (s.seed (hash pid ^^^ hash sec ^^^ hash usec ^^^ hash clk), false)

/-- `rk_state` with `has_gauss` and `gauss`, randomkit.h:66-71. -/
structure Rg where
  rk : Rk
  has : Bool
  g : ℝ

/-- The loop of `rk_gauss`, randomkit.c:340-346, at most `fuel` times. -/
def polar : ℕ → Rk → Option (Rk × ℚ × ℚ)
  | 0, _ => none
  | fuel + 1, s =>
      let (s, a) := s.double
      let (s, b) := s.double
      let x1 := 2 * a - 1
      let x2 := 2 * b - 1
      let r2 := x1 * x1 + x2 * x2
      if r2 ≥ 1 ∨ r2 = 0 then polar fuel s else some (s, x1, x2)

/-- The factor of randomkit.c:348. -/
noncomputable def factor (x1 x2 : ℝ) : ℝ := √(-2 * Real.log (x1 * x1 + x2 * x2) / (x1 * x1 + x2 * x2))

/-- `rk_gauss`, randomkit.c:330-353. -/
noncomputable def Rg.gauss (fuel : ℕ) (s : Rg) : Option (Rg × ℝ) :=
  if s.has then some (⟨s.rk, false, s.g⟩, s.g)
  else (polar fuel s.rk).map fun r => (⟨r.1, true, factor r.2.1 r.2.2 * r.2.1⟩, factor r.2.1 r.2.2 * r.2.2)

/-- `rk_seed` with `has_gauss`, randomkit.c:112-126. -/
noncomputable def Rg.seed (seed : Word) (s : Rg) : Rg := ⟨s.rk.seed seed, false, s.g⟩

/-- `set_rng_state` on the whole structure, _ppssampler.c:541-579: `has_gauss` is not touched. -/
noncomputable def Rg.setState (s : Rg) (id : String) (key : List Word) (pos : ℤ) : Res Rg := (⟨(s.rk.setState id key pos).1, s.has, s.g⟩, (s.rk.setState id key pos).2)

end Verif.MC
