import Verif.MC.Fill

/-!
# Bytes and seeds from the random devices: the model

Models `rk_devfill` and `rk_altfill` of `package/inference/mc/randomkit.c`, and `rk_randomseed` again, down to the bytes that the device delivers: a device may be missing, or fail after any number of bytes.  The branches for Windows are not modelled; `unsigned long` has 64 bits, least significant byte first.
-/

namespace Verif.MC

/-- The two devices: `none` if it cannot be opened, otherwise the bytes that can be read from it before the end or a failure. -/
structure Devices where
  random : Option (List (BitVec 8))
  urandom : Option (List (BitVec 8))

/-- `rk_devfill` on Unix, randomkit.c:283-298, 316: the memory afterwards and whether `RK_NOERR` is returned.  `fread(buffer, size, 1, rfile)` stores what there is and returns 1 if that is all `size` bytes, except that for `size` 0 it returns 0 (C11, 7.21.8.1). -/
def devfill (d : Devices) (size : ℕ) (strong : Bool) (buf : List (BitVec 8)) : List (BitVec 8) × Bool :=
  match if strong then d.random else d.urandom with
  | none => (buf, false)
  | some l =>
    let got := l.take size
    let done : ℕ := if size = 0 then 0 else if got.length = size then 1 else 0
    (got ++ buf.drop got.length, done ≠ 0)

/-- `rk_altfill`, randomkit.c:319-328. -/
def Rk.altfill (d : Devices) (size : ℕ) (strong : Bool) (buf : List (BitVec 8)) (s : Rk) : Rk × List (BitVec 8) × Bool :=
  let r := devfill d size strong buf
  if r.2 then (s, r.1, true)
  else ((s.fill size).1, (s.fill size).2 ++ r.1.drop (s.fill size).2.length, false)

/-- The word number `i` of a block of memory. -/
def wordAt (buf : List (BitVec 8)) (i : ℕ) : Word :=
  (buf.getD (8 * i) 0).setWidth 64 ||| (buf.getD (8 * i + 1) 0).setWidth 64 <<< 8 ||| (buf.getD (8 * i + 2) 0).setWidth 64 <<< 16 |||
    (buf.getD (8 * i + 3) 0).setWidth 64 <<< 24 ||| (buf.getD (8 * i + 4) 0).setWidth 64 <<< 32 ||| (buf.getD (8 * i + 5) 0).setWidth 64 <<< 40 |||
    (buf.getD (8 * i + 6) 0).setWidth 64 <<< 48 ||| (buf.getD (8 * i + 7) 0).setWidth 64 <<< 56

/-- The memory of `state->key`. -/
def keyBytes (s : Rk) : List (BitVec 8) := (List.range (8 * 624)).map fun i : ℕ => (s.mem ((i / 8 : ℕ) : ℤ) >>> (8 * (i % 8))).setWidth 8

/-- `rk_randomseed`, randomkit.c:140-174: the device writes into `state->key` itself (line 148). -/
def Rk.randomseedDev (d : Devices) (pid sec usec clk : Word) (s : Rk) : Rk × Bool :=
  let r := devfill d (8 * 624) false (keyBytes s)
  let s : Rk := ⟨fun i => if 0 ≤ i ∧ i < 624 then wordAt r.1 i.toNat else s.mem i, s.pos⟩
  if r.2 then
    let key := Function.update s.mem 0 (s.mem 0 ||| 0x80000000#64)
    (⟨fun i => if 0 ≤ i ∧ i < 624 then key i &&& 0xffffffff#64 else key i, 624⟩, true)
  else (s.seed (hash pid ^^^ hash sec ^^^ hash usec ^^^ hash clk), false)

end Verif.MC
