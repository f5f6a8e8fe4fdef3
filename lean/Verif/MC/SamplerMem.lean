import Mathlib.Algebra.Order.Floor.Ring
import Mathlib.Data.Rat.Floor
import Mathlib.Data.Finset.Basic
import Verif.Common

/-!
# The memory of the sampler of populations: the model

Models what package/inference/mc/_ppssampler.c, sampford.c and compact5table.c allocate, read and free, and the calls of mc/population.py that lead to it.  `malloc` always succeeds and returns a new
block; a fault is what C leaves undefined: reading through a null pointer, reading beyond a block, using or freeing a block twice, using or freeing a pointer that was never set.  What is drawn is modelled
elsewhere (Verif/MC/Sampford.lean, Verif/MC/Tables.lean).  Numbers are exact.  `lost` counts numpy arrays of which a reference is never given back.
-/

namespace Verif.MC.Mem

/-- What C leaves undefined. -/
inductive Fault
  | null
  | bounds
  | freed
  | unset
  deriving DecidableEq, Repr

/-- The blocks in use; `next` was never used. -/
structure Heap where
  next : ℕ := 0
  live : Finset ℕ := ∅

def Heap.alloc (h : Heap) : Heap × ℕ := ({ next := h.next + 1, live := insert h.next h.live }, h.next)

/-- `free`. -/
def Heap.free (h : Heap) (b : ℕ) : Except Fault Heap := if b ∈ h.live then .ok { h with live := h.live.erase b } else .error .freed

def Heap.frees (h : Heap) : List ℕ → Except Fault Heap
  | [] => .ok h
  | b :: bs => do (← h.free b).frees bs

/-- What follows a pointer to a block. -/
def Heap.use (h : Heap) (b : ℕ) : Except Fault Unit := if b ∈ h.live then .ok () else .error .freed

/-- What becomes of a table of weights: compact5table.c:40-52, 74-99: nothing (the sum is not positive), five tables, one event of probability one, or neither (then no pointer to a table is set). -/
inductive Kind
  | fail
  | tables
  | prob1
  | bare
  deriving DecidableEq, Repr

/-- The weights as 30-bit integers and what follows: compact5table.c:40-99.  The sum of the sizes is zero if and only if no integer has a digit below the thirtieth bit.  (C rounds negative numbers towards zero.) -/
def kindOf (ws : List ℚ) : Kind :=
  let sum := ws.sum
  if sum ≤ 0 then .fail
  else
    let P := ws.map fun w => ⌊w / sum * 2 ^ 30⌋
    if P.any fun m => m % 2 ^ 30 ≠ 0 then .tables else if P.any fun m => m / 2 ^ 30 % 64 = 1 then .prob1 else .bare

/-- `Sampler`: compact5table.h; `n` is the number of weights, the entries of the tables are less. -/
structure Tab where
  block : ℕ
  kind : Kind
  tabs : List ℕ
  n : ℕ

/-- `Sampford`: sampford.h.  `ratios` and `cumratios` are null together; `vals` is what the first contains. -/
structure Smp where
  block : ℕ
  npopn : ℕ
  cumwts : ℕ
  indices : ℕ
  nsamp : ℤ
  ratios : Option (ℕ × ℕ)
  vals : List ℚ

/-- A `PPSSampler`: _ppssampler.c:77-83, and the memory. -/
structure St where
  heap : Heap := {}
  tab : Option Tab := none
  smp : Option Smp := none
  rat : Option Tab := none
  lost : ℕ := 0

/-- How a call ends if there is no fault. -/
inductive Out
  | ok
  | exc (e : Err)
  deriving DecidableEq, Repr

/-- `init_sampler5tbl`: compact5table.c:29-152.  (`P` is allocated and freed.) -/
def initTab (h : Heap) (ws : List ℚ) : Heap × Option Tab :=
  match kindOf ws with
  | .fail => (h, none)
  | .tables =>
    let (h, s) := h.alloc
    let (h, a) := h.alloc
    let (h, b) := h.alloc
    let (h, c) := h.alloc
    let (h, d) := h.alloc
    let (h, e) := h.alloc
    (h, some ⟨s, .tables, [a, b, c, d, e], ws.length⟩)
  | k =>
    let (h, s) := h.alloc
    (h, some ⟨s, k, [], ws.length⟩)

/-- `destroy_sampler5tbl`: compact5table.c:158-169. -/
def destroyTab (h : Heap) (t : Tab) : Except Fault Heap := do
  h.use t.block
  match t.kind with
  | .prob1 => h.free t.block
  | .tables => (← h.frees t.tabs).free t.block
  | _ => .error .unset

/-- `destroy_sampford`: sampford.c:71-82. -/
def destroySmp (h : Heap) (s : Smp) : Except Fault Heap := do
  h.use s.block
  let h ← if s.npopn ≠ 0 then h.frees [s.cumwts, s.indices] else pure h
  let h ← if s.nsamp ≠ 0 then (match s.ratios with | some (a, b) => h.frees [a, b] | none => pure h) else pure h
  h.free s.block

/-- Is anything to be destroyed?  (`if (self->p != NULL)`) -/
def ifSet {α} (h : Heap) (f : Heap → α → Except Fault Heap) : Option α → Except Fault Heap
  | none => .ok h
  | some a => f h a

/-- `PPSSampler_destroy`: _ppssampler.c:86-95. -/
def St.destroy (s : St) : Except Fault St := do
  let h ← ifSet s.heap destroyTab s.tab
  let h ← ifSet h destroySmp s.smp
  pure { s with heap := h }

/-- `PPSSampler_new` and `PPSSampler_init`: _ppssampler.c:97-162.  If no table can be made, the reference to the new object is given back (line 150), so that it is destroyed; then Python, told of the failure, gives it back again. -/
def St.construct (ws : List ℚ) : Except Fault St :=
  match initTab {} ws with
  | (_, none) => .error .freed
  | (h, some t) => .ok { heap := h, tab := some t }

/-- `init_sampford` from `prepwts`: _ppssampler.c:223-290, sampford.c:22-42.  The total is the last of the accumulated weights (line 277).  What was there before is forgotten. -/
def St.prepwts (s : St) (ws : List ℚ) : Except Fault (St × Out) :=
  if ws = [] then .error .bounds
  else
    let (h, b) := s.heap.alloc
    let (h, c) := h.alloc
    let (h, i) := h.alloc
    .ok ({ s with heap := h, smp := some ⟨b, ws.length, c, i, 0, none, []⟩, lost := s.lost + 1 }, .ok)

/-- The ratios: _ppssampler.c:330-334.  (A division by zero, infinite in C, is zero here.) -/
def ratiosOf (nsamp : ℤ) (ws : List ℚ) (tot : ℚ) : List ℚ := ws.map fun w => (w / tot) / (1 - nsamp * (w / tot))

/-- The space for the ratios: sampford.c:51-59. -/
def makeRoom (h : Heap) (p : Smp) (nsamp : ℤ) : Except Fault (Heap × Smp) :=
  if p.nsamp ≠ nsamp then do
    let h ← if p.nsamp ≠ 0 then (match p.ratios with | some (a, b) => h.frees [a, b] | none => pure h) else pure h
    let (h, a) := h.alloc
    let (h, b) := h.alloc
    pure (h, { p with nsamp := nsamp, ratios := some (a, b) })
  else pure (h, p)

/-- `prepratios` with `set_sample`: _ppssampler.c:299-355, sampford.c:47-66. -/
def St.prepratios (s : St) (nsamp : ℤ) (ws : List ℚ) (tot : ℚ) : Except Fault (St × Out) :=
  if nsamp ≥ ws.length then .ok (s, .exc .value)
  else
    match s.smp with
    | none => .error .null
    | some p => do
      s.heap.use p.block
      let (h, p) ← makeRoom s.heap p nsamp
      match p.ratios with
      | none => .error .null
      | some (a, b) =>
        h.use a
        h.use b
        if ws.length < p.npopn then .error .bounds
        else .ok ({ s with heap := h, smp := some { p with vals := (ratiosOf nsamp ws tot).take p.npopn }, lost := s.lost + 1 }, .ok)

/-- `prepratiotables`: _ppssampler.c:400-424.  If the table cannot be made an error is returned without an exception, which Python reports as a `SystemError`. -/
def St.prepratiotables (s : St) : Except Fault (St × Out) :=
  match s.smp with
  | none => .error .null
  | some p => do
    s.heap.use p.block
    match p.ratios with
    | none => .error .null
    | some (a, _) =>
      s.heap.use a
      match initTab s.heap p.vals with
      | (h, none) => .ok ({ s with heap := h, rat := none }, .exc .system)
      | (h, some t) => .ok ({ s with heap := h, rat := some t }, .ok)

/-- `samplenr` with `sampford_pps`: _ppssampler.c:362-392, sampford.c:86-133.  An empty array of numpy has room for one item.  The ratios are needed even for one item (sampford.c:112). -/
def St.samplenr (s : St) : Except Fault (St × Out) :=
  match s.smp with
  | none => .error .null
  | some p => do
    s.heap.use p.block
    if p.nsamp < 0 then .ok (s, .exc .value)
    else
      s.heap.use p.cumwts
      match p.ratios with
      | none => .error .null
      | some (_, b) =>
        s.heap.use b
        .ok (s, .ok)

/-- `Dran`: compact5table.c:174-205, as far as memory is concerned. -/
def draw (h : Heap) : Option Tab → Except Fault Unit
  | none => .error .null
  | some t => do
    h.use t.block
    match t.kind with
    | .prob1 => .ok ()
    | .tables => t.tabs.forM h.use
    | _ => .error .unset

/-- `samplenr5` with `sampford_pps_tables`: _ppssampler.c:433-468, sampford.c:140-182. -/
def St.samplenr5 (s : St) : Except Fault (St × Out) :=
  match s.smp with
  | none => .error .null
  | some p => do
    s.heap.use p.block
    if p.nsamp < 0 then .ok (s, .exc .value)
    else
      draw s.heap s.tab
      if p.nsamp > 1 then
        draw s.heap s.rat
        s.heap.use p.indices
        match s.rat with
        | some t => if p.npopn < t.n then .error .bounds else .ok (s, .ok)
        | none => .error .null
      else .ok (s, .ok)

/-- `sample`: _ppssampler.c:170-211. -/
def St.sample (s : St) (size : ℤ) : Except Fault (St × Out) :=
  if size ≤ 0 then .ok (s, .exc .value) else do
    draw s.heap s.tab
    .ok (s, .ok)

/-- Calls of the methods of a sampler. -/
inductive Op
  | prepwts (ws : List ℚ)
  | prepratios (nsamp : ℤ) (ws : List ℚ) (tot : ℚ)
  | prepratiotables
  | samplenr
  | samplenr5
  | sample (size : ℤ)

def St.op (s : St) : Op → Except Fault (St × Out)
  | .prepwts ws => s.prepwts ws
  | .prepratios n ws tot => s.prepratios n ws tot
  | .prepratiotables => s.prepratiotables
  | .samplenr => s.samplenr
  | .samplenr5 => s.samplenr5
  | .sample n => s.sample n

/-- A history of calls, to the first fault. -/
def St.run (s : St) : List Op → Except Fault St
  | [] => .ok s
  | o :: os => do (← s.op o).1.run os

/-! ## Populations -/

/-- A `Population` with unequal weights: population.py:30-46: the weights, the sampler if there is one (`did_init`), and the flags of subsets (`nsamp` is set with the first). -/
structure Pop where
  ws : List ℚ
  sampler : Option St := none
  sampfordInit : Bool := false
  tables : Bool := false
  nsamp : ℤ := 0

/-- The largest weight: the first of the sorted ones. -/
def maxWt (ws : List ℚ) : ℚ := ws.foldr max 0

/-- `did_init`: population.py:56-58, 102-105, 149-152. -/
def Pop.init (p : Pop) : Except Fault (Pop × St) :=
  match p.sampler with
  | some s => .ok (p, s)
  | none => do
    let s ← St.construct p.ws
    pure ({ p with sampler := some s }, s)

/-- `did_Sampford_init`: population.py:107-114, 154-160.  `subset_pps` also forgets the tables. -/
def Pop.initWts (p : Pop) (s : St) (forget : Bool) : Except Fault (Pop × St) :=
  if p.sampfordInit then .ok (p, s)
  else do
    let (s, _) ← s.prepwts p.ws
    pure ({ p with sampler := some s, nsamp := 0, sampfordInit := true, tables := p.tables && !forget }, s)

/-- `subset_pps`: population.py:88-128.  (A `ValueError` ends the call.) -/
def Pop.subsetPps (p : Pop) (n : ℤ) : Except Fault (Pop × Out) :=
  if n = p.ws.length then .ok (p, .ok)
  else do
    let (p, s) ← p.init
    let (p, s) ← p.initWts s true
    if p.nsamp ≠ n then
      if n > p.ws.length then .ok (p, .exc .value)
      else if n * (maxWt p.ws / p.ws.sum) > 1 then .ok (p, .exc .value)
      else do
        let (s, o) ← s.prepratios n p.ws p.ws.sum
        match o with
        | .exc e => .ok ({ p with sampler := some s }, .exc e)
        | .ok => do
          let (s, o) ← s.samplenr
          .ok ({ p with sampler := some s, tables := false, nsamp := n }, o)
    else do
      let (s, o) ← s.samplenr
      .ok ({ p with sampler := some s }, o)

/-- The last part of `subset_pps5`: population.py:172-177. -/
def Pop.finish5 (p : Pop) (s : St) : Except Fault (Pop × Out) := do
  if !p.tables then
    let (s, o) ← s.prepratiotables
    match o with
    | .exc e => .ok ({ p with sampler := some s }, .exc e)
    | .ok => do
      let (s, o) ← s.samplenr5
      .ok ({ p with sampler := some s, tables := true }, o)
  else
    let (s, o) ← s.samplenr5
    .ok ({ p with sampler := some s }, o)

/-- `subset_pps5`: population.py:130-182. -/
def Pop.subsetPps5 (p : Pop) (n : ℤ) : Except Fault (Pop × Out) :=
  if n = p.ws.length then .ok (p, .ok)
  else do
    let (p, s) ← p.init
    let (p, s) ← p.initWts s false
    if p.nsamp ≠ n then
      if n > p.ws.length then .ok (p, .exc .value)
      else if n * (maxWt p.ws / p.ws.sum) > 1 then .ok (p, .exc .value)
      else do
        let (s, o) ← s.prepratios n p.ws p.ws.sum
        match o with
        | .exc e => .ok ({ p with sampler := some s }, .exc e)
        | .ok => do
          let (s, o) ← s.prepratiotables
          match o with
          | .exc e => .ok ({ p with sampler := some s }, .exc e)
          | .ok => Pop.finish5 { p with sampler := some s, tables := true, nsamp := n } s
    else p.finish5 s

/-- `sample`: population.py:48-70. -/
def Pop.sample (p : Pop) (n : ℤ) : Except Fault (Pop × Out) := do
  let (p, s) ← p.init
  let (s, o) ← s.sample n
  .ok ({ p with sampler := some s }, o)

/-- Calls on a population. -/
inductive Call
  | pps (n : ℤ)
  | pps5 (n : ℤ)
  | sample (n : ℤ)

def Call.size : Call → ℤ
  | .pps n | .pps5 n | .sample n => n

def Pop.call (p : Pop) : Call → Except Fault (Pop × Out)
  | .pps n => p.subsetPps n
  | .pps5 n => p.subsetPps5 n
  | .sample n => p.sample n

/-- A history of calls, to the first fault. -/
def Pop.run (p : Pop) : List Call → Except Fault Pop
  | [] => .ok p
  | c :: cs => do (← p.call c).1.run cs

/-- The population is deleted, and with it its sampler. -/
def Pop.delete (p : Pop) : Except Fault Heap :=
  match p.sampler with
  | none => .ok {}
  | some s => do pure (← s.destroy).heap

end Verif.MC.Mem
