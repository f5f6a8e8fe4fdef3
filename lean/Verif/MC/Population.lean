import Verif.MC.Tables

/-!
# Sampford's method and `Population`

Model of `package/inference/mc/sampford.c`, of the methods of the sampler type in `package/inference/mc/_ppssampler.c` and of `Population` in
`package/inference/mc/population.py`.

Doubles are elements of an ordered field, with one infinity for the ratios (a quotient by zero).  C's and numpy's integers are taken to have the same size (the code reads
the argsort indices as C `int`).  The generators are the lists of numbers they are going to give: `words` is NumPy's, `cwords` is the copy inside the C module, `crand` is
C's `rand()`.  A call that needs more numbers than there are gives `short`; undefined behaviour in C (reading a null pointer, converting a NaN) gives `crash`.  Messages are
left out.
-/

set_option linter.unusedSectionVars false

namespace Verif.MC

variable {K : Type*} [Field K] [LinearOrder K] [IsStrictOrderedRing K] [FloorRing K]

/-- Doubles with an infinity. -/
inductive Ext (K : Type*)
  | fin (x : K)
  | inf

/-- Sum of two of them. -/
def Ext.add : Ext K → Ext K → Ext K
  | .fin x, .fin y => .fin (x + y)
  | _, _ => .inf

/-- Comparison; `none` is a NaN. -/
def Ext.le : Option (Ext K) → Ext K → Bool
  | none, _ => false
  | some (.fin x), .fin y => x ≤ y
  | some .inf, .fin _ => false
  | some _, .inf => true

/-- `PyArray_CumSum`, from a value on. -/
def cumFrom {M : Type*} (add : M → M → M) : M → List M → List M
  | _, [] => []
  | a, x :: xs => add a x :: cumFrom add (add a x) xs

/-- The C structure `Sampford`: sampford.h, sampford.c:22-42.  `ratios` and `cumratios` are null pointers at first. -/
structure Sampford (K : Type*) where
  npopn : ℕ
  cumwts : List K
  indices : List ℕ
  nsamp : ℤ
  ratios : Option (List (Ext K) × List (Ext K))

/-- `set_sample`: sampford.c:47-67. -/
def Sampford.setSample (s : Sampford K) (nsamp : ℤ) (r cr : List (Ext K)) : Sampford K :=
  { s with nsamp := nsamp, ratios := some (r, cr) }

/-- `rk_double` of two words: randomkit.c:254-259. -/
def rkDouble (w1 w2 : ℕ) : K := (((w1 >>> 5) * 67108864 + (w2 >>> 6) : ℕ) : K) / 9007199254740992

/-- The value looked up for a number from `rand()`: sampford.c:113.  Infinity times zero is a NaN. -/
def rval (rmax : ℕ) (tot : Ext K) (r : ℕ) : Option (Ext K) :=
  match tot with
  | .fin t => some (.fin (t * r / (rmax + 1)))
  | .inf => if r = 0 then none else some .inf

/-- The draws by ratios, `n` of them to go: sampford.c:112-127.  Sample, whether it ended with a duplicate, and numbers left. -/
def ratioLoop (rmax : ℕ) (cr : List (Ext K)) (tot : Ext K) : ℕ → List ℕ → List ℕ → Option (List ℕ × Bool × List ℕ)
  | 0, sample, rs => some (sample, false, rs)
  | _ + 1, _, [] => none
  | n + 1, sample, r :: rs =>
    let i := cr.findIdx (Ext.le (rval rmax tot r))
    if i ∈ sample then some (sample, true, rs) else ratioLoop rmax cr tot n (sample ++ [i]) rs

/-- The rejection loop of `sampford_pps`: sampford.c:97-130.  Tries, sample, words and numbers left. -/
def tryLoop (rmax : ℕ) (cw : List K) (wtot : K) (cr : List (Ext K)) (tot : Ext K) (nsamp : ℤ) :
    List ℕ → List ℕ → Option (ℕ × List ℕ × List ℕ × List ℕ)
  | w1 :: w2 :: ws, rs =>
    let i := cw.findIdx (fun c => wtot * rkDouble w1 w2 ≤ c)
    match ratioLoop rmax cr tot (nsamp - 1).toNat [i] rs with
    | none => none
    | some (sample, false, rs) => some (1, sample, ws, rs)
    | some (_, true, rs) =>
      match tryLoop rmax cw wtot cr tot nsamp ws rs with
      | none => none
      | some (ntry, out) => some (ntry + 1, out)
  | _, _ => none

/-- The draws by the ratio tables: sampford.c:163-176; `none` if the words run out. -/
def tableLoop (tab : Sampler) (indices : List ℕ) : ℕ → List ℕ → List ℕ → Option (List ℕ × Bool × List ℕ)
  | 0, sample, ws => some (sample, false, ws)
  | n + 1, sample, ws =>
    match dran tab ws with
    | none => none
    | some (k, ws) =>
      match indices[k]? with
      | none => none
      | some i => if i ∈ sample then some (sample, true, ws) else tableLoop tab indices n (sample ++ [i]) ws

/-- The rejection loop of `sampford_pps_tables`: sampford.c:154-179, for at most `fuel` tries. -/
def tryLoop5 (main tab : Sampler) (indices : List ℕ) (nsamp : ℤ) : ℕ → List ℕ → Option (ℕ × List ℕ × List ℕ)
  | 0, _ => none
  | fuel + 1, ws =>
    match dran main ws with
    | none => none
    | some (i, ws) =>
      match tableLoop tab indices (nsamp - 1).toNat [i] ws with
      | none => none
      | some (sample, false, ws) => some (1, sample, ws)
      | some (_, true, ws) =>
        match tryLoop5 main tab indices nsamp fuel ws with
        | none => none
        | some (ntry, out) => some (ntry + 1, out)

/-- A sampler object: _ppssampler.c:78-83. -/
structure Obj (K : Type*) where
  main : Sampler
  pf : Option (Sampford K)
  tab : Option Sampler

/-- What a call gives. -/
inductive Out (β : Type*)
  | val (b : β)
  | err (e : Err)
  | crash
  | short
deriving DecidableEq

/-- The generators: see above; `extra` holds the entries of `get_state()` after the first three. -/
structure World where
  words : List ℕ
  extra : List ℕ
  cwords : List ℕ
  crand : List ℕ

/-- A `Population`: population.py:20-46.  `weights` is `none` in the equal probability case.  `ord` is what `PyArray_ArgSort` gives for the weights. -/
structure Pop (α K : Type*) where
  items : List α
  weights : Option (List K)
  ord : List ℕ
  rmax : ℕ
  didInit : Bool
  didSampford : Bool
  didTables : Bool
  sampler : Option (Obj K)
  sortIndices : List ℕ
  sortWts : List K
  totWt : K
  maxWt : K
  nsamp : ℤ
  ntry : ℕ

variable {α : Type*}

/-- `Population(items, weights)`: population.py:22-46; the attributes not set there have some value. -/
def mkPop (items : List α) (weights : Option (List K)) (ord : List ℕ) (rmax : ℕ) : Except Err (Pop α K) :=
  match weights with
  | none => .ok ⟨items, none, ord, rmax, false, false, false, none, [], [], 0, 0, 0, 0⟩
  | some w =>
    if items.length ≠ w.length then .error .value
    else .ok ⟨items, some w, ord, rmax, false, false, false, none, [], [], 0, 0, 0, 0⟩

/-- The set-up before any sampling: population.py:56-58, 102-105, 149-152; _ppssampler.c:113-162 (without a positive sum the constructor fails without an exception). -/
def Pop.ensureInit (p : Pop α K) (w : List K) : Pop α K × Option Err :=
  if p.didInit then (p, none)
  else
    match initSampler w with
    | none => (p, some .system)
    | some s => ({ p with sampler := some ⟨s, none, none⟩, didInit := true }, none)

/-- `[w[i] for i in indices]`, or `none` if an index is outside. -/
def pickAll {β : Type*} (xs : List β) (idx : List ℕ) : Option (List β) := idx.mapM (fun i => xs[i]?)

/-- The set-up before sampling without replacement: population.py:107-114, 154-160; `prepwts`: _ppssampler.c:223-290.  `reset` says whether the method clears the flag of
the tables (`subset_pps` does).  The indices are those of a platform where pointers have the width of an `int`; `Verif.MC.IntWidth` models what happens on others. -/
def Pop.ensureSampford (p : Pop α K) (w : List K) (reset : Bool) : Pop α K × Option Err :=
  if p.didSampford then (p, none)
  else
    match p.sampler with
    | none => (p, some .attribute)
    | some o =>
      let idx := p.ord.reverse
      match pickAll w idx with
      | none => (p, some .index)
      | some sorted =>
        let cum := cumFrom (· + ·) 0 sorted
        match cum.getLast?, sorted.head? with
        | some tot, some big =>
          ({ p with
              sampler := some { o with pf := some ⟨w.length, cum, idx, 0, none⟩ }
              sortIndices := idx, sortWts := sorted, totWt := tot, maxWt := big / tot, nsamp := 0, didSampford := true
              didTables := if reset then false else p.didTables }, none)
        | _, _ => (p, some .index)

/-- A ratio: _ppssampler.c:334. -/
def ratio (nsamp : ℤ) (tot x : K) : Ext K :=
  if 1 - nsamp * (x / tot) = 0 then .inf else .fin ((x / tot) / (1 - nsamp * (x / tot)))

/-- `prepratios(nsamp, wts, tot)`: _ppssampler.c:299-353. -/
def prepratios (o : Obj K) (nsamp : ℤ) (wts : List K) (tot : K) : Obj K × Option Err :=
  if nsamp ≥ wts.length then (o, some .value)
  else
    match o.pf with
    | none => (o, some .attribute)
    | some s =>
      let r := wts.map (ratio nsamp tot)
      ({ o with pf := some (s.setSample nsamp r (cumFrom Ext.add (.fin 0) r)) }, none)

/-- All of them finite. -/
def finites : List (Ext K) → Option (List K)
  | [] => some []
  | .inf :: _ => none
  | .fin x :: xs => (finites xs).map (x :: ·)

/-- `prepratiotables()`: _ppssampler.c:400-423.  `none` for undefined behaviour: no ratios yet, or an infinite one (a NaN is converted to an integer). -/
def prepratiotables (o : Obj K) : Option (Obj K × Option Err) :=
  match o.pf with
  | none => none
  | some s =>
    match s.ratios with
    | none => none
    | some (r, _) =>
      match finites r with
      | none => none
      | some xs =>
        match initSampler xs with
        | none => some (o, some .system)
        | some t => some ({ o with tab := some t }, none)

/-- `set_rng_state(*args)`: _ppssampler.c:541-578: exactly three arguments; NumPy's words go to the C module. -/
def setRng (nargs : ℕ) (g : World) : World × Option Err :=
  if nargs ≠ 3 then (g, some .type) else ({ g with cwords := g.words }, none)

/-- `Population.sample(nsamp)`: population.py:48-69; `sample` of the sampler: _ppssampler.c:170-214. -/
def Pop.sample (p : Pop α K) (nsamp : ℤ) (g : World) : Pop α K × World × Out (List α) :=
  match p.weights with
  | none => (p, g, .err .notImplemented)
  | some w =>
    match p.ensureInit w with
    | (p, some e) => (p, g, .err e)
    | (p, none) =>
      match setRng 3 g with
      | (g, some e) => (p, g, .err e)
      | (g, none) =>
        match p.sampler with
        | none => (p, g, .err .attribute)
        | some o =>
          if nsamp ≤ 0 then (p, g, .err .value)
          else
            match dranArray o.main nsamp.toNat g.cwords with
            | none => (p, g, .short)
            | some (idx, cw) =>
              let g := { g with cwords := cw, words := cw }
              match pickAll p.items idx with
              | none => (p, g, .err .index)
              | some out => (p, g, .val out)

/-- The set-up when the sample size changes: population.py:116-124. -/
def Pop.ensureRatios (p : Pop α K) (nsamp : ℤ) : Pop α K × Option Err :=
  if p.nsamp = nsamp then (p, none)
  else if nsamp > p.items.length then (p, some .value)
  else if nsamp * p.maxWt > 1 then (p, some .value)
  else
    match p.sampler with
    | none => (p, some .attribute)
    | some o =>
      match prepratios o nsamp p.sortWts p.totWt with
      | (o, some e) => ({ p with sampler := some o }, some e)
      | (o, none) => ({ p with sampler := some o, didTables := false, nsamp := nsamp }, none)

/-- `samplenr()`: _ppssampler.c:362-390; tries, sample and generators. -/
def samplenr (rmax : ℕ) (o : Obj K) (g : World) : World × Out (ℕ × List ℕ) :=
  match o.pf with
  | none => (g, .crash)
  | some s =>
    if s.nsamp < 0 then (g, .err .value)
    else
      match s.ratios, s.cumwts.getLast? with
      | some (_, cr), some wtot =>
        match cr.getLast? with
        | none => (g, .crash)
        | some tot =>
          match tryLoop rmax s.cumwts wtot cr tot s.nsamp g.cwords g.crand with
          | none => (g, .short)
          | some (ntry, sample, cw, rs) => ({ g with cwords := cw, crand := rs }, .val (ntry, sample.take s.nsamp.toNat))
      | _, _ => (g, .crash)

/-- `Population.subset_pps(nsamp)`: population.py:87-129.  `random.set_state` with three entries drops any others. -/
def Pop.subsetPps (p : Pop α K) (nsamp : ℤ) (g : World) : Pop α K × World × Out (List α) :=
  if nsamp = p.items.length then (p, g, .val p.items)
  else
    match setRng (3 + g.extra.length) g with
    | (g, some e) => (p, g, .err e)
    | (g, none) =>
      match p.weights with
      | none => (p, g, .err .name)
      | some w =>
        match p.ensureInit w with
        | (p, some e) => (p, g, .err e)
        | (p, none) =>
          match p.ensureSampford w true with
          | (p, some e) => (p, g, .err e)
          | (p, none) =>
            match p.ensureRatios nsamp with
            | (p, some e) => (p, g, .err e)
            | (p, none) =>
              match p.sampler with
              | none => (p, g, .err .attribute)
              | some o =>
                match samplenr p.rmax o g with
                | (g, .val (ntry, sidx)) =>
                  let p := { p with ntry := ntry }
                  match pickAll p.sortIndices sidx with
                  | none => (p, g, .err .index)
                  | some idx =>
                    match pickAll p.items idx with
                    | none => (p, g, .err .index)
                    | some out => (p, { g with words := g.cwords, extra := [] }, .val out)
                | (g, .err e) => (p, g, .err e)
                | (g, .crash) => (p, g, .crash)
                | (g, .short) => (p, g, .short)

/-- The set-up of `subset_pps5` when the sample size changes: population.py:162-171; `none` for undefined behaviour. -/
def Pop.ensureRatios5 (p : Pop α K) (nsamp : ℤ) : Option (Pop α K × Option Err) :=
  if p.nsamp = nsamp then some (p, none)
  else if nsamp > p.items.length then some (p, some .value)
  else if nsamp * p.maxWt > 1 then some (p, some .value)
  else
    match p.sampler with
    | none => some (p, some .attribute)
    | some o =>
      match prepratios o nsamp p.sortWts p.totWt with
      | (o, some e) => some ({ p with sampler := some o }, some e)
      | (o, none) =>
        match prepratiotables o with
        | none => none
        | some (o, some e) => some ({ p with sampler := some o }, some e)
        | some (o, none) => some ({ p with sampler := some o, didTables := true, nsamp := nsamp }, none)

/-- The tables, if there are none: population.py:173-176. -/
def Pop.ensureTables (p : Pop α K) : Option (Pop α K × Option Err) :=
  if p.didTables then some (p, none)
  else
    match p.sampler with
    | none => some (p, some .attribute)
    | some o =>
      match prepratiotables o with
      | none => none
      | some (o, some e) => some ({ p with sampler := some o }, some e)
      | some (o, none) => some ({ p with sampler := some o, didTables := true }, none)

/-- `samplenr5()`: _ppssampler.c:433-464. -/
def samplenr5 (fuel : ℕ) (o : Obj K) (g : World) : World × Out (ℕ × List ℕ) :=
  match o.pf, o.tab with
  | some s, some t =>
    if s.nsamp < 0 then (g, .err .value)
    else
      match tryLoop5 o.main t s.indices s.nsamp fuel g.cwords with
      | none => (g, .short)
      | some (ntry, sample, cw) => ({ g with cwords := cw }, .val (ntry, sample.take s.nsamp.toNat))
  | _, _ => (g, .crash)

/-- `Population.subset_pps5(nsamp)`: population.py:131-182, for at most `fuel` tries. -/
def Pop.subsetPps5 (fuel : ℕ) (p : Pop α K) (nsamp : ℤ) (g : World) : Pop α K × World × Out (List α) :=
  if nsamp = p.items.length then (p, g, .val p.items)
  else
    match setRng (3 + g.extra.length) g with
    | (g, some e) => (p, g, .err e)
    | (g, none) =>
      match p.weights with
      | none => (p, g, .err .name)
      | some w =>
        match p.ensureInit w with
        | (p, some e) => (p, g, .err e)
        | (p, none) =>
          match p.ensureSampford w false with
          | (p, some e) => (p, g, .err e)
          | (p, none) =>
            match p.ensureRatios5 nsamp with
            | none => (p, g, .crash)
            | some (p, some e) => (p, g, .err e)
            | some (p, none) =>
              match p.ensureTables with
              | none => (p, g, .crash)
              | some (p, some e) => (p, g, .err e)
              | some (p, none) =>
                match p.sampler with
                | none => (p, g, .err .attribute)
                | some o =>
                  match samplenr5 fuel o g with
                  | (g, .val (ntry, idx)) =>
                    let p := { p with ntry := ntry }
                    match pickAll p.items idx with
                    | none => (p, g, .err .index)
                    | some out => (p, { g with words := g.cwords, extra := [] }, .val out)
                  | (g, .err e) => (p, g, .err e)
                  | (g, .crash) => (p, g, .crash)
                  | (g, .short) => (p, g, .short)

/-- `Population.max_subset()`: population.py:71-85; `int` of a non-negative quotient. -/
def Pop.maxSubset (p : Pop α K) : Out ℕ :=
  if p.didSampford then (if p.maxWt = 0 then .err .zeroDiv else .val ⌊1 / p.maxWt⌋₊)
  else
    match p.weights with
    | none => .err .attribute
    | some w =>
      match w.max? with
      | none => .err .value
      | some m => if m = 0 then .err .zeroDiv else .val ⌊w.sum / m⌋₊

end Verif.MC
