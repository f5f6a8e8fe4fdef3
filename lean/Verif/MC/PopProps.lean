import Verif.MC.PopFacts
import Mathlib.Data.Rat.Floor

/-!
# Weighted populations: properties C53, C55, C56 and C80

`Reach items weights ord rmax p` says that the object `p` was made by `Population(items, weights)` and by calls of `sample`, `subset_pps` and `subset_pps5`, each of which
returned or raised.  `Subset items n out` (see `PopFacts`) says that `out` lists the items at `n` distinct positions.  `Sorts w ord` says that `ord` is what argsort may give.
-/

set_option linter.unusedSectionVars false
set_option linter.unusedSimpArgs false

namespace Verif.MC

variable {K : Type*} [Field K] [LinearOrder K] [IsStrictOrderedRing K] [FloorRing K] {α : Type*}
variable {items : List α} {weights : Option (List K)} {w : List K} {ord : List ℕ} {rmax : ℕ} {p p0 : Pop α K}

/-- The call ended, by returning or by raising. -/
def Out.ended {β : Type*} : Out β → Prop
  | .val _ => True
  | .err _ => True
  | _ => False

/-- The states after calls that ended. -/
inductive Reach (items : List α) (weights : Option (List K)) (ord : List ℕ) (rmax : ℕ) : Pop α K → Prop
  | new {p : Pop α K} : mkPop items weights ord rmax = .ok p → Reach items weights ord rmax p
  | sample {p : Pop α K} (n : ℤ) (g : World) : Reach items weights ord rmax p → (p.sample n g).2.2.ended → Reach items weights ord rmax (p.sample n g).1
  | pps {p : Pop α K} (n : ℤ) (g : World) : Reach items weights ord rmax p → (p.subsetPps n g).2.2.ended → Reach items weights ord rmax (p.subsetPps n g).1
  | pps5 {p : Pop α K} (fuel : ℕ) (n : ℤ) (g : World) :
      Reach items weights ord rmax p → (p.subsetPps5 fuel n g).2.2.ended → Reach items weights ord rmax (p.subsetPps5 fuel n g).1

theorem Reach.inv (hgood : ∀ w, weights = some w → Sorts w ord ∧ ∀ x ∈ w, 0 ≤ x) (h : Reach items weights ord rmax p) : Inv items weights ord rmax p := by
  induction h with
  | new h => exact mkPop_inv h
  | sample n g _ _ ih => exact (sample_spec ih n g).1
  | pps n g _ _ ih => exact (subsetPps_spec ih n g).1
  | pps5 fuel n g _ he ih =>
    refine (subsetPps5_spec fuel hgood ih n g).1 ?_
    intro hc
    rw [hc] at he
    exact he

theorem mkPop_length (h : mkPop items (some w) ord rmax = .ok p) : items.length = w.length := by
  unfold mkPop at h
  dsimp only at h
  split_ifs at h with h1
  simpa using h1

theorem Reach.length (h : Reach items (some w) ord rmax p) : items.length = w.length := by
  induction h with
  | new h => exact mkPop_length h
  | sample _ _ _ _ ih => exact ih
  | pps _ _ _ _ ih => exact ih
  | pps5 _ _ _ _ _ ih => exact ih

/-! ## C55: no stale tables -/

/-- **C55.**  Whatever was called before, `subset_pps(nsamp)` does what it does for a new object, for every size but zero.
Missing: size zero (`C55_violated`). -/
theorem C55_subset_pps_partial (hgood : ∀ w, weights = some w → Sorts w ord ∧ ∀ x ∈ w, 0 ≤ x) (hr : Reach items weights ord rmax p)
    (h0 : mkPop items weights ord rmax = .ok p0) (n : ℤ) (hn : n ≠ 0) (g : World) : (p.subsetPps n g).2 = (p0.subsetPps n g).2 := by
  rw [(subsetPps_spec (hr.inv hgood) n g).2 hn, (subsetPps_spec (mkPop_inv h0) n g).2 hn]

/-- **C55.**  The same for `subset_pps5`.
Missing: size zero (`C55_violated`). -/
theorem C55_subset_pps5_partial (hgood : ∀ w, weights = some w → Sorts w ord ∧ ∀ x ∈ w, 0 ≤ x) (hr : Reach items weights ord rmax p)
    (h0 : mkPop items weights ord rmax = .ok p0) (fuel : ℕ) (n : ℤ) (hn : n ≠ 0) (g : World) : (p.subsetPps5 fuel n g).2 = (p0.subsetPps5 fuel n g).2 := by
  rw [(subsetPps5_spec fuel hgood (hr.inv hgood) n g).2 hn, (subsetPps5_spec fuel hgood (mkPop_inv h0) n g).2 hn]

/-- **C55.**  The same for `sample`, for every size. -/
theorem C55_sample (hgood : ∀ w, weights = some w → Sorts w ord ∧ ∀ x ∈ w, 0 ≤ x) (hr : Reach items weights ord rmax p)
    (h0 : mkPop items weights ord rmax = .ok p0) (n : ℤ) (g : World) : (p.sample n g).2 = (p0.sample n g).2 := by
  rw [(sample_spec (hr.inv hgood) n g).2, (sample_spec (mkPop_inv h0) n g).2]

/-- The first call in a history. -/
def histPps (items : List ℕ) (w : List ℚ) (ord : List ℕ) (g : World) (before : List ℤ) (n : ℤ) : Option (Out (List ℕ)) :=
  match mkPop items (some w) ord 99 with
  | .error _ => none
  | .ok p => some ((before.foldl (fun q m => (q.subsetPps m g).1) p).subsetPps n g).2.2

/-- **C55 violated.**  `subset_pps(0)` reads ratios that were never computed when it is the first call; after `subset_pps(2)` it returns the empty sample. -/
theorem C55_violated : ∃ g : World, histPps [10, 11, 12, 13] [1, 1, 1, 1] [0, 1, 2, 3] g [] 0 = some .crash ∧
    histPps [10, 11, 12, 13] [1, 1, 1, 1] [0, 1, 2, 3] g [2] 0 = some (.val []) ∧
    histPps [10, 11, 12, 13] [1, 1, 1, 1] [0, 1, 2, 3] g [] 2 = some (.val [13, 11]) := by
  refine ⟨⟨[5, 9, 2 ^ 30, 8], [], [], [70, 30]⟩, ?_, ?_, ?_⟩ <;> decide +kernel

/-- Weights and sorting order as in the theorems: with ties, zero and equal weights. -/
theorem sorts_example : Sorts ([3, 0, 2, 2, 1] : List ℚ) [1, 4, 3, 2, 0] ∧ ∀ x ∈ ([3, 0, 2, 2, 1] : List ℚ), 0 ≤ x := by
  refine ⟨⟨?_, ?_⟩, ?_⟩ <;> decide +kernel

/-- A history: samples of sizes 2 and 7, one refused and one good subset, with a reachable state at the end. -/
def histAll : Option (List (Out (List ℕ)) × Out ℕ) :=
  match mkPop [10, 11, 12, 13, 14] (some ([3, 0, 2, 2, 1] : List ℚ)) [1, 4, 3, 2, 0] 99 with
  | .error _ => none
  | .ok p =>
    let g : World := ⟨[5, 9, 2 ^ 30, 2 ^ 31, 2 ^ 32 - 1, 77, 123456789, 3123456789, 4000000000], [], [], [10, 70, 50, 20]⟩
    let r1 := p.sample 2 g
    let r2 := r1.1.subsetPps 4 r1.2.1
    let r3 := r2.1.subsetPps 2 r2.2.1
    let r4 := r3.1.subsetPps5 3 2 r3.2.1
    some ([r1.2.2, r2.2.2, r3.2.2, r4.2.2], r4.1.maxSubset)

example : histAll = some ([.val [10, 10], .err .value, .val [14, 12], .val [10, 12]], .val 2) := by decide +kernel

/-! ## C53: the samples -/

/-- **C53.**  When `subset_pps` returns, the result lists the items at `nsamp` distinct positions.
Missing: generator states of more than three entries and equal weights (`C53_violated`,
`C53_equal_violated`). -/
theorem C53_subset_pps_partial (hgood : ∀ w, weights = some w → Sorts w ord ∧ ∀ x ∈ w, 0 ≤ x) (hr : Reach items weights ord rmax p) (n : ℤ) (hn : n ≠ 0) (g : World)
    (out : List α) (h : (p.subsetPps n g).2.2 = .val out) :
    ∃ idx : List ℕ, idx.Nodup ∧ (idx.length : ℤ) = n ∧ idx.map (fun i => items[i]?) = out.map some := by
  have h1 := (subsetPps_spec (hr.inv hgood) n g).2 hn
  by_cases h2 : n = items.length
  · rw [h1, ppsSpec, if_pos h2] at h
    simp only [Out.val.injEq] at h
    subst h
    refine ⟨List.range items.length, List.nodup_range, by simp [h2], ?_⟩
    apply List.ext_getElem
    · simp
    · intro i h3 h4; simp at h3; simp
  · refine (ppsSpec_val (rmax := rmax) (g := g) (g' := (p.subsetPps n g).2.1) (fun w hw => (hgood w hw).1) h2 ?_).2.1
    rw [← h1, ← h]

/-- **C53.**  The same for `subset_pps5`.
Missing: generator states of more than three entries and equal weights (`C53_violated`,
`C53_equal_violated`). -/
theorem C53_subset_pps5_partial (hgood : ∀ w, weights = some w → Sorts w ord ∧ ∀ x ∈ w, 0 ≤ x) (hr : Reach items weights ord rmax p) (fuel : ℕ) (n : ℤ) (hn : n ≠ 0)
    (g : World) (out : List α) (h : (p.subsetPps5 fuel n g).2.2 = .val out) :
    ∃ idx : List ℕ, idx.Nodup ∧ (idx.length : ℤ) = n ∧ idx.map (fun i => items[i]?) = out.map some := by
  have h1 := (subsetPps5_spec fuel hgood (hr.inv hgood) n g).2 hn
  by_cases h2 : n = items.length
  · rw [h1, pps5Spec, if_pos h2] at h
    simp only [Out.val.injEq] at h
    subst h
    refine ⟨List.range items.length, List.nodup_range, by simp [h2], ?_⟩
    apply List.ext_getElem
    · simp
    · intro i h3 h4; simp at h3; simp
  · refine (pps5Spec_val (ord := ord) (weights := weights) (g := g) (g' := (p.subsetPps5 fuel n g).2.1) fuel h2 ?_).2.1
    rw [← h1, ← h]

/-- **C53.**  A sample as large as the population is the population; no random number is used, nothing changes. -/
theorem C53_whole (hgood : ∀ w, weights = some w → Sorts w ord ∧ ∀ x ∈ w, 0 ≤ x) (hr : Reach items weights ord rmax p) (fuel : ℕ) (g : World) :
    p.subsetPps items.length g = (p, g, .val items) ∧ p.subsetPps5 fuel items.length g = (p, g, .val items) := by
  have := (hr.inv hgood).hitems
  unfold Pop.subsetPps Pop.subsetPps5
  simp [this]

/-- **C53.**  Sizes above the population size, or too large for the largest weight, raise ValueError. -/
theorem C53_too_large (hs : Sorts w ord) (hw : ∀ x ∈ w, 0 ≤ x) (hpos : 0 < w.sum) (hr : Reach items (some w) ord rmax p) (fuel : ℕ) (g : World) (he : g.extra = []) (n : ℤ)
    (hn0 : 0 < n) (hne : n ≠ items.length) (hn : (∃ x ∈ w, n * x > w.sum) ∨ n > items.length) :
    (p.subsetPps n g).2.2 = .err .value ∧ (p.subsetPps5 fuel n g).2.2 = .err .value := by
  have hgood : ∀ w', some w = some w' → Sorts w' ord ∧ ∀ x ∈ w', 0 ≤ x := by rintro _ ⟨rfl⟩; exact ⟨hs, hw⟩
  rw [hr.length] at hn
  obtain ⟨h1, h2⟩ := ppsSpec_refused (rmax := rmax) hs hpos hr.length hn0.le hne hn he fuel
  rw [(subsetPps_spec (hr.inv hgood) n g).2 hn0.ne', (subsetPps5_spec fuel hgood (hr.inv hgood) n g).2 hn0.ne']
  exact ⟨h1, h2⟩

/-- **C53.**  Below these limits the methods return a sample or go on drawing; they never raise. -/
theorem C53_returns (hs : Sorts w ord) (hw : ∀ x ∈ w, 0 ≤ x) (hpos : 0 < w.sum) (hr : Reach items (some w) ord rmax p) (fuel : ℕ) (g : World) (he : g.extra = [])
    (hwords : ∀ x ∈ g.words, x < 2 ^ 32) (hrand : ∀ r ∈ g.crand, r ≤ rmax) (n : ℤ) (hn0 : 0 < n) (hlen : n < items.length) (hn : ∀ x ∈ w, n * x < w.sum) :
    ((p.subsetPps n g).2.2 = .short ∨ ∃ out, (p.subsetPps n g).2.2 = .val out) ∧
    ((p.subsetPps5 fuel n g).2.2 = .short ∨ ∃ out, (p.subsetPps5 fuel n g).2.2 = .val out) := by
  have hgood : ∀ w', some w = some w' → Sorts w' ord ∧ ∀ x ∈ w', 0 ≤ x := by rintro _ ⟨rfl⟩; exact ⟨hs, hw⟩
  rw [(subsetPps_spec (hr.inv hgood) n g).2 hn0.ne', (subsetPps5_spec fuel hgood (hr.inv hgood) n g).2 hn0.ne']
  rw [hr.length] at hlen
  exact ⟨ppsSpec_total hs hw hpos hr.length hn0.le hlen hn he hwords hrand, pps5Spec_total fuel hs hw hpos hr.length hn0.le hlen hn he⟩

/-- **C53 violated.**  With a generator state of more than three entries (NumPy's has five) every call for less than the whole population raises TypeError. -/
theorem C53_violated (hgood : ∀ w, weights = some w → Sorts w ord ∧ ∀ x ∈ w, 0 ≤ x) (hr : Reach items weights ord rmax p) (fuel : ℕ) (g : World) (he : g.extra ≠ []) (n : ℤ)
    (hn : n ≠ items.length) :
    p.subsetPps n g = (p, g, .err .type) ∧ p.subsetPps5 fuel n g = (p, g, .err .type) := by
  have := (hr.inv hgood).hitems
  unfold Pop.subsetPps Pop.subsetPps5
  rw [this, if_neg hn, if_neg hn, setRng_extra, if_neg he]
  exact ⟨rfl, rfl⟩

/-- **C53 violated.**  Without weights every call for less than the whole population raises NameError. -/
theorem C53_equal_violated (hr : Reach items (none : Option (List K)) ord rmax p) (fuel : ℕ) (g : World) (he : g.extra = []) (n : ℤ) (hn : n ≠ items.length) :
    (p.subsetPps n g).2.2 = .err .name ∧ (p.subsetPps5 fuel n g).2.2 = .err .name := by
  have I := hr.inv (by rintro _ ⟨⟩)
  unfold Pop.subsetPps Pop.subsetPps5
  rw [I.hitems, if_neg hn, if_neg hn, setRng_extra, if_pos he, I.hweights]
  exact ⟨rfl, rfl⟩

/-! ## C56: the generator -/

/-- **C56.**  After `sample` returns, NumPy's generator goes on where the sampler stopped: it has used up some of its words from the front; `rand()` and the rest of the state
are as before. -/
theorem C56_sample (hgood : ∀ w, weights = some w → Sorts w ord ∧ ∀ x ∈ w, 0 ≤ x) (hr : Reach items weights ord rmax p) (n : ℤ) (g : World) (out : List α)
    (h : (p.sample n g).2.2 = .val out) :
    let g' := (p.sample n g).2.1
    g'.words = g'.cwords ∧ g'.extra = g.extra ∧ g'.crand = g.crand ∧ ∃ used, g.words = used ++ g'.words := by
  have h1 := (sample_spec (hr.inv hgood) n g).2
  rw [h1] at h ⊢
  unfold sampleSpec at h ⊢
  cases weights with
  | none => simp at h
  | some w =>
    dsimp only at h ⊢
    cases hi : initSampler w with
    | none => rw [hi] at h; simp at h
    | some s =>
      rw [hi] at h
      dsimp only at h ⊢
      by_cases h0 : n ≤ 0
      · rw [if_pos h0] at h; simp at h
      rw [if_neg h0] at h ⊢
      cases hd : dranArray s n.toNat g.words with
      | none => rw [hd] at h; simp at h
      | some q =>
        obtain ⟨idx, cw⟩ := q
        rw [hd] at h
        dsimp only at h ⊢
        cases hp : pickAll items idx with
        | none => rw [hp] at h; simp at h
        | some o => exact ⟨rfl, rfl, rfl, dranArray_used s _ _ _ _ hd⟩

/-- **C56.**  A call of `sample` that raises leaves NumPy's generator alone. -/
theorem C56_sample_raises (hgood : ∀ w, weights = some w → Sorts w ord ∧ ∀ x ∈ w, 0 ≤ x) (hr : Reach items weights ord rmax p) (n : ℤ) (g : World) (e : Err)
    (h : (p.sample n g).2.2 = .err e) :
    let g' := (p.sample n g).2.1
    g'.words = g.words ∧ g'.extra = g.extra ∧ g'.crand = g.crand := by
  have h1 := (sample_spec (hr.inv hgood) n g).2
  rw [h1] at h ⊢
  unfold sampleSpec at h ⊢
  cases weights with
  | none => exact ⟨rfl, rfl, rfl⟩
  | some w =>
    dsimp only at h ⊢
    cases hi : initSampler w with
    | none => exact ⟨rfl, rfl, rfl⟩
    | some s =>
      rw [hi] at h
      dsimp only at h ⊢
      by_cases h0 : n ≤ 0
      · rw [if_pos h0]; exact ⟨rfl, rfl, rfl⟩
      rw [if_neg h0] at h ⊢
      cases hd : dranArray s n.toNat g.words with
      | none => exact ⟨rfl, rfl, rfl⟩
      | some q =>
        exfalso
        obtain ⟨idx, cw⟩ := q
        rw [hd] at h
        dsimp only at h
        have hin : ∀ m ws idx rest, draws s m ws = some (idx, rest) → ∀ i ∈ idx, i < w.length := by
          intro m
          induction m with
          | zero =>
            intro ws idx rest hdr i hi'
            simp only [draws, Option.some.injEq, Prod.mk.injEq] at hdr
            rw [← hdr.1] at hi'
            simp at hi'
          | succ m ih =>
            intro ws idx rest hdr i hi'
            unfold draws at hdr
            rcases hx : dran s ws with _ | ⟨j, ws1⟩
            · rw [hx] at hdr; cases hdr
            rw [hx] at hdr
            dsimp only at hdr
            rcases hy : draws s m ws1 with _ | ⟨o, ws2⟩
            · rw [hy] at hdr; cases hdr
            rw [hy] at hdr
            simp only [Option.some.injEq, Prod.mk.injEq] at hdr
            rw [← hdr.1] at hi'
            rcases List.mem_cons.1 hi' with rfl | hi'
            · exact dran_lt w s hi ws _ _ hx
            · exact ih ws1 o ws2 hy i hi'
        rw [C51_array] at hd
        cases items with
        | nil =>
          have := hr.length
          rw [List.length_nil, eq_comm, List.length_eq_zero_iff] at this
          subst this
          have := initSampler_pos _ _ hi
          simp at this
        | cons d its =>
          rw [pickAll_eq d (d :: its) idx (fun i hi' => by rw [hr.length]; exact hin _ _ _ _ hd i hi')] at h
          simp at h

/-- **C56.**  Two calls of `sample` give together what one call for the joint size gives, values and generators: no word is used twice, none is lost. -/
theorem C56_sample_twice (hgood : ∀ w, weights = some w → Sorts w ord ∧ ∀ x ∈ w, 0 ≤ x) (hr : Reach items weights ord rmax p) (m n : ℤ) (g : World) (a b : List α)
    (ha : (p.sample m g).2.2 = .val a) (hb : ((p.sample m g).1.sample n (p.sample m g).2.1).2.2 = .val b) :
    (p.sample (m + n) g).2 = (((p.sample m g).1.sample n (p.sample m g).2.1).2.1, .val (a ++ b)) := by
  have I := hr.inv hgood
  obtain ⟨I1, h1⟩ := sample_spec I m g
  have h2 := (sample_spec I1 n (p.sample m g).2.1).2
  rw [(sample_spec I (m + n) g).2]
  rw [h2] at hb
  rw [h1] at ha
  rw [h2]
  rw [h1] at hb ⊢
  unfold sampleSpec at ha hb ⊢
  cases weights with
  | none => simp at ha
  | some w =>
    dsimp only at ha hb ⊢
    cases hi : initSampler w with
    | none => rw [hi] at ha; simp at ha
    | some s =>
      rw [hi] at ha
      dsimp only at ha
      simp only [hi] at hb ⊢
      by_cases hm : m ≤ 0
      · rw [if_pos hm] at ha; simp at ha
      by_cases hn : n ≤ 0
      · rw [if_pos hn] at hb; simp at hb
      rw [if_neg hm] at ha
      simp only [if_neg hm, if_neg hn, if_neg (by omega : ¬ m + n ≤ 0)] at hb ⊢
      rw [Int.toNat_add (by omega) (by omega), C51_append]
      cases hd : dranArray s m.toNat g.words with
      | none => rw [hd] at ha; simp at ha
      | some q =>
        obtain ⟨idx, cw⟩ := q
        rw [hd] at ha
        simp only [hd] at hb ⊢
        dsimp only at ha
        cases hp : pickAll items idx with
        | none => rw [hp] at ha; simp at ha
        | some o =>
          rw [hp] at ha
          simp only [hp] at hb ⊢
          simp only [Out.val.injEq] at ha
          subst ha
          cases he : dranArray s n.toNat cw with
          | none => rw [he] at hb; simp at hb
          | some q' =>
            obtain ⟨idx', cw'⟩ := q'
            rw [he] at hb
            dsimp only at hb ⊢
            cases hp' : pickAll items idx' with
            | none => rw [hp'] at hb; simp at hb
            | some o' =>
              rw [hp'] at hb
              simp only [Out.val.injEq] at hb
              subst hb
              have : pickAll items (idx ++ idx') = some (o ++ o') := by
                unfold pickAll at hp hp' ⊢
                rw [List.mapM_append, hp, hp']
                rfl
              simp only [this]

/-- **C56.**  After `subset_pps` returns a part of the population, NumPy's generator goes on where the sampler stopped; words and numbers of `rand()` are used up from the front. -/
theorem C56_subset_pps (hgood : ∀ w, weights = some w → Sorts w ord ∧ ∀ x ∈ w, 0 ≤ x) (hr : Reach items weights ord rmax p) (n : ℤ) (hn : n ≠ 0) (hn' : n ≠ items.length)
    (g : World) (out : List α) (h : (p.subsetPps n g).2.2 = .val out) :
    let g' := (p.subsetPps n g).2.1
    g'.words = g'.cwords ∧ (∃ used, g.words = used ++ g'.words) ∧ ∃ used, g.crand = used ++ g'.crand := by
  have h1 := (subsetPps_spec (hr.inv hgood) n g).2 hn
  obtain ⟨_, _, h2, _, h3, h4⟩ := ppsSpec_val (rmax := rmax) (g := g) (g' := (p.subsetPps n g).2.1) (fun w hw => (hgood w hw).1) hn' (by rw [← h1, ← h])
  exact ⟨h2, h3, h4⟩

/-- **C56.**  After `subset_pps5` the same, and `rand()` is not used. -/
theorem C56_subset_pps5 (hgood : ∀ w, weights = some w → Sorts w ord ∧ ∀ x ∈ w, 0 ≤ x) (hr : Reach items weights ord rmax p) (fuel : ℕ) (n : ℤ) (hn : n ≠ 0)
    (hn' : n ≠ items.length) (g : World) (out : List α) (h : (p.subsetPps5 fuel n g).2.2 = .val out) :
    let g' := (p.subsetPps5 fuel n g).2.1
    g'.words = g'.cwords ∧ (∃ used, g.words = used ++ g'.words) ∧ g'.crand = g.crand := by
  have h1 := (subsetPps5_spec fuel hgood (hr.inv hgood) n g).2 hn
  obtain ⟨_, _, h2, _, h3, h4⟩ := pps5Spec_val (ord := ord) (weights := weights) (g := g) (g' := (p.subsetPps5 fuel n g).2.1) fuel hn' (by rw [← h1, ← h])
  exact ⟨h2, h3, h4⟩

/-! ## C80: `max_subset` -/

/-- **C80.**  Whatever was called before, `max_subset()` gives the largest size that is not too large for the largest weight.
Missing: at the limit itself drawing never returns (`C80_limit_violated`). -/
theorem C80_max_subset_partial (hs : Sorts w ord) (hw : ∀ x ∈ w, 0 ≤ x) (hpos : 0 < w.sum) (hr : Reach items (some w) ord rmax p) :
    ∃ m : ℕ, p.maxSubset = .val m ∧ ∀ n : ℕ, n ≤ m ↔ ∀ x ∈ w, n * x ≤ w.sum := by
  have hgood : ∀ w', some w = some w' → Sorts w' ord ∧ ∀ x ∈ w', 0 ≤ x := by rintro _ ⟨rfl⟩; exact ⟨hs, hw⟩
  have I := hr.inv hgood
  have hwne : w ≠ [] := by rintro rfl; simp at hpos
  have key : ∀ b ∈ w, (∀ x ∈ w, x ≤ b) → 0 < b ∧ ∀ n : ℕ, n ≤ ⌊w.sum / b⌋₊ ↔ ∀ x ∈ w, n * x ≤ w.sum := by
    intro b hb hmax
    have hb0 : 0 < b := by
      by_contra hc
      have : w.sum ≤ 0 := by
        have := List.sum_le_card_nsmul w 0 (fun x hx => (hmax x hx).trans (not_lt.1 hc))
        simpa using this
      linarith
    refine ⟨hb0, fun n => ?_⟩
    rw [Nat.le_floor_iff (div_nonneg hpos.le hb0.le), le_div_iff₀ hb0]
    constructor
    · intro h x hx
      have := hmax x hx
      have hn : (0 : K) ≤ n := Nat.cast_nonneg _
      nlinarith
    · intro h; exact h b hb
  unfold Pop.maxSubset
  cases hd : p.didSampford with
  | true =>
    obtain ⟨w', S', o, r, h1, h2, h3, h4, h5, h6, h7, h8, h9, h10, h11, h12⟩ := I.samp hd
    simp only [Option.some.injEq] at h1
    subst h1
    obtain ⟨S, hS, h13, h14, h15, h16, h17, h18, _⟩ := setup_eq hs hwne
    have hSS : S' = S := by
      have : some S' = some S := by rw [← hS]; first | exact h3.symm | exact h4.symm
      simpa using this
    subst hSS
    obtain ⟨k1, k2⟩ := key S'.big (h14.mem_iff.1 h16) (fun x hx => h15 x (h14.mem_iff.2 hx))
    have hm : p.maxWt = S'.big / S'.tot := by assumption
    rw [if_pos rfl, hm, h13, if_neg (div_pos k1 hpos).ne', one_div_div]
    exact ⟨_, rfl, k2⟩
  | false =>
    rw [if_neg (by simp), I.hweights]
    dsimp only
    cases hm : w.max? with
    | none => rw [List.max?_eq_none_iff] at hm; exact absurd hm hwne
    | some m =>
      obtain ⟨k1, k2⟩ := key m (List.max?_mem hm) (fun x hx => (List.max?_eq_some_iff.1 hm).2 x hx)
      dsimp only
      rw [if_neg k1.ne']
      exact ⟨_, rfl, k2⟩

/-- **C80 violated.**  A size that `max_subset` allows, at the limit of the largest weight, never gives a sample if it is three or more: whatever the words and the
non-zero numbers of `rand()`, the method goes on drawing. -/
theorem C80_limit_violated (hs : Sorts w ord) (hw : ∀ x ∈ w, 0 ≤ x) (hpos : 0 < w.sum) (hr : Reach items (some w) ord rmax p) (g : World) (he : g.extra = [])
    (hrand : ∀ r ∈ g.crand, r ≠ 0) (n : ℕ) (hn : 3 ≤ n) (hlen : n < items.length) (hle : p.maxSubset = .val n) (hx : ∃ x ∈ w, n * x = w.sum) :
    (p.subsetPps n g).2.2 = .short := by
  have hgood : ∀ w', some w = some w' → Sorts w' ord ∧ ∀ x ∈ w', 0 ≤ x := by rintro _ ⟨rfl⟩; exact ⟨hs, hw⟩
  obtain ⟨m, h1, h2⟩ := C80_max_subset_partial hs hw hpos hr
  rw [hle, Out.val.injEq] at h1
  subst h1
  rw [(subsetPps_spec (hr.inv hgood) n g).2 (by omega)]
  have hl := hr.length
  exact ppsSpec_limit hs hpos hl (by omega) (by omega) (by exact_mod_cast (h2 n).1 le_rfl) (by exact_mod_cast hx) he hrand

example : ∃ p : Pop ℕ ℚ, Reach [10, 11, 12, 13, 14] (some ([2, 1, 1, 1, 1] : List ℚ)) [1, 2, 3, 4, 0] 99 p ∧ Sorts ([2, 1, 1, 1, 1] : List ℚ) [1, 2, 3, 4, 0] ∧
    p.maxSubset = .val 3 ∧ ∃ x ∈ ([2, 1, 1, 1, 1] : List ℚ), (3 : ℕ) * x = ([2, 1, 1, 1, 1] : List ℚ).sum := by
  refine ⟨_, .new rfl, ⟨?_, ?_⟩, ?_, ?_⟩ <;> decide +kernel

end Verif.MC
