import Verif.MC.TwisterCount

/-!
# C99, C100, C101: the generator of the C sampler

Specification: `Verif/MC/TwisterSpec.lean` (the published recurrence, the numbers made from words, the calls a user makes).
-/

set_option linter.unusedSectionVars false

namespace Verif.MC

/-- A key for examples. -/
def demoKey : List (BitVec 32) := (List.range 624).map fun i => BitVec.ofNat 32 (7 * i + 3)

theorem demoKey_length : demoKey.length = 624 := by simp [demoKey]

theorem map_range_congr {α : Type} (f g : ℕ → α) (n : ℕ) (h : ∀ j, j < n → f j = g j) : (List.range n).map f = (List.range n).map g :=
  List.map_congr_left fun j hj => h j (List.mem_range.mp hj)

/-! ## C99 -/

/-- C99: after `set_rng_state` with 624 words of 32 bits and a position 0..624, any list of `local_rand` and `local_irand` calls (with `0 ≤ hi < 2 ^ 31`) gives the numbers made
from the published stream, from the word at that position on. -/
theorem C99_stream (s : Rk) (key : List (BitVec 32)) (hk : key.length = 624) (pos : ℕ) (hp : pos ≤ 624) (fuel : ℕ) (cs : List MT.Call)
    (hc : ∀ hi, MT.Call.irand hi ∈ cs → 0 ≤ hi ∧ hi < 2 ^ 31) :
    let r := s.setState "MT19937" (key.map (BitVec.setWidth 64)) pos
    r.2 = none ∧ (r.1.run fuel cs).map Prod.snd = (MT.calls (MT.out fun i => key.getD i 0) fuel cs pos).map Prod.snd := by
  constructor
  · unfold Rk.setState
    rw [if_neg (by simp), if_neg (by simp [hk])]
  · have h := (setState_at s key hk pos hp).run fuel cs (by
      intro c m
      cases c with
      | rand => trivial
      | irand hi => exact hc hi m)
    generalize MT.calls (MT.out fun i => key.getD i 0) fuel cs pos = A at h
    generalize Rk.run fuel cs _ = B at h
    cases h with
    | none => rfl
    | some q => simp only [Option.map_some, q.1]

/-- C99: a valid state stays valid: after any such calls `get_rng_state` gives 624 words of 32 bits and a position 0..624. -/
theorem C99_valid (s : Rk) (key : List (BitVec 32)) (hk : key.length = 624) (pos : ℕ) (hp : pos ≤ 624) (fuel : ℕ) (cs : List MT.Call)
    (hc : ∀ hi, MT.Call.irand hi ∈ cs → 0 ≤ hi ∧ hi < 2 ^ 31) (t : Rk) (out : List ℚ)
    (h : (s.setState "MT19937" (key.map (BitVec.setWidth 64)) pos).1.run fuel cs = some (t, out)) :
    ∃ (key' : List (BitVec 32)) (pos' : ℕ), key'.length = 624 ∧ pos' ≤ 624 ∧ t.getState = ("MT19937", key'.map (BitVec.setWidth 64), (pos' : ℤ)) := by
  have r := (setState_at s key hk pos hp).run fuel cs (by
      intro c m
      cases c with
      | rand => trivial
      | irand hi => exact hc hi m)
  rw [h] at r
  generalize MT.calls (MT.out fun i => key.getD i 0) fuel cs pos = A at r
  cases r with
  | some q =>
    obtain ⟨b, p, _, hp', e, hm⟩ := q.2
    refine ⟨(List.range 624).map fun j => MT.seq (fun i => key.getD i 0) (b + j), p, by simp, hp', ?_⟩
    have e2 : (List.range 624).map (fun i : ℕ => t.mem i) =
        (List.range 624).map (fun j => (MT.seq (fun i => key.getD i 0) (b + j)).setWidth 64) := map_range_congr _ _ _ fun j hj => by
      have := hm j hj
      rw [if_neg (by omega)] at this
      exact this
    unfold Rk.getState
    rw [e2, e, List.map_map]
    rfl

/-- C99: a state taken with `get_rng_state` at any moment, whatever state the generator is in, and set again after any further calls, restores the generator exactly: every
list of calls then gives what it would have given at that moment. -/
theorem C99_restore (t u : Rk) (fuel : ℕ) (cs : List MT.Call) (out : List ℚ) (h : t.run fuel cs = some (u, out)) :
    let r := u.setState t.getState.1 t.getState.2.1 t.getState.2.2
    r.2 = none ∧ ∀ fuel' cs', r.1.run fuel' cs' = t.run fuel' cs' := by
  dsimp only
  rw [setState_getState (run_same cs h)]
  exact ⟨rfl, fun _ _ => rfl⟩

/-- C99: `set_rng_state` raises ValueError exactly when the name is not `MT19937` or the key does not have 624 words, and then changes nothing. -/
theorem C99_reject (s : Rk) (id : String) (key : List Word) (pos : ℤ) :
    ((s.setState id key pos).2 = some .value ↔ id ≠ "MT19937" ∨ key.length ≠ 624) ∧
      ((s.setState id key pos).2 ≠ none → (s.setState id key pos) = (s, some .value)) := by
  unfold Rk.setState
  by_cases c : id ≠ "MT19937"
  · rw [if_pos c]; simp [c]
  · rw [if_neg c]
    by_cases d : key.length ≠ 624
    · rw [if_pos d]; simp [d]
    · rw [if_neg d]; simp [c, d]

/-- The hypotheses of C99 can be met, by a list of calls that gives numbers. -/
example (s : Rk) : ((s.setState "MT19937" (demoKey.map (BitVec.setWidth 64)) 0).1.run 5 [.rand, .irand 0, .rand]).isSome = true := rfl

/-! ## C100 -/

/-- C100, in part: from a valid state, after any calls, `local_rand` gives `k / 2 ^ 53` with `k < 2 ^ 53`.  What is missing: `C100_violated_words`, `C100_violated_position`. -/
theorem C100_rand_partial (s : Rk) (key : List (BitVec 32)) (hk : key.length = 624) (pos : ℕ) (hp : pos ≤ 624) (fuel : ℕ) (cs : List MT.Call)
    (hc : ∀ hi, MT.Call.irand hi ∈ cs → 0 ≤ hi ∧ hi < 2 ^ 31) (t : Rk) (out : List ℚ)
    (h : (s.setState "MT19937" (key.map (BitVec.setWidth 64)) pos).1.run fuel cs = some (t, out)) :
    (∃ k : ℕ, k < 2 ^ 53 ∧ t.rand.2 = (k : ℚ) / 2 ^ 53) ∧ 0 ≤ t.rand.2 ∧ t.rand.2 < 1 := by
  have r := (setState_at s key hk pos hp).run fuel cs (by
      intro c m
      cases c with
      | rand => trivial
      | irand hi => exact hc hi m)
  rw [h] at r
  generalize MT.calls (MT.out fun i => key.getD i 0) fuel cs pos = A at r
  cases r with
  | @some a _ q =>
    obtain ⟨e, _⟩ := q.2.double
    have main : ∃ k : ℕ, k < 2 ^ 53 ∧ t.rand.2 = (k : ℚ) / 2 ^ 53 := by
      refine ⟨_, ?_, e⟩
      have h1 : MT.out (fun i => key.getD i 0) a.1 < 2 ^ 32 := BitVec.isLt _
      have h2 : MT.out (fun i => key.getD i 0) (a.1 + 1) < 2 ^ 32 := BitVec.isLt _
      omega
    refine ⟨main, ?_⟩
    obtain ⟨k, hk, e⟩ := main
    rw [e]
    refine ⟨by positivity, ?_⟩
    rw [div_lt_one (by positivity)]
    exact_mod_cast hk

/-- C100, in part: whatever the state, `local_irand(hi)` with `0 ≤ hi < 2 ^ 31` gives an integer from 0 to `hi`.  What is missing: `C100_violated_negative`. -/
theorem C100_irand_partial (s t : Rk) (fuel : ℕ) (hi z : ℤ) (h0 : 0 ≤ hi) (h1 : hi < 2 ^ 31) (h : s.irand fuel hi = some (t, z)) : 0 ≤ z ∧ z ≤ hi := by
  have e := ofInt_toNat h0 h1
  have key : ∀ f s t v, Rk.search (BitVec.ofInt 64 hi) (bitMask (BitVec.ofInt 64 hi)) f s = some (t, v) → v.toNat ≤ hi.toNat := by
    intro f
    induction f with
    | zero => intro s t v h; cases h
    | succ f ih =>
      intro s t v h
      rw [search_succ _ _ f s s.ulong.1 s.ulong.2 rfl] at h
      split at h
      · exact ih _ _ _ h
      · rename_i c
        cases h
        rw [gt_iff_lt, BitVec.lt_def, e] at c
        omega
  unfold Rk.irand Rk.interval at h
  split at h
  · cases h
    exact ⟨le_rfl, h0⟩
  · rcases q : Rk.search (BitVec.ofInt 64 hi) (bitMask (BitVec.ofInt 64 hi)) fuel s with _ | ⟨u, v⟩
    · rw [q] at h; cases h
    · rw [q] at h
      have l := key _ _ _ _ q
      have : z = v.toInt := by cases h; rfl
      rw [this, BitVec.toInt_eq_toNat_of_lt (by omega)]
      omega

/-- C100: for each `k < 2 ^ 53`, exactly `2 ^ 11` of the `2 ^ 64` settings of the next two words of the array make `local_rand` give `k / 2 ^ 53`. -/
theorem C100_rand_equal (s : Rk) (hp : s.pos ≤ 622) (k : ℕ) (hk : k < 2 ^ 53) :
    {p : BitVec 32 × BitVec 32 | (s.put p.1 p.2).rand.2 = (k : ℚ) / 2 ^ 53}.ncard = 2 ^ 11 := by
  have e : {p : BitVec 32 × BitVec 32 | (s.put p.1 p.2).rand.2 = (k : ℚ) / 2 ^ 53} =
      {p : BitVec 32 × BitVec 32 | (fun a b : BitVec 32 => a.toNat / 2 ^ 5 = k / 2 ^ 26 ∧ b.toNat / 2 ^ 6 = k % 2 ^ 26) (MT.temper p.1) (MT.temper p.2)} := by
    ext ⟨a, b⟩
    rw [Set.mem_ofPred_eq, Set.mem_ofPred_eq, put_rand s hp, div_left_inj' (by positivity), Nat.cast_inj]
    have h1 := (MT.temper a).isLt
    have h2 := (MT.temper b).isLt
    dsimp only
    omega
  rw [e, ncard_temper (fun a b : BitVec 32 => a.toNat / 2 ^ 5 = k / 2 ^ 26 ∧ b.toNat / 2 ^ 6 = k % 2 ^ 26),
    ncard_pair (fun a => a.toNat / 2 ^ 5 = k / 2 ^ 26) (fun b => b.toNat / 2 ^ 6 = k % 2 ^ 26),
    ncard_div (2 ^ 5) (2 ^ 27) _ (by norm_num) (by norm_num) (by omega), ncard_div (2 ^ 6) (2 ^ 26) _ (by norm_num) (by norm_num) (by omega)]
  norm_num

/-- C100: for each `v` from 0 to `hi`, the same number of the `2 ^ 64` settings of the next two words of the array makes `local_irand(hi)` give `v` at the first trial. -/
theorem C100_irand_equal (s : Rk) (hp : s.pos ≤ 622) (hi : ℕ) (h0 : 0 < hi) (h1 : hi < 2 ^ 31) (v : ℕ) (hv : v ≤ hi) :
    {p : BitVec 32 × BitVec 32 | ((s.put p.1 p.2).irand 1 hi).map Prod.snd = some (v : ℤ)}.ncard = 2 ^ (64 - hi.size) := by
  have hs : hi.size ≤ 31 := Nat.size_le.mpr h1
  have hl := Nat.lt_size_self hi
  have e : {p : BitVec 32 × BitVec 32 | ((s.put p.1 p.2).irand 1 hi).map Prod.snd = some (v : ℤ)} =
      {p : BitVec 32 × BitVec 32 | (fun _ b : BitVec 32 => True ∧ b.toNat % 2 ^ hi.size = v) (MT.temper p.1) (MT.temper p.2)} := by
    ext ⟨a, b⟩
    rw [Set.mem_ofPred_eq, Set.mem_ofPred_eq, put_irand s hp h0 h1]
    constructor
    · intro h
      split at h
      · exact ⟨trivial, by exact_mod_cast Option.some.inj h⟩
      · cases h
    · rintro ⟨_, h⟩
      simp only at h
      rw [if_pos (by rw [h]; exact hv), h]
  rw [e, ncard_temper (fun _ b : BitVec 32 => True ∧ b.toNat % 2 ^ hi.size = v), ncard_pair (fun _ => True) (fun b => b.toNat % 2 ^ hi.size = v),
    ncard_mod _ _ (by omega) (lt_of_le_of_lt hv hl)]
  have : ({a : BitVec 32 | True} : Set (BitVec 32)) = Set.univ := by ext; simp
  rw [this, ncard_univ32, ← pow_add]
  congr 1
  omega

/-- C100: fewer than half of the settings of the next two words are rejected. -/
theorem C100_irand_rejected (s : Rk) (hp : s.pos ≤ 622) (hi : ℕ) (h0 : 0 < hi) (h1 : hi < 2 ^ 31) :
    {p : BitVec 32 × BitVec 32 | (s.put p.1 p.2).irand 1 hi = none}.ncard < 2 ^ 63 := by
  have hs : hi.size ≤ 31 := Nat.size_le.mpr h1
  have hs0 : 0 < hi.size := Nat.size_pos.mpr h0
  have hl : 2 ^ (hi.size - 1) ≤ hi := Nat.lt_size.mp (by omega)
  have e : {p : BitVec 32 × BitVec 32 | (s.put p.1 p.2).irand 1 hi = none} =
      {p : BitVec 32 × BitVec 32 | (fun _ b : BitVec 32 => True ∧ hi < b.toNat % 2 ^ hi.size) (MT.temper p.1) (MT.temper p.2)} := by
    ext ⟨a, b⟩
    rw [Set.mem_ofPred_eq, Set.mem_ofPred_eq, ← Option.map_eq_none_iff (f := Prod.snd), put_irand s hp h0 h1]
    constructor
    · intro h
      split at h
      · cases h
      · rename_i c; exact ⟨trivial, not_le.mp c⟩
    · rintro ⟨_, h⟩
      rw [if_neg (not_le.mpr h)]
  rw [e, ncard_temper (fun _ b : BitVec 32 => True ∧ hi < b.toNat % 2 ^ hi.size), ncard_pair (fun _ => True) (fun b => hi < b.toNat % 2 ^ hi.size)]
  have hu : ({a : BitVec 32 | True} : Set (BitVec 32)) = Set.univ := by ext; simp
  rw [hu, ncard_univ32]
  -- the words above `hi` are fewer than those with the highest bit of the mask clear
  have hlt : {b : BitVec 32 | hi < b.toNat % 2 ^ hi.size}.ncard < 2 ^ 31 := by
    have q := Set.ncard_add_ncard_compl {b : BitVec 32 | b.toNat % 2 ^ hi.size < hi + 1}
    have c : {b : BitVec 32 | b.toNat % 2 ^ hi.size < hi + 1}ᶜ = {b : BitVec 32 | hi < b.toNat % 2 ^ hi.size} := by
      ext b
      rw [Set.mem_compl_iff, Set.mem_ofPred_eq, Set.mem_ofPred_eq]
      omega
    rw [c, ncard_mod_lt _ (by omega) _ (Nat.lt_size_self hi), ← Set.ncard_univ, ncard_univ32] at q
    have g : 2 ^ 31 < (hi + 1) * 2 ^ (32 - hi.size) := by
      calc 2 ^ 31 = 2 ^ (hi.size - 1) * 2 ^ (32 - hi.size) := by rw [← pow_add]; congr 1; omega
        _ < (hi + 1) * 2 ^ (32 - hi.size) := Nat.mul_lt_mul_of_pos_right (by omega) (by positivity)
    generalize (hi + 1) * 2 ^ (32 - hi.size) = G at q g
    omega
  calc 2 ^ 32 * {b : BitVec 32 | hi < b.toNat % 2 ^ hi.size}.ncard < 2 ^ 32 * 2 ^ 31 := Nat.mul_lt_mul_of_pos_left hlt (by positivity)
    _ = 2 ^ 63 := by norm_num

/-- The claim of C100 fails for a negative `hi`: `local_irand(-1)` raises nothing, and any `long` at all can come out. -/
theorem C100_violated_negative (s : Rk) (hp : s.pos ≤ 622) (z : ℤ) (h0 : -(2 ^ 63) ≤ z) (h1 : z < 2 ^ 63) :
    ∃ a b : BitVec 32, ((s.put a b).irand 1 (-1)).map Prod.snd = some z := by
  have hs : Function.Surjective MT.temper := Finite.surjective_of_injective temper_inj
  obtain ⟨a, ha⟩ := hs (BitVec.ofNat 32 ((BitVec.ofInt 64 z).toNat / 2 ^ 32))
  obtain ⟨b, hb⟩ := hs (BitVec.ofNat 32 ((BitVec.ofInt 64 z).toNat % 2 ^ 32))
  refine ⟨a, b, ?_⟩
  rw [irand_neg, Option.map_some]
  congr 1
  have e : (s.put a b).ulong.2 = BitVec.ofInt 64 z := by
    apply BitVec.eq_of_toNat_eq
    rw [put_ulong s hp, ha, hb, BitVec.toNat_ofNat, BitVec.toNat_ofNat]
    have := (BitVec.ofInt 64 z).isLt
    omega
  show (s.put a b).ulong.2.toInt = z
  rw [e, BitVec.toInt_ofInt, Int.bmod_eq_of_le (by omega) (by omega)]

/-- The claim of C100 fails for words over 32 bits: `set_rng_state` accepts them, and `local_rand` gives a number above 1. -/
theorem C100_violated_words (s : Rk) :
    let r := s.setState "MT19937" (List.replicate 624 (2 ^ 40)) 0
    r.2 = none ∧ 1 < r.1.rand.2 := by
  have e : s.setState "MT19937" (List.replicate 624 (2 ^ 40)) 0 = (⟨fun i => if 0 ≤ i ∧ i < 624 then (List.replicate 624 (2 ^ 40 : Word)).getD i.toNat 0 else s.mem i, 0⟩, none) := by
    unfold Rk.setState
    rw [if_neg (by simp), if_neg (by rw [List.length_replicate]; exact fun h => h rfl)]
  dsimp only
  rw [e]
  refine ⟨rfl, ?_⟩
  have r1 : (Rk.mk (fun i => if 0 ≤ i ∧ i < 624 then (List.replicate 624 (2 ^ 40 : Word)).getD i.toNat 0 else s.mem i) 0).random.2 = temper (2 ^ 40) := rfl
  have r2 : (Rk.mk (fun i => if 0 ≤ i ∧ i < 624 then (List.replicate 624 (2 ^ 40 : Word)).getD i.toNat 0 else s.mem i) 0).random.1.random.2 = temper (2 ^ 40) := rfl
  unfold Rk.rand Rk.double
  dsimp only
  rw [r1, r2, show temper (2 ^ 40) = 1100052695040#64 by decide, show (1100052695040#64 >>> 5).toNat = 34376646720 by decide, show (1100052695040#64 >>> 6).toNat = 17188323360 by decide]
  norm_num

/-- The claim of C100 (and of C99) fails for a position beyond the array: `set_rng_state` accepts it, and from then on no result depends on the key: everything is read from
memory behind the array. -/
theorem C100_violated_position (s : Rk) (key key' : List Word) (hk : key.length = 624) (hk' : key'.length = 624) (pos : ℤ) (hp : 624 < pos) (fuel : ℕ) (cs : List MT.Call) :
    (s.setState "MT19937" key pos).2 = none ∧
      ((s.setState "MT19937" key pos).1.run fuel cs).map Prod.snd = ((s.setState "MT19937" key' pos).1.run fuel cs).map Prod.snd := by
  unfold Rk.setState
  rw [if_neg (by simp), if_neg (by simp [hk]), if_neg (by simp), if_neg (by simp [hk'])]
  refine ⟨rfl, Beyond.run fuel cs ⟨hp, rfl, fun i hi => ?_⟩⟩
  dsimp only
  rw [if_neg (by omega), if_neg (by omega)]

/-! ## C101 -/

/-- A state for `set_rng_state` that is not degenerate: the upper bit of the first word or one of the other words is not zero. -/
def Lively (key : List (BitVec 32)) : Prop := (key.getD 0 0).getLsbD 31 = true ∨ ∃ j, 1 ≤ j ∧ j < 624 ∧ key.getD j 0 ≠ 0

/-- C101, in part: from a state that is not degenerate, among any 624 consecutive words some are not zero, for ever; and from the second word on the words recur with a
period.  What is missing: before any state was set the generator is degenerate (`C101_violated`). -/
theorem C101_set_partial (s : Rk) (key : List (BitVec 32)) (hk : key.length = 624) (pos : ℕ) (hp : pos ≤ 624) (h : Lively key) :
    let t := (s.setState "MT19937" (key.map (BitVec.setWidth 64)) pos).1
    (∀ n, ∃ k, n ≤ k ∧ k < n + 624 ∧ t.word k ≠ 0) ∧ ∃ T, 0 < T ∧ ∀ n, 1 ≤ n → t.word (n + T) = t.word n := by
  have a := setState_at s key hk pos hp
  dsimp only
  generalize (s.setState "MT19937" (key.map (BitVec.setWidth 64)) pos).1 = t at a
  constructor
  · intro n
    obtain ⟨k, h1, h2, h3⟩ := alive (seq_add fun i => key.getD i 0) (by
      rcases h with h | ⟨j, h1, h2, h3⟩
      · left; rw [seq_lt _ (by norm_num)]; exact h
      · right; exact ⟨j, h1, h2, by rw [seq_lt _ h2]; exact h3⟩) (pos + n)
    refine ⟨k - pos, by omega, by omega, ?_⟩
    rw [a.word, show pos + (k - pos) = k by omega]
    exact wide_temper_ne h3
  · obtain ⟨T, h1, h2⟩ := periodic (seq_add fun i => key.getD i 0)
    refine ⟨T, h1, fun n hn => ?_⟩
    rw [a.word, a.word, ← Nat.add_assoc, h2 _ (by omega)]

/-- C101: seeding makes the published initial state for the low 32 bits of the seed, whatever the state was, and the words that follow are those of the stream after it. -/
theorem C101_seed_stream (seed : Word) (s : Rk) (n : ℕ) :
    (s.seed seed).word n = (MT.temper (MT.seq (MT.init (seed.setWidth 32)) (624 + n))).setWidth 64 := (seed_at seed s).word n

/-- C101: whatever the seed, the generator does not degenerate, and all its words recur with a period. -/
theorem C101_seed (seed : Word) (s : Rk) :
    (∀ n, ∃ k, n ≤ k ∧ k < n + 624 ∧ (s.seed seed).word k ≠ 0) ∧ ∃ T, 0 < T ∧ ∀ n, (s.seed seed).word (n + T) = (s.seed seed).word n := by
  have a := seed_at seed s
  generalize s.seed seed = t at a
  constructor
  · intro n
    obtain ⟨j, j1, j2, j3⟩ := init_alive (seed.setWidth 32)
    obtain ⟨k, h1, h2, h3⟩ := alive (seq_add (MT.init (seed.setWidth 32))) (Or.inr ⟨j, j1, j2, by rw [seq_lt _ j2]; exact j3⟩) (624 + n)
    refine ⟨k - 624, by omega, by omega, ?_⟩
    rw [a.word, show 624 + (k - 624) = k by omega]
    exact wide_temper_ne h3
  · obtain ⟨T, h1, h2⟩ := periodic (seq_add (MT.init (seed.setWidth 32)))
    refine ⟨T, h1, fun n => ?_⟩
    rw [a.word, a.word, ← Nat.add_assoc, h2 _ (by omega)]

/-- C101: no state is lost: two streams that agree in the words from some place on agreed before (in the 19937 bits of a state that matter, and so in all words but the first). -/
theorem C101_reversible (s s' : Rk) (key key' : List (BitVec 32)) (hk : key.length = 624) (hk' : key'.length = 624) (pos pos' : ℕ) (hp : pos ≤ 624) (hp' : pos' ≤ 624) (n : ℕ)
    (h : ∀ k, k < 624 → (s.setState "MT19937" (key.map (BitVec.setWidth 64)) pos).1.word (n + k) = (s'.setState "MT19937" (key'.map (BitVec.setWidth 64)) pos').1.word (n + k)) (k : ℕ) (h1 : 1 ≤ k) :
    (s.setState "MT19937" (key.map (BitVec.setWidth 64)) pos).1.word k = (s'.setState "MT19937" (key'.map (BitVec.setWidth 64)) pos').1.word k := by
  have a := setState_at s key hk pos hp
  have a' := setState_at s' key' hk' pos' hp'
  generalize (s.setState "MT19937" (key.map (BitVec.setWidth 64)) pos).1 = t at a h
  generalize (s'.setState "MT19937" (key'.map (BitVec.setWidth 64)) pos').1 = t' at a' h
  have w : ∀ k, k < 624 → MT.seq (fun i => key.getD i 0) (pos + n + k) = MT.seq (fun i => key'.getD i 0) (pos' + n + k) := by
    intro k hk
    have := h k hk
    rw [a.word, a'.word, ← Nat.add_assoc, ← Nat.add_assoc] at this
    exact temper_inj (wide_inj this)
  have e : Ess (MT.seq fun i => key.getD i 0) (MT.seq fun i => key'.getD i 0) (pos + n) (pos' + n) :=
    ⟨by have := w 0 (by norm_num); rw [Nat.add_zero, Nat.add_zero] at this; rw [this], fun j _ h2 => w j h2⟩
  have e0 := Ess.backs (seq_add _) (seq_add _) n e
  have ek := (Ess.fwds (seq_add _) (seq_add _) e0 (k - 1)).2 1 le_rfl (by norm_num)
  rw [a.word, a'.word, show pos + k = pos + (k - 1) + 1 by omega, show pos' + k = pos' + (k - 1) + 1 by omega, ek]

/-- The claim of C101 fails before any state was set: whatever is called, every result is zero. -/
theorem C101_violated (mem : ℤ → Word) (fuel : ℕ) (cs : List MT.Call) (hc : ∀ hi, MT.Call.irand hi ∈ cs → 0 ≤ hi ∧ hi < 2 ^ 31) :
    ((Rk.start mem).run (fuel + 1) cs).map Prod.snd = some (List.replicate cs.length 0) := by
  have h := (start_at mem).run (fuel + 1) cs (by
      intro c m
      cases c with
      | rand => trivial
      | irand hi => exact hc hi m)
  rw [← calls_zero fuel cs 0]
  generalize MT.calls (MT.out fun _ => 0) (fuel + 1) cs 0 = A at h
  generalize Rk.run (fuel + 1) cs _ = B at h
  cases h with
  | none => rfl
  | some q => simp only [Option.map_some, q.1]

/-- The hypotheses of C101 can be met. -/
example : demoKey.length = 624 ∧ Lively demoKey := ⟨demoKey_length, Or.inr ⟨1, by norm_num, by norm_num, by decide +kernel⟩⟩

/-- And those of C100: a state within the array. -/
example : ∃ s : Rk, s.pos ≤ 622 := ⟨Rk.start fun _ => 0, by decide⟩

end Verif.MC
