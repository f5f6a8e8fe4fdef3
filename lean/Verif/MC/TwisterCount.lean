import Mathlib.Data.Set.Card
import Mathlib.Data.Set.Card.Arithmetic
import Verif.MC.TwisterCycle

/-! # The generator of the C sampler: seeding, the unset state, and counts of words (lemmas) -/

set_option linter.unusedSectionVars false

namespace Verif.MC

/-! ## Seeding -/

theorem mask_wide (x : Word) : x &&& 0xffffffff#64 = wide (x.setWidth 32) := by
  apply BitVec.eq_of_toNat_eq
  rw [BitVec.toNat_and, wide_toNat, BitVec.toNat_setWidth]
  exact Nat.and_two_pow_sub_one_eq_mod _ 32

theorem narrow_wide (a : BitVec 32) : (wide a).setWidth 32 = a := by
  apply BitVec.eq_of_toNat_eq
  rw [BitVec.toNat_setWidth, wide_toNat]
  exact Nat.mod_eq_of_lt a.isLt

theorem seed_step (a : BitVec 32) (i : ℕ) :
    (1812433253#64 * (wide a ^^^ (wide a >>> 30)) + BitVec.ofInt 64 (i : ℤ) + 1#64) &&& 0xffffffff#64 =
      wide (1812433253#32 * (a ^^^ (a >>> 30)) + BitVec.ofNat 32 (i + 1)) := by
  rw [mask_wide, ← wide_shr, ← wide_xor]
  congr 1
  rw [BitVec.setWidth_add _ _ (by norm_num), BitVec.setWidth_add _ _ (by norm_num), BitVec.setWidth_mul _ _ (by norm_num), narrow_wide, BitVec.add_assoc]
  congr 1
  apply BitVec.eq_of_toNat_eq
  rw [BitVec.ofInt_natCast]
  simp only [BitVec.toNat_add, BitVec.toNat_setWidth, BitVec.toNat_ofNat]
  omega

theorem seedLoop_eq (sd : BitVec 32) (cnt : ℕ) : ∀ (i : ℕ) (key : ℤ → Word), (∀ j : ℕ, j < i → key j = wide (MT.init sd j)) →
    ∀ j : ℕ, j < i + cnt → seedLoop cnt i (wide (MT.init sd i)) key j = wide (MT.init sd j) := by
  induction cnt with
  | zero => intro i key h j hj; exact h j hj
  | succ c ih =>
    intro i key h j hj
    rw [seedLoop, seed_step]
    have := ih (i + 1) (Function.update key i (wide (MT.init sd i))) (by
      intro k hk
      by_cases e : k = i
      · subst e; rw [Function.update_self]
      · rw [Function.update_of_ne (by exact_mod_cast e), h k (by omega)]) j (by omega)
    push_cast at this
    exact this

theorem seed_at (seed : Word) (s : Rk) : At (MT.init (seed.setWidth 32)) 624 (s.seed seed) := by
  refine ⟨0, 624, rfl, le_rfl, rfl, ?_⟩
  intro j hj
  rw [if_neg (by omega), Nat.zero_add, seq_lt _ hj]
  unfold Rk.seed
  dsimp only
  rw [mask_wide]
  exact seedLoop_eq (seed.setWidth 32) 624 0 s.mem (by intro k hk; omega) j (by omega)

theorem init_alive (sd : BitVec 32) : ∃ j, 1 ≤ j ∧ j < 624 ∧ MT.init sd j ≠ 0 := by
  by_cases c : MT.init sd 1 = 0
  · refine ⟨2, by norm_num, by norm_num, ?_⟩
    rw [MT.init, c]
    decide
  · exact ⟨1, le_rfl, by norm_num, c⟩

/-! ## The unset state -/

theorem seq_zero (n : ℕ) : MT.seq (fun _ => 0) n = 0 := by
  induction n using Nat.strong_induction_on with
  | _ n ih =>
    by_cases c : n < 624
    · rw [seq_lt _ c]
    · obtain ⟨m, rfl⟩ : ∃ m, n = m + 624 := ⟨n - 624, by omega⟩
      rw [seq_add, ih m (by omega), ih (m + 1) (by omega), ih (m + 397) (by omega)]
      decide

theorem start_at (mem : ℤ → Word) : At (fun _ => 0) 0 (Rk.start mem) := by
  refine ⟨0, 0, rfl, by norm_num, rfl, ?_⟩
  intro j hj
  rw [if_neg (by omega), seq_zero]
  unfold Rk.start
  dsimp only
  rw [if_pos (by omega)]
  decide

theorem out_zero (n : ℕ) : MT.out (fun _ => 0) n = 0 := by
  unfold MT.out
  rw [seq_zero, temper_zero]
  rfl

theorem calls_zero (fuel : ℕ) (cs : List MT.Call) : ∀ n, (MT.calls (MT.out fun _ => 0) (fuel + 1) cs n).map Prod.snd = some (List.replicate cs.length 0) := by
  induction cs with
  | nil => intro n; rfl
  | cons c cs ih =>
    intro n
    cases c with
    | rand =>
      rw [MT.calls, Option.map_map]
      have := congrArg (Option.map (fun l : List ℚ => 0 :: l)) (ih (n + 2))
      rw [Option.map_map] at this
      rw [List.length_cons, List.replicate_succ, ← Option.map_some (f := fun l : List ℚ => 0 :: l), ← ih (n + 2), Option.map_map]
      congr 1
      funext r
      simp only [Function.comp, MT.real, out_zero]
      norm_num
    | irand hi =>
      have e : ∃ m, MT.int (MT.out fun _ => 0) hi.toNat (fuel + 1) n = some (m, 0) := by
        unfold MT.int
        split
        · exact ⟨n, rfl⟩
        · have t : MT.trial (MT.out fun _ => 0) hi.toNat n = 0 := by
            unfold MT.trial; rw [out_zero, out_zero]; simp
          rw [first_succ, t, if_pos (Nat.zero_le _)]
          exact ⟨n + 2, rfl⟩
      obtain ⟨m, e⟩ := e
      rw [MT.calls, e, Option.bind_some, Option.map_map]
      rw [List.length_cons, List.replicate_succ, ← Option.map_some (f := fun l : List ℚ => 0 :: l), ← ih m, Option.map_map]
      congr 1

/-! ## Counting words -/

theorem ncard_bits (P : ℕ → Prop) : {r : BitVec 32 | P r.toNat}.ncard = {n : ℕ | n < 2 ^ 32 ∧ P n}.ncard := by
  have : (BitVec.toNat (w := 32)) '' {r : BitVec 32 | P r.toNat} = {n : ℕ | n < 2 ^ 32 ∧ P n} := by
    ext n
    constructor
    · rintro ⟨r, hr, rfl⟩; exact ⟨r.isLt, hr⟩
    · rintro ⟨h1, h2⟩
      have e : (BitVec.ofNat 32 n).toNat = n := by rw [BitVec.toNat_ofNat, Nat.mod_eq_of_lt h1]
      exact ⟨BitVec.ofNat 32 n, by rw [Set.mem_ofPred_eq, e]; exact h2, e⟩
  rw [← this, Set.ncard_image_of_injective _ (fun a b h => BitVec.eq_of_toNat_eq h)]

theorem ncard_univ32 : (Set.univ : Set (BitVec 32)).ncard = 2 ^ 32 := by
  have h := ncard_bits fun _ => True
  have e : {n : ℕ | n < 2 ^ 32 ∧ True} = ((Finset.range (2 ^ 32) : Finset ℕ) : Set ℕ) := by
    ext n; simp
  rw [e, Set.ncard_coe_finset, Finset.card_range] at h
  rw [← h]
  congr 1

theorem ncard_div (d m q : ℕ) (hd : 0 < d) (hm : d * m = 2 ^ 32) (hq : q < m) : {r : BitVec 32 | r.toNat / d = q}.ncard = d := by
  rw [ncard_bits fun n => n / d = q]
  have e : {n : ℕ | n < 2 ^ 32 ∧ n / d = q} = ((Finset.Ico (d * q) (d * q + d) : Finset ℕ) : Set ℕ) := by
    ext n
    rw [Set.mem_ofPred_eq, Finset.coe_Ico, Set.mem_Ico, Nat.div_eq_iff hd]
    have : d * q + d ≤ 2 ^ 32 := by rw [← hm, ← Nat.mul_succ]; exact Nat.mul_le_mul_left d hq
    rw [Nat.mul_comm q d]
    omega
  rw [e, Set.ncard_coe_finset, Nat.card_Ico]
  omega

theorem ncard_mod (k v : ℕ) (hk : k ≤ 32) (hv : v < 2 ^ k) : {r : BitVec 32 | r.toNat % 2 ^ k = v}.ncard = 2 ^ (32 - k) := by
  rw [ncard_bits fun n => n % 2 ^ k = v]
  have e : {n : ℕ | n < 2 ^ 32 ∧ n % 2 ^ k = v} = (((Finset.range (2 ^ (32 - k))).image fun j => 2 ^ k * j + v : Finset ℕ) : Set ℕ) := by
    have hp : 2 ^ k * 2 ^ (32 - k) = 2 ^ 32 := by rw [← pow_add, Nat.add_sub_cancel' hk]
    ext n
    simp only [Set.mem_ofPred_eq, Finset.coe_image, Finset.coe_range, Set.mem_image, Set.mem_Iio]
    constructor
    · rintro ⟨h1, h2⟩
      refine ⟨n / 2 ^ k, ?_, ?_⟩
      · apply Nat.div_lt_of_lt_mul; rw [hp]; exact h1
      · rw [← h2]; exact Nat.div_add_mod n (2 ^ k)
    · rintro ⟨j, h1, rfl⟩
      constructor
      · calc 2 ^ k * j + v < 2 ^ k * j + 2 ^ k := by omega
          _ = 2 ^ k * (j + 1) := by ring
          _ ≤ 2 ^ k * 2 ^ (32 - k) := Nat.mul_le_mul_left _ h1
          _ = 2 ^ 32 := hp
      · rw [Nat.mul_add_mod, Nat.mod_eq_of_lt hv]
  rw [e, Set.ncard_coe_finset, Finset.card_image_of_injective, Finset.card_range]
  intro a b h
  have : 2 ^ k * a = 2 ^ k * b := by simpa using h
  exact Nat.eq_of_mul_eq_mul_left (by positivity) this

theorem ncard_mod_lt (k : ℕ) (hk : k ≤ 32) (m : ℕ) (hm : m ≤ 2 ^ k) : {r : BitVec 32 | r.toNat % 2 ^ k < m}.ncard = m * 2 ^ (32 - k) := by
  induction m with
  | zero =>
    have : {r : BitVec 32 | r.toNat % 2 ^ k < 0} = ∅ := by ext; simp
    rw [this, Set.ncard_empty, Nat.zero_mul]
  | succ m ih =>
    have : {r : BitVec 32 | r.toNat % 2 ^ k < m + 1} = {r : BitVec 32 | r.toNat % 2 ^ k < m} ∪ {r : BitVec 32 | r.toNat % 2 ^ k = m} := by
      ext r
      rw [Set.mem_union, Set.mem_ofPred_eq, Set.mem_ofPred_eq, Set.mem_ofPred_eq]
      omega
    rw [this, Set.ncard_union_eq, ih (by omega), ncard_mod k m hk (by omega), Nat.succ_mul]
    rw [Set.disjoint_left]
    intro r h1 h2
    rw [Set.mem_ofPred_eq] at h1 h2
    omega

/-- Tempering permutes the words, and so the pairs of words. -/
theorem ncard_temper (P : BitVec 32 → BitVec 32 → Prop) :
    {p : BitVec 32 × BitVec 32 | P (MT.temper p.1) (MT.temper p.2)}.ncard = {p : BitVec 32 × BitVec 32 | P p.1 p.2}.ncard := by
  have hs : Function.Surjective MT.temper := Finite.surjective_of_injective temper_inj
  have e : (Prod.map MT.temper MT.temper) '' {p : BitVec 32 × BitVec 32 | P (MT.temper p.1) (MT.temper p.2)} = {p : BitVec 32 × BitVec 32 | P p.1 p.2} := by
    ext ⟨a, b⟩
    constructor
    · rintro ⟨⟨c, d⟩, h, e⟩
      cases e; exact h
    · intro h
      obtain ⟨c, rfl⟩ := hs a
      obtain ⟨d, rfl⟩ := hs b
      exact ⟨(c, d), h, rfl⟩
  rw [← e, Set.ncard_image_of_injective _ (temper_inj.prodMap temper_inj)]

theorem ncard_pair (p : BitVec 32 → Prop) (q : BitVec 32 → Prop) : {x : BitVec 32 × BitVec 32 | p x.1 ∧ q x.2}.ncard = {a | p a}.ncard * {b | q b}.ncard := by
  rw [← Set.ncard_prod]
  rfl

/-! ## Numbers from the next two words of the array -/

/-- The next two words of the array replaced. -/
def Rk.put (s : Rk) (a b : BitVec 32) : Rk := ⟨Function.update (Function.update s.mem s.pos (a.setWidth 64)) (s.pos + 1) (b.setWidth 64), s.pos⟩

theorem put_random (s : Rk) (hp : s.pos ≤ 622) (a b : BitVec 32) :
    (s.put a b).random.2 = wide (MT.temper a) ∧ (s.put a b).random.1.random.2 = wide (MT.temper b) := by
  have h1 : (s.put a b).random = (⟨(s.put a b).mem, s.pos + 1⟩, temper ((s.put a b).mem s.pos)) := by
    unfold Rk.random
    rw [if_neg (by show s.pos ≠ 624; omega)]
    rfl
  have h2 : (Rk.mk (s.put a b).mem (s.pos + 1)).random = (⟨(s.put a b).mem, s.pos + 1 + 1⟩, temper ((s.put a b).mem (s.pos + 1))) := by
    unfold Rk.random
    rw [if_neg (by show s.pos + 1 ≠ 624; omega)]
  have m1 : (s.put a b).mem s.pos = wide a := by
    unfold Rk.put
    dsimp only
    rw [Function.update_of_ne (by omega), Function.update_self, wide]
  have m2 : (s.put a b).mem (s.pos + 1) = wide b := by
    unfold Rk.put
    dsimp only
    rw [Function.update_self, wide]
  rw [h1, h2, m1, m2, temper_wide, temper_wide]
  exact ⟨rfl, rfl⟩

theorem double_val (s : Rk) (a b : BitVec 32) (e1 : s.random.2 = wide a) (e2 : s.random.1.random.2 = wide b) :
    s.double.2 = ((a.toNat / 2 ^ 5 * 2 ^ 26 + b.toNat / 2 ^ 6 : ℕ) : ℚ) / 2 ^ 53 := by
  unfold Rk.double
  dsimp only
  rw [e1, e2, BitVec.toNat_ushiftRight, BitVec.toNat_ushiftRight, wide_toNat, wide_toNat, Nat.shiftRight_eq_div_pow, Nat.shiftRight_eq_div_pow]
  push_cast
  norm_num

theorem put_rand (s : Rk) (hp : s.pos ≤ 622) (a b : BitVec 32) :
    (s.put a b).rand.2 = (((MT.temper a).toNat / 2 ^ 5 * 2 ^ 26 + (MT.temper b).toNat / 2 ^ 6 : ℕ) : ℚ) / 2 ^ 53 := by
  obtain ⟨e1, e2⟩ := put_random s hp a b
  exact double_val _ _ _ e1 e2

theorem put_irand (s : Rk) (hp : s.pos ≤ 622) {hi : ℕ} (h0 : 0 < hi) (h1 : hi < 2 ^ 31) (a b : BitVec 32) :
    ((s.put a b).irand 1 hi).map Prod.snd =
      if (MT.temper b).toNat % 2 ^ hi.size ≤ hi then some (((MT.temper b).toNat % 2 ^ hi.size : ℕ) : ℤ) else none := by
  obtain ⟨e1, e2⟩ := put_random s hp a b
  have e := ofInt_toNat (hi := hi) (by omega) (by exact_mod_cast h1)
  rw [Int.toNat_natCast] at e
  have hs : hi.size ≤ 31 := Nat.size_le.mpr h1
  have hu : (s.put a b).ulong.2.toNat = (MT.temper a).toNat * 2 ^ 32 + (MT.temper b).toNat := by
    unfold Rk.ulong
    dsimp only
    rw [e1, e2, join_toNat]
  have hv : ((s.put a b).ulong.2 &&& bitMask (BitVec.ofInt 64 hi)).toNat = (MT.temper b).toNat % 2 ^ hi.size := by
    rw [mask_mod, e, hu, show (2 : ℕ) ^ 32 = 2 ^ (32 - hi.size) * 2 ^ hi.size by rw [← pow_add]; congr 1; omega, ← Nat.mul_assoc, Nat.mul_add_mod_self_right]
  unfold Rk.irand Rk.interval
  rw [if_neg (by intro z; rw [z] at e; exact absurd e.symm (by simpa using h0.ne')),
    search_succ _ _ 0 _ (s.put a b).ulong.1 (s.put a b).ulong.2 rfl]
  by_cases c : (MT.temper b).toNat % 2 ^ hi.size ≤ hi
  · rw [if_pos c, if_neg (by rw [gt_iff_lt, BitVec.lt_def, hv, e]; exact not_lt.mpr c), Option.map_some, Option.map_some]
    congr 1
    show BitVec.toInt _ = _
    rw [BitVec.toInt_eq_toNat_of_lt (by rw [hv]; omega), hv]
  · rw [if_neg c, if_pos (by rw [gt_iff_lt, BitVec.lt_def, hv, e]; exact not_le.mp c)]
    rfl

theorem put_ulong (s : Rk) (hp : s.pos ≤ 622) (a b : BitVec 32) : (s.put a b).ulong.2.toNat = (MT.temper a).toNat * 2 ^ 32 + (MT.temper b).toNat := by
  obtain ⟨e1, e2⟩ := put_random s hp a b
  unfold Rk.ulong
  dsimp only
  rw [e1, e2, join_toNat]

theorem irand_neg (s : Rk) : s.irand 1 (-1) = some (s.ulong.1, s.ulong.2.toInt) := by
  unfold Rk.irand Rk.interval
  have e : BitVec.ofInt 64 (-1) = BitVec.allOnes 64 := by decide
  have m : bitMask (BitVec.allOnes 64) = BitVec.allOnes 64 := by decide
  have l : ¬ s.ulong.2 > BitVec.allOnes 64 := by
    rw [gt_iff_lt, BitVec.lt_def, BitVec.toNat_allOnes]
    have := s.ulong.2.isLt
    omega
  rw [e, m, if_neg (by decide), search_succ _ _ 0 _ s.ulong.1 s.ulong.2 rfl, BitVec.and_allOnes, if_neg l]
  rfl

/-! ## Positions beyond the array -/

/-- Both states read at the same place beyond the array, and the memory there is the same. -/
def Beyond (s t : Rk) : Prop := 624 < s.pos ∧ s.pos = t.pos ∧ ∀ i, 624 ≤ i → s.mem i = t.mem i

theorem Beyond.random {s t : Rk} (h : Beyond s t) : s.random.2 = t.random.2 ∧ Beyond s.random.1 t.random.1 := by
  obtain ⟨h1, h2, h3⟩ := h
  unfold Rk.random
  rw [if_neg (by omega), if_neg (by omega)]
  dsimp only
  exact ⟨by rw [h2, h3 _ (by omega)], by show 624 < s.pos + 1; omega, by show s.pos + 1 = t.pos + 1; rw [h2], h3⟩

theorem Beyond.ulong {s t : Rk} (h : Beyond s t) : s.ulong.2 = t.ulong.2 ∧ Beyond s.ulong.1 t.ulong.1 := by
  obtain ⟨e1, h1⟩ := h.random
  obtain ⟨e2, h2⟩ := h1.random
  refine ⟨?_, h2⟩
  unfold Rk.ulong
  dsimp only
  rw [e1, e2]

theorem Beyond.double {s t : Rk} (h : Beyond s t) : s.double.2 = t.double.2 ∧ Beyond s.double.1 t.double.1 := by
  obtain ⟨e1, h1⟩ := h.random
  obtain ⟨e2, h2⟩ := h1.random
  refine ⟨?_, h2⟩
  unfold Rk.double
  dsimp only
  rw [e1, e2]

theorem Beyond.search {max mask : Word} (fuel : ℕ) : ∀ {s t : Rk}, Beyond s t →
    Option.Rel (fun a b : Rk × Word => a.2 = b.2 ∧ Beyond a.1 b.1) (Rk.search max mask fuel s) (Rk.search max mask fuel t) := by
  induction fuel with
  | zero => intro s t _; exact Option.Rel.none
  | succ f ih =>
    intro s t h
    obtain ⟨e, h1⟩ := h.ulong
    rw [search_succ _ _ f s s.ulong.1 s.ulong.2 rfl, search_succ _ _ f t t.ulong.1 t.ulong.2 rfl, e]
    split
    · exact ih h1
    · exact Option.Rel.some ⟨rfl, h1⟩

theorem Beyond.irand {s t : Rk} (h : Beyond s t) (fuel : ℕ) (hi : ℤ) :
    Option.Rel (fun a b : Rk × ℤ => a.2 = b.2 ∧ Beyond a.1 b.1) (s.irand fuel hi) (t.irand fuel hi) := by
  unfold Rk.irand Rk.interval
  split
  · exact Option.Rel.some ⟨rfl, h⟩
  · have := h.search (max := BitVec.ofInt 64 hi) (mask := bitMask (BitVec.ofInt 64 hi)) fuel
    generalize Rk.search _ _ fuel s = A at this
    generalize Rk.search _ _ fuel t = B at this
    cases this with
    | none => exact Option.Rel.none
    | some q => exact Option.Rel.some ⟨by simp only [q.1], q.2⟩

theorem Beyond.run (fuel : ℕ) (cs : List MT.Call) : ∀ {s t : Rk}, Beyond s t → (s.run fuel cs).map Prod.snd = (t.run fuel cs).map Prod.snd := by
  induction cs with
  | nil => intro s t _; rfl
  | cons c cs ih =>
    intro s t h
    cases c with
    | rand =>
      obtain ⟨e, h1⟩ := h.double
      have r := congrArg (Option.map (fun l : List ℚ => s.double.2 :: l)) (ih h1)
      rw [Option.map_map, Option.map_map] at r
      rw [Rk.run, Rk.run, Option.map_map, Option.map_map]
      refine r.trans ?_
      rw [e]
      rfl
    | irand hi =>
      have r := h.irand fuel hi
      rw [Rk.run, Rk.run]
      generalize Rk.irand fuel hi s = A at r
      generalize Rk.irand fuel hi t = B at r
      cases r with
      | none => rfl
      | @some a b q =>
        have r := congrArg (Option.map (fun l : List ℚ => (a.2 : ℚ) :: l)) (ih q.2)
        rw [Option.map_map, Option.map_map] at r
        rw [Option.bind_some, Option.bind_some, Option.map_map, Option.map_map]
        refine r.trans ?_
        rw [q.1]
        rfl

/-! ## Words one after another -/

/-- Word `n` that `rk_random` gives from a state. -/
def Rk.word (s : Rk) (n : ℕ) : Word := ((fun t : Rk => t.random.1)^[n] s).random.2

theorem At.word {key : ℕ → BitVec 32} (n : ℕ) : ∀ {m : ℕ} {s : Rk}, At key m s → s.word n = wide (MT.temper (MT.seq key (m + n))) := by
  induction n with
  | zero => intro m s h; exact h.random.1
  | succ n ih =>
    intro m s h
    have := ih h.random.2
    rw [show m + (n + 1) = m + 1 + n by omega, ← this]
    unfold Rk.word
    rw [Function.iterate_succ_apply]

theorem wide_temper_ne {x : BitVec 32} (h : x ≠ 0) : wide (MT.temper x) ≠ 0 := by
  intro z
  apply h
  apply temper_inj
  rw [temper_zero]
  apply wide_inj
  rw [z]
  decide

end Verif.MC
