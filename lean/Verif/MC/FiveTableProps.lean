import Verif.MC.FiveTable
import Mathlib.Tactic.Ring
import Mathlib.Tactic.Linarith
import Mathlib.Tactic.NormNum

/-!
# C222: the five tables give every value its probability
-/

namespace Verif.MC.FiveTable

theorem count_congr' {p q : ℕ → Prop} [DecidablePred p] [DecidablePred q] : ∀ n, (∀ k < n, p k ↔ q k) → Nat.count p n = Nat.count q n
  | 0, _ => by simp
  | n + 1, h => by
    rw [Nat.count_succ, Nat.count_succ, count_congr' n fun k hk => h k (by omega)]
    simp only [h n (by omega)]

theorem count_all {p : ℕ → Prop} [DecidablePred p] : ∀ n, (∀ k < n, p k) → Nat.count p n = n
  | 0, _ => by simp
  | n + 1, h => by rw [Nat.count_succ, count_all n fun k hk => h k (by omega), if_pos (h n (by omega))]

theorem count_none {p : ℕ → Prop} [DecidablePred p] : ∀ n, (∀ k < n, ¬ p k) → Nat.count p n = 0
  | 0, _ => by simp
  | n + 1, h => by rw [Nat.count_succ, count_none n fun k hk => h k (by omega), if_neg (h n (by omega))]

/-- Each entry of a table is met by `w` integers. -/
theorem count_tbl {w : ℕ} (hw : 0 < w) (v : ℤ) : ∀ T : List ℤ, Nat.count (fun j => T[j / w]? = some v) (T.length * w) = w * T.count v
  | [] => by simp
  | x :: T => by
    have e : (x :: T).length * w = w + T.length * w := by simp only [List.length_cons]; ring
    rw [e, Nat.count_add]
    have h2 : Nat.count (fun k => (x :: T)[(w + k) / w]? = some v) (T.length * w) = w * T.count v := by
      rw [← count_tbl hw v T]
      refine count_congr' _ fun k _ => ?_
      rw [Nat.add_div_left k hw, List.getElem?_cons_succ]
    rw [h2]
    by_cases hx : x = v
    · rw [count_all w fun k hk => by simp [Nat.div_eq_of_lt hk, hx], List.count_cons, hx]
      simp; ring
    · rw [count_none w fun k hk => by simp [Nat.div_eq_of_lt hk, hx], List.count_cons]
      simp [hx]

theorem fill_length (B k off : ℕ) : ∀ (P : List ℕ) (i : ℕ), (fill B k off i P).length = (P.map fun m => dg B m k).sum
  | [], _ => rfl
  | m :: P, i => by simp [fill, fill_length B k off P (i + 1)]

theorem short_eq {k : ℕ} (h : k < 32768) : short k = k := by
  have : k % 65536 = k := Nat.mod_eq_of_lt (by omega)
  rw [short, this, if_pos h]

theorem fill_count_zero (B k off : ℕ) (v : ℤ) : ∀ (P : List ℕ) (i : ℕ), i + P.length + off ≤ 32768 → (∀ n < P.length, v ≠ ((i + n + off : ℕ) : ℤ)) →
    (fill B k off i P).count v = 0
  | [], _, _, _ => rfl
  | m :: P, i, hl, h => by
    simp only [List.length_cons] at hl h
    rw [fill, List.count_append, fill_count_zero B k off v P (i + 1) (by omega) (fun n hn => by
      have := h (n + 1) (by omega)
      rwa [show i + (n + 1) + off = i + 1 + n + off by omega] at this)]
    have h0 := h 0 (by omega)
    rw [short_eq (by omega), List.count_replicate, if_neg]
    simp only [Nat.add_zero] at h0
    simpa using fun e => h0 e.symm

theorem fill_count (B k off : ℕ) : ∀ (P : List ℕ) (i n m : ℕ), i + P.length + off ≤ 32768 → P[n]? = some m →
    (fill B k off i P).count ((i + n + off : ℕ) : ℤ) = dg B m k
  | [], _, _, _, _, h => by simp at h
  | m' :: P, i, 0, m, hl, h => by
    simp only [List.length_cons] at hl
    simp only [List.getElem?_cons_zero, Option.some.injEq] at h
    rw [fill, List.count_append, fill_count_zero B k off _ P (i + 1) (by omega) (fun n _ => by intro e; rw [Nat.cast_inj] at e; omega),
      short_eq (by omega), Nat.add_zero, Nat.add_zero, List.count_replicate_self, h]
  | m' :: P, i, n + 1, m, hl, h => by
    simp only [List.length_cons] at hl
    simp only [List.getElem?_cons_succ] at h
    have ih := fill_count B k off P (i + 1) n m (by omega) h
    rw [show i + (n + 1) + off = i + 1 + n + off by omega, fill, List.count_append, ih, short_eq (by omega), List.count_replicate, if_neg, Nat.zero_add]
    simp only [beq_iff_eq, Nat.cast_inj]; omega

/-- The digits make up the number. -/
theorem digits {B m : ℕ} (hB : 0 < B) (h : m < B ^ 5) :
    B ^ 4 * dg B m 1 + B ^ 3 * dg B m 2 + B ^ 2 * dg B m 3 + B * dg B m 4 + dg B m 5 = m := by
  have e : ∀ k, m / B ^ k = B * (m / B ^ (k + 1)) + m / B ^ k % B := fun k => by
    rw [pow_succ, ← Nat.div_div_eq_div_mul]; exact (Nat.div_add_mod _ _).symm
  have h' : m < B * B ^ 4 := by rw [← pow_succ']; exact h
  have e4 : m / B ^ 4 % B = m / B ^ 4 := Nat.mod_eq_of_lt (by rw [Nat.div_lt_iff_lt_mul (by positivity)]; exact h')
  have d1 : dg B m 1 = m / B ^ 4 := e4
  have d2 : m / B ^ 3 = B * (m / B ^ 4) + dg B m 2 := e 3
  have d3 : m / B ^ 2 = B * (m / B ^ 3) + dg B m 3 := e 2
  have d4 : m / B ^ 1 = B * (m / B ^ 2) + dg B m 4 := e 1
  have d5 : m / B ^ 0 = B * (m / B ^ 1) + dg B m 5 := e 0
  rw [pow_zero, Nat.div_one] at d5
  rw [d1]
  generalize m / B ^ 4 = a at *
  generalize m / B ^ 3 = b at *
  generalize m / B ^ 2 = c at *
  generalize m / B ^ 1 = d at *
  subst d2
  subst d3
  subst d4
  exact Eq.trans (by ring) d5.symm

theorem sum_digits {B : ℕ} (hB : 0 < B) : ∀ P : List ℕ, (∀ m ∈ P, m < B ^ 5) →
    P.sum = (P.map fun m => dg B m 1).sum * B ^ 4 + (P.map fun m => dg B m 2).sum * B ^ 3 + (P.map fun m => dg B m 3).sum * B ^ 2 +
      (P.map fun m => dg B m 4).sum * B + (P.map fun m => dg B m 5).sum
  | [], _ => by simp
  | m :: P, h => by
    have ih := sum_digits hB P fun x hx => h x (List.mem_cons_of_mem _ hx)
    have hd := digits hB (h m (by simp))
    simp only [List.map_cons, List.sum_cons]
    rw [ih]
    nth_rw 1 [← hd]
    ring

theorem count_tables {B : ℕ} (hB : 0 < B) (A1 A2 A3 A4 A5 : List ℤ) (n1 n2 n3 n4 n5 : ℕ) (h1 : n1 = A1.length * B ^ 4) (h2 : n2 = A2.length * B ^ 3)
    (h3 : n3 = A3.length * B ^ 2) (h4 : n4 = A4.length * B) (h5 : n5 = A5.length) (v : ℤ) :
    Nat.count (fun j => lookup B ⟨A1, A2, A3, A4, A5, n1, n1 + n2, n1 + n2 + n3, n1 + n2 + n3 + n4⟩ j = some v) (n1 + n2 + n3 + n4 + n5) =
      B ^ 4 * A1.count v + B ^ 3 * A2.count v + B ^ 2 * A3.count v + B * A4.count v + A5.count v := by
  have c1 := count_tbl (w := B ^ 4) (by positivity) v A1
  have c2 := count_tbl (w := B ^ 3) (by positivity) v A2
  have c3 := count_tbl (w := B ^ 2) (by positivity) v A3
  have c4 := count_tbl (w := B) hB v A4
  have c5 := count_tbl (w := 1) (by norm_num) v A5
  simp only [Nat.div_one, Nat.mul_one, Nat.one_mul] at c5
  rw [← h1] at c1
  rw [← h2] at c2
  rw [← h3] at c3
  rw [← h4] at c4
  rw [← h5] at c5
  rw [Nat.count_add, Nat.count_add, Nat.count_add, Nat.count_add, ← c1, ← c2, ← c3, ← c4, ← c5]
  congr 1
  · congr 1
    · congr 1
      · congr 1
        · refine count_congr' _ fun k hk => ?_
          simp only [lookup, if_pos hk]
        · refine count_congr' _ fun k hk => ?_
          simp only [lookup]
          rw [if_neg (by omega), if_pos (by omega), show n1 + k - n1 = k by omega]
      · refine count_congr' _ fun k hk => ?_
        simp only [lookup]
        rw [if_neg (by omega), if_neg (by omega), if_pos (by omega), show n1 + n2 + k - (n1 + n2) = k by omega]
    · refine count_congr' _ fun k hk => ?_
      simp only [lookup]
      rw [if_neg (by omega), if_neg (by omega), if_neg (by omega), if_pos (by omega), show n1 + n2 + n3 + k - (n1 + n2 + n3) = k by omega]
  · refine count_congr' _ fun k hk => ?_
    simp only [lookup]
    rw [if_neg (by omega), if_neg (by omega), if_neg (by omega), if_neg (by omega), show n1 + n2 + n3 + n4 + k - (n1 + n2 + n3 + n4) = k by omega]

/-- How many of the first `P.sum` integers give the value `v`, by the five tables. -/
theorem count_lookup {B : ℕ} (hB : 0 < B) (P : List ℕ) (off : ℕ) (hP : ∀ m ∈ P, m < B ^ 5) (v : ℤ) :
    Nat.count (fun j => lookup B (get5tbls B P off) j = some v) P.sum =
      B ^ 4 * (fill B 1 off 0 P).count v + B ^ 3 * (fill B 2 off 0 P).count v + B ^ 2 * (fill B 3 off 0 P).count v +
        B * (fill B 4 off 0 P).count v + (fill B 5 off 0 P).count v := by
  rw [sum_digits hB P hP]
  exact count_tables hB _ _ _ _ _ _ _ _ _ _ (by rw [fill_length]) (by rw [fill_length]) (by rw [fill_length]) (by rw [fill_length]) (by rw [fill_length]) v

/-- Every value of the range is given by as many integers as its entry says. -/
theorem count_value {B : ℕ} (hB : 0 < B) (P : List ℕ) (off : ℕ) (hP : ∀ m ∈ P, m < B ^ 5) (hs : P.length + off ≤ 32768) {n m : ℕ} (h : P[n]? = some m) :
    Nat.count (fun j => lookup B (get5tbls B P off) j = some ((n + off : ℕ) : ℤ)) P.sum = m := by
  have c := fun k => fill_count B k off P 0 n m (by omega) h
  simp only [Nat.zero_add] at c
  rw [count_lookup hB P off hP, c, c, c, c, c]
  exact digits hB (hP m (List.mem_of_getElem? h))

theorem tables_none (B : ℕ) (A1 A2 A3 A4 A5 : List ℤ) (n1 n2 n3 n4 n5 j : ℕ) (h5 : n5 = A5.length) (hj : n1 + n2 + n3 + n4 + n5 ≤ j) :
    lookup B ⟨A1, A2, A3, A4, A5, n1, n1 + n2, n1 + n2 + n3, n1 + n2 + n3 + n4⟩ j = none := by
  simp only [lookup]
  rw [if_neg (by omega), if_neg (by omega), if_neg (by omega), if_neg (by omega)]
  exact List.getElem?_eq_none (by omega)

/-- An integer from the sum of the array on is looked up outside of the tables. -/
theorem lookup_none {B : ℕ} (hB : 0 < B) (P : List ℕ) (off : ℕ) (hP : ∀ m ∈ P, m < B ^ 5) {j : ℕ} (hj : P.sum ≤ j) :
    lookup B (get5tbls B P off) j = none := by
  rw [sum_digits hB P hP] at hj
  exact tables_none B _ _ _ _ _ _ _ _ _ _ j (by rw [fill_length]) hj

theorem tbl_some {w : ℕ} {T : List ℤ} {j : ℕ} (h : j < T.length * w) : (T[j / w]?).isSome := by
  have : j / w < T.length := Nat.div_lt_of_lt_mul (by rwa [Nat.mul_comm] at h)
  rw [List.getElem?_eq_getElem this]; rfl

theorem tables_some (B : ℕ) (A1 A2 A3 A4 A5 : List ℤ) (n1 n2 n3 n4 n5 j : ℕ) (h1 : n1 = A1.length * B ^ 4) (h2 : n2 = A2.length * B ^ 3)
    (h3 : n3 = A3.length * B ^ 2) (h4 : n4 = A4.length * B) (h5 : n5 = A5.length) (hj : j < n1 + n2 + n3 + n4 + n5) :
    (lookup B ⟨A1, A2, A3, A4, A5, n1, n1 + n2, n1 + n2 + n3, n1 + n2 + n3 + n4⟩ j).isSome := by
  simp only [lookup]
  by_cases c1 : j < n1
  · rw [if_pos c1]; exact tbl_some (by omega)
  by_cases c2 : j < n1 + n2
  · rw [if_neg c1, if_pos c2]; exact tbl_some (by omega)
  by_cases c3 : j < n1 + n2 + n3
  · rw [if_neg c1, if_neg c2, if_pos c3]; exact tbl_some (by omega)
  by_cases c4 : j < n1 + n2 + n3 + n4
  · rw [if_neg c1, if_neg c2, if_neg c3, if_pos c4]; exact tbl_some (by omega)
  · rw [if_neg c1, if_neg c2, if_neg c3, if_neg c4, List.getElem?_eq_getElem (by omega)]; rfl

/-- An integer below the sum is looked up in the tables. -/
theorem lookup_some {B : ℕ} (hB : 0 < B) (P : List ℕ) (off : ℕ) (hP : ∀ m ∈ P, m < B ^ 5) {j : ℕ} (hj : j < P.sum) :
    (lookup B (get5tbls B P off) j).isSome := by
  rw [sum_digits hB P hP] at hj
  exact tables_some B _ _ _ _ _ _ _ _ _ _ j (by rw [fill_length]) (by rw [fill_length]) (by rw [fill_length]) (by rw [fill_length]) (by rw [fill_length]) hj

/-- **C222.**  For every array of integers with sum 2^30, each less than 2^30, and values up to 32767: of the 2^30 integers that `Dran` may draw, exactly `P[n]` give the value `n+offset`, for every `n`, and every one of them gives a value.  Missing: arrays whose sum is not 2^30 (`C222_violated_round`), an entry equal to 2^30 (`C222_violated_one`), larger values (`C222_violated_values`). -/
theorem C222_exact_partial (P : List ℕ) (off : ℕ) (hP : ∀ m ∈ P, m < 64 ^ 5) (hsum : P.sum = 64 ^ 5) (hs : P.length + off ≤ 32768) :
    (∀ n m, P[n]? = some m → Nat.count (fun j => lookup 64 (get5tbls 64 P off) j = some ((n + off : ℕ) : ℤ)) (64 ^ 5) = m) ∧
      ∀ j, j < 64 ^ 5 → (lookup 64 (get5tbls 64 P off) j).isSome := by
  rw [← hsum]
  exact ⟨fun n m h => count_value (by norm_num) P off hP hs h, fun j hj => lookup_some (by norm_num) P off hP hj⟩

theorem xorshift_lt {w x : ℕ} (h : x < 2 ^ w) : xorshift w x < 2 ^ w := by
  have h1 : ∀ y, y % 2 ^ w < 2 ^ w := fun y => Nat.mod_lt _ (by positivity)
  have h2 : x ^^^ (x <<< 13 % 2 ^ w) < 2 ^ w := Nat.xor_lt_two_pow h (h1 _)
  simp only [xorshift]
  generalize x ^^^ (x <<< 13 % 2 ^ w) = y at *
  have h3 : y ^^^ (y >>> 17) < 2 ^ w := Nat.xor_lt_two_pow h2 (lt_of_le_of_lt (Nat.shiftRight_le _ _) h2)
  exact Nat.xor_lt_two_pow h3 (h1 _)

/-- **C222.**  With an `unsigned long` of 32 bits, over any number of calls from any state: each call returns a value. -/
theorem C222_calls_partial (P : List ℕ) (off : ℕ) (hP : ∀ m ∈ P, m < 64 ^ 5) (hsum : P.sum = 64 ^ 5) (x : ℕ) (hx : x < 2 ^ 32) (calls : ℕ) :
    ((fun s => (dran 32 (get5tbls 64 P off) s).1)^[calls] x) < 2 ^ 32 ∧
      (dran 32 (get5tbls 64 P off) ((fun s => (dran 32 (get5tbls 64 P off) s).1)^[calls] x)).2.isSome := by
  have inv : ((fun s => (dran 32 (get5tbls 64 P off) s).1)^[calls] x) < 2 ^ 32 := by
    induction calls with
    | zero => exact hx
    | succ c ih => rw [Function.iterate_succ_apply']; exact xorshift_lt ih
  refine ⟨inv, ?_⟩
  generalize ((fun s => (dran 32 (get5tbls 64 P off) s).1)^[calls] x) = s at *
  refine lookup_some (by norm_num) P off hP ?_
  rw [hsum, Nat.shiftRight_eq_div_pow, Nat.div_lt_iff_lt_mul (by norm_num)]
  have := xorshift_lt inv
  norm_num at this ⊢
  exact this

example : (∀ m ∈ [268435456, 536870912, 268435455, 1], m < 64 ^ 5) ∧ [268435456, 536870912, 268435455, 1].sum = 64 ^ 5 := by decide +kernel

/-- **C222, violated.**  With an `unsigned long` of 64 bits, for all arrays (of numbers below 2^30 whose sum is at most 2^30) the first call of the program reads memory outside of the tables. -/
theorem C222_violated_word (P : List ℕ) (off : ℕ) (hP : ∀ m ∈ P, m < 64 ^ 5) (hsum : P.sum ≤ 64 ^ 5) :
    (dran 64 (get5tbls 64 P off) 182736531).2 = none := by
  refine lookup_none (by norm_num) P off hP (le_trans hsum ?_)
  decide +kernel

/-- **C222, violated.**  Rounding each probability by itself does not make the sum 2^30: for two trials of probability 1/3 the sum is one less, and the last integer that may be drawn is looked up outside of the tables. -/
theorem C222_violated_round : ∃ P, binomP 10 2 (1 / 3 : ℚ) = some (P, 0) ∧ P.sum = 64 ^ 5 - 1 ∧ lookup 64 (get5tbls 64 P 0) (64 ^ 5 - 1) = none := by
  refine ⟨[477218588, 477218588, 119304647], by decide +kernel, by decide +kernel, lookup_none (by norm_num) _ _ (by decide +kernel) (by decide +kernel)⟩

/-- **C222, violated.**  For a Poisson mean of 0 the only entry is 2^30, which has six digits: all tables are empty and every call reads outside of them. -/
theorem C222_violated_one (fuel off : ℕ) (j : ℕ) : poissP (fuel + 2) (0 : ℚ) 1 off = some ([64 ^ 5], off) ∧ lookup 64 (get5tbls 64 [64 ^ 5] off) j = none := by
  constructor
  · have h : poissSize (0 : ℚ) (fuel + 2) 1 1 = some 1 := by
      rw [poissSize, if_pos (by norm_num), poissSize, if_neg (by norm_num)]
    rw [poissP, h]
    have : ⌊(1 : ℚ) * 1073741824 + 1 / 2⌋₊ = 64 ^ 5 := by
      rw [Nat.floor_eq_iff (by norm_num)]; norm_num
    simp only [this, poissFill, Nat.sub_self]
  · have h : get5tbls 64 [64 ^ 5] off = ⟨[], [], [], [], [], 0, 0, 0, 0⟩ := by
      simp [get5tbls, fill, dg]
    rw [h]; simp [lookup]

/-- **C222, violated.**  The tables are of `short int`: every value from 32768 to 65535 is returned as a negative number. -/
theorem C222_violated_values (k : ℕ) (h1 : 32768 ≤ k) (h2 : k < 65536) : short k = (k : ℤ) - 65536 ∧ short k < 0 := by
  have : k % 65536 = k := Nat.mod_eq_of_lt h2
  rw [short, this, if_neg (by omega)]
  omega

end Verif.MC.FiveTable
