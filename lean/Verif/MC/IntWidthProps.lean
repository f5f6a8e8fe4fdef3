import Verif.MC.IntWidth
import Mathlib.Data.List.Perm.Basic
import Mathlib.Data.List.Sort
import Mathlib.Data.List.GetD
import Mathlib.Tactic.Linarith
import Mathlib.Tactic.NormNum

/-!
# C219: the indices sorted by weight, on 32-bit and on 64-bit platforms
-/

namespace Verif.MC.IntWidth

variable {K : Type}

theorem loop_get (n m : ℕ) (hm : m ≤ n / 2) (f : ℕ → ℕ) (i : ℕ) :
    (List.range m).foldl (fun f i => swap n i f) f i = if i < m ∨ n - m ≤ i ∧ i < n then f (n - 1 - i) else f i := by
  induction m generalizing i with
  | zero =>
    have : ¬ (i < 0 ∨ n - 0 ≤ i ∧ i < n) := by omega
    simp [this]
  | succ m ih =>
    have ih := ih (by omega)
    rw [List.range_succ, List.foldl_append, List.foldl_cons, List.foldl_nil]
    generalize (List.range m).foldl (fun f i => swap n i f) f = g at ih
    simp only [swap, Function.update_apply, ih]
    by_cases h1 : i = n - m - 1
    · subst h1
      rw [if_pos rfl, if_neg (by omega), if_pos (by omega)]
      congr 1; omega
    · rw [if_neg h1]
      by_cases h2 : i = m
      · subst h2
        rw [if_pos rfl, if_neg (by omega), if_pos (by omega)]
        congr 1; omega
      · rw [if_neg h2]
        by_cases h3 : i < m ∨ n - m ≤ i ∧ i < n
        · rw [if_pos h3, if_pos (by omega)]
        · rw [if_neg h3, if_neg (by omega)]

theorem reversal_get (n : ℕ) (f : ℕ → ℕ) (i : ℕ) : reversal n f i = if i < n then f (n - 1 - i) else f i := by
  rw [reversal, loop_get n (n / 2) le_rfl]
  by_cases h : i < n / 2 ∨ n - n / 2 ≤ i ∧ i < n
  · rw [if_pos h, if_pos (by omega)]
  · rw [if_neg h]
    by_cases h' : i < n
    · rw [if_pos h']
      congr 1; omega
    · rw [if_neg h']

theorem ints_one (ord : List ℕ) (i : ℕ) : ints 1 ord i = ord.getD i 0 := by
  simp [ints, Nat.mod_one]

theorem kept_one (ord : List ℕ) : kept 1 ord = ord.reverse := by
  apply List.ext_getElem
  · simp [kept]
  · intro i h1 h2
    simp only [kept, List.length_map, List.length_range] at h1
    simp only [kept, List.getElem_map, List.getElem_range, idata, reversal_get, ints_one, h1, if_true, List.getElem_reverse]
    rw [List.getD_eq_getElem _ _ (by omega)]

theorem sorted_eq (w : ℕ) (wts : List K) [Zero K] (ord : List ℕ) : sorted w wts ord = (kept w ord).map fun i => wts.getD i 0 := by
  simp [sorted, kept]

theorem returned_one (base : ℕ) (ord : List ℕ) : returned base 1 ord = kept 1 ord := by
  simp [returned, kept, element]

theorem map_getD_range (wts : List K) [Zero K] : (List.range wts.length).map (fun i => wts.getD i 0) = wts := by
  apply List.ext_getElem
  · simp
  · intro i h1 h2
    simp only [List.getElem_map, List.getElem_range]
    rw [List.getD_eq_getElem _ _ h2]

/-- **C219.**  Where pointers have the width of an `int`, for all weights and every order `ord` by which they do not decrease: the sampler keeps, and Python gets, the numbers of all the items in an order of weights that do not increase, the weights in that order, and the sum of all the weights.  Missing: platforms where pointers have 64 bits (`C219_violated_largest`, `C219_violated_returned`, `C219_violated_total`, `C219_violated_probabilities`). -/
theorem C219_sorted_partial [AddCommMonoid K] [LinearOrder K] (wts : List K) (ord : List ℕ) (hp : ord.Perm (List.range wts.length))
    (hs : (ord.map fun i => wts.getD i 0).Pairwise (· ≤ ·)) (base : ℕ) :
    (kept 1 ord).Perm (List.range wts.length) ∧ returned base 1 ord = kept 1 ord ∧
    sorted 1 wts ord = (returned base 1 ord).map (fun i => wts.getD i 0) ∧
    (sorted 1 wts ord).Pairwise (· ≥ ·) ∧ (sorted 1 wts ord).Perm wts ∧ total 1 wts ord = wts.sum := by
  have h1 : (kept 1 ord).Perm (List.range wts.length) := by
    rw [kept_one]; exact (List.reverse_perm ord).trans hp
  have h2 : (sorted 1 wts ord).Perm wts := by
    rw [sorted_eq]
    exact (h1.map _).trans (by rw [map_getD_range])
  refine ⟨h1, returned_one base ord, by rw [returned_one, sorted_eq], ?_, h2, h2.sum_eq⟩
  rw [sorted_eq, kept_one, List.map_reverse, List.pairwise_reverse]
  exact hs

example : sorted 1 [(2 : ℚ), 7, 1, 5] [2, 0, 3, 1] = [7, 5, 2, 1] ∧ returned (2 ^ 32) 1 [2, 0, 3, 1] = [1, 3, 0, 2] := by
  rw [returned_one, sorted_eq, kept_one]
  simp

/-- The integers that the code uses where pointers have 64 bits: every other one is 0, the rest are the items of the lighter half. -/
theorem idata_two (ord : List ℕ) (i : ℕ) (hi : i < ord.length) :
    idata 2 ord i = if (ord.length - 1 - i) % 2 = 0 then ord.getD ((ord.length - 1 - i) / 2) 0 else 0 := by
  rw [idata, reversal_get, if_pos hi, ints]

theorem nodup_range {n : ℕ} {ord : List ℕ} (hp : ord.Perm (List.range n)) : ord.Nodup := hp.nodup_iff.2 List.nodup_range

/-- **C219, violated.**  Where pointers have 64 bits, whatever the weights: no item of the heavier half of the order, except perhaps item 0, is among those that the sampler keeps; in particular, with two items or more, the heaviest one is never sampled by `subset_pps5` unless it is item 0. -/
theorem C219_violated_largest (n : ℕ) (ord : List ℕ) (hp : ord.Perm (List.range n)) (k : ℕ) (hk : k < ord.length) (hh : n ≤ 2 * k)
    (h0 : ord[k] ≠ 0) : ord[k] ∉ kept 2 ord := by
  have hn : ord.length = n := by simpa using hp.length_eq
  have hd := nodup_range hp
  intro h
  obtain ⟨i, hi, e⟩ := List.mem_map.1 h
  have hi : i < ord.length := List.mem_range.1 hi
  rw [idata_two ord i hi] at e
  split_ifs at e with hpar
  · rw [List.getD_eq_getElem _ _ (by omega)] at e
    have := (List.Nodup.getElem_inj_iff hd).1 e
    omega
  · exact h0 e.symm

/-- The weights 1, 2 and 3: the heaviest item, number 2, is not kept. -/
example : (2 : ℕ) ∉ kept 2 [0, 1, 2] ∧ kept 2 [0, 1, 2] = [1, 0, 0] := by decide +kernel

theorem element_two (base : ℕ) (f : ℕ → ℕ) (k : ℕ) : element base 2 f k = f (2 * k) + f (2 * k + 1) * base := by
  have e : List.range 2 = [0, 1] := by decide
  simp only [element, e, List.map_cons, List.map_nil, List.sum_cons, List.sum_nil, Nat.mul_zero, Nat.mul_one, pow_zero, pow_one, Nat.add_zero]

/-- **C219, violated.**  Where pointers have 64 bits, for every even number of items: the first half of the indices returned to Python are 2^32 (`base`) times the numbers of the lighter items, so that any of them but 0 is far outside the population, and `subset_pps` raises `IndexError` when it draws one. -/
theorem C219_violated_returned (base m : ℕ) (ord : List ℕ) (hp : ord.Perm (List.range (2 * m))) (k : ℕ) (hk : k < m) :
    (returned base 2 ord)[k]? = some (ord.getD (m - 1 - k) 0 * base) ∧
    (ord.getD (m - 1 - k) 0 ≠ 0 → base ≤ ord.getD (m - 1 - k) 0 * base) := by
  have hn : ord.length = 2 * m := by simpa using hp.length_eq
  constructor
  · rw [returned, List.getElem?_map, List.getElem?_range (by omega), Option.map_some, element_two, idata_two _ _ (by omega), idata_two _ _ (by omega), hn,
      if_neg (by omega), if_pos (by omega), Nat.zero_add, show (2 * m - 1 - (2 * k + 1)) / 2 = m - 1 - k by omega]
  · intro h
    have : 1 ≤ ord.getD (m - 1 - k) 0 := Nat.one_le_iff_ne_zero.2 h
    exact Nat.le_mul_of_pos_left base this

/-- **C219, violated.**  Where pointers have 64 bits, the total weight is that of the lighter half and as many times the weight of item 0; for two items of which the second is the heavier it is twice the first weight. -/
theorem C219_violated_total (a b : ℚ) : total 2 [a, b] [0, 1] = 2 * a ∧ sorted 2 [a, b] [0, 1] = [a, a] := by
  have e : sorted 2 [a, b] [0, 1] = [a, a] := by
    have h0 : idata 2 [0, 1] 0 = 0 := by decide +kernel
    have h1 : idata 2 [0, 1] 1 = 0 := by decide +kernel
    simp [sorted, List.range_succ, h0, h1]
  refine ⟨?_, e⟩
  rw [total, e]
  simp [two_mul]

/-- **C219, violated.**  The weights 1, 2 and 3 where pointers have 64 bits: the weights used are 2, 1, 1 for the items 1, 0 and 2, so that a sample of one contains the heaviest item with probability 1/4 instead of 1/2. -/
theorem C219_violated_probabilities (base : ℕ) : sorted 2 [(1 : ℚ), 2, 3] [0, 1, 2] = [2, 1, 1] ∧ returned base 2 [0, 1, 2] = [1, 0, 2] ∧
    total 2 [(1 : ℚ), 2, 3] [0, 1, 2] = 4 := by
  have e0 : idata 2 [0, 1, 2] 0 = 1 := by rw [idata_two _ _ (by simp)]; simp
  have e1 : idata 2 [0, 1, 2] 1 = 0 := by rw [idata_two _ _ (by simp)]; simp
  have e2 : idata 2 [0, 1, 2] 2 = 0 := by rw [idata_two _ _ (by simp)]; simp
  have e3 : idata 2 [0, 1, 2] 3 = 0 := by rw [idata, reversal_get]; simp [ints]
  have e4 : idata 2 [0, 1, 2] 4 = 2 := by rw [idata, reversal_get]; simp [ints]
  have e5 : idata 2 [0, 1, 2] 5 = 0 := by rw [idata, reversal_get]; simp [ints]
  have h : sorted 2 [(1 : ℚ), 2, 3] [0, 1, 2] = [2, 1, 1] := by simp [sorted, List.range_succ, e0, e1, e2]
  refine ⟨h, by simp only [returned, List.length_cons, List.length_nil, List.range_succ, List.range_zero, List.nil_append, List.cons_append, List.map_cons, List.map_nil, element_two, Nat.mul_zero, Nat.zero_add, Nat.reduceMul, Nat.reduceAdd, e0, e1, e2, e3, e4, e5, Nat.zero_mul, Nat.add_zero], ?_⟩
  rw [total, h]
  norm_num

end Verif.MC.IntWidth
