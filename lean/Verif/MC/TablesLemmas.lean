import Verif.MC.Tables
import Mathlib.Algebra.BigOperators.Group.Finset.Basic
import Mathlib.Data.Finset.Card
import Mathlib.Algebra.Order.BigOperators.Group.List
import Mathlib.Algebra.BigOperators.Ring.List
import Mathlib.Tactic.Linarith
import Mathlib.Tactic.Ring
import Mathlib.Tactic.FieldSimp
import Mathlib.Tactic.NormNum
import Mathlib.Tactic.Positivity
import Mathlib.Tactic.IntervalCases
import Mathlib.Order.Interval.Finset.Nat

/-! # Lemmas on the five tables -/

set_option linter.unusedSectionVars false
set_option linter.unusedSimpArgs false

namespace Verif.MC

/-- The table repeated in blocks of `B`. -/
def blocks (B : ℕ) (t : List ℕ) : List ℕ := t.flatMap (List.replicate B)

theorem blocks_len (B : ℕ) (t : List ℕ) : (blocks B t).length = t.length * B := by
  induction t with
  | nil => simp [blocks]
  | cons a t ih =>
    have : blocks B (a :: t) = List.replicate B a ++ blocks B t := by simp [blocks]
    rw [this, List.length_append, ih, List.length_replicate, List.length_cons]
    ring

theorem blocks_get (B : ℕ) (hB : 0 < B) (t : List ℕ) (j : ℕ) : (blocks B t)[j]? = t[j / B]? := by
  induction t generalizing j with
  | nil => simp [blocks]
  | cons a t ih =>
    have : blocks B (a :: t) = List.replicate B a ++ blocks B t := by simp [blocks]
    rw [this]
    by_cases h : j < B
    · rw [List.getElem?_append_left (by simpa using h), Nat.div_eq_of_lt h]
      simp [h]
    · push Not at h
      rw [List.getElem?_append_right (by simpa using h), List.length_replicate, ih]
      have : j / B = (j - B) / B + 1 := by
        conv_lhs => rw [show j = (j - B) + B by omega]
        exact Nat.add_div_right _ hB
      rw [this, List.getElem?_cons_succ]

theorem blocks_count (B : ℕ) (t : List ℕ) (i : ℕ) : (blocks B t).count i = t.count i * B := by
  induction t with
  | nil => simp [blocks]
  | cons a t ih =>
    have : blocks B (a :: t) = List.replicate B a ++ blocks B t := by simp [blocks]
    rw [this, List.count_append, ih, List.count_cons, List.count_replicate]
    by_cases h : a = i
    · subst h; simp; ring
    · simp [h]

/-- How often an element stands in a list, counting positions. -/
theorem count_positions (L : List ℕ) (N i : ℕ) (h : L.length ≤ N) :
    ((Finset.range N).filter fun j => L[j]? = some i).card = L.count i := by
  induction L using List.reverseRecOn generalizing N with
  | nil => simp
  | append_singleton L a ih =>
    have hl : L.length ≤ N := by simp at h; omega
    have hlt : L.length < N := by simp at h; omega
    rw [List.count_append, ← ih N hl]
    have hsplit : ((Finset.range N).filter fun j => (L ++ [a])[j]? = some i) =
        ((Finset.range N).filter fun j => L[j]? = some i) ∪ (if a = i then {L.length} else ∅) := by
      ext j
      simp only [Finset.mem_filter, Finset.mem_range, Finset.mem_union]
      rcases lt_trichotomy j L.length with hj | hj | hj
      · rw [List.getElem?_append_left hj]
        constructor
        · exact fun h => Or.inl h
        · rintro (h | h)
          · exact h
          · split_ifs at h <;> simp at h
            omega
      · subst hj
        simp only [List.getElem?_append_right (le_refl _), Nat.sub_self, List.getElem?_cons_zero, Option.some.injEq]
        constructor
        · rintro ⟨_, rfl⟩; right; simp
        · rintro (h | h)
          · simp at h
          · split_ifs at h with hai <;> simp at h
            exact ⟨hlt, hai⟩
      · have h1 : (L ++ [a])[j]? = none := by rw [List.getElem?_eq_none]; simp; omega
        have h2 : L[j]? = none := by rw [List.getElem?_eq_none]; omega
        rw [h1, h2]
        split_ifs <;> simp
        omega
    rw [hsplit, Finset.card_union_of_disjoint]
    · split_ifs with hai
      · subst hai; simp
      · simp [hai]
    · split_ifs with hai
      · rw [Finset.disjoint_singleton_right]; simp
      · exact Finset.disjoint_empty_right _

/-- The numbers that give each digit. -/
theorem dg_eq (m : ℕ) : dg m 1 = m / 2 ^ 24 % 64 ∧ dg m 2 = m / 2 ^ 18 % 64 ∧ dg m 3 = m / 2 ^ 12 % 64 ∧ dg m 4 = m / 2 ^ 6 % 64 ∧
    dg m 5 = m % 64 := by
  have h : ∀ x, x &&& 63 = x % 64 := fun x => Nat.and_two_pow_sub_one_eq_mod x 6
  refine ⟨?_, ?_, ?_, ?_, ?_⟩ <;> simp [dg, h, Nat.shiftRight_eq_div_pow]

theorem digits (m : ℕ) (h : m < 2 ^ 30) :
    dg m 1 * 2 ^ 24 + dg m 2 * 2 ^ 18 + dg m 3 * 2 ^ 12 + dg m 4 * 2 ^ 6 + dg m 5 = m := by
  obtain ⟨h1, h2, h3, h4, h5⟩ := dg_eq m
  rw [h1, h2, h3, h4, h5]
  omega

theorem dg_whole (k : ℕ) (hk : 1 ≤ k ∧ k ≤ 5) : dg (2 ^ 30) k = 0 := by
  obtain ⟨h1, h2⟩ := hk
  interval_cases k <;> decide

theorem tsize_eq (P : List ℕ) (k : ℕ) : tsize P k = (P.map (dg · k)).sum := by
  unfold tsize
  have : ∀ s, P.foldl (fun s m => s + dg m k) s = s + (P.map (dg · k)).sum := by
    induction P with
    | nil => simp
    | cons a P ih => intro s; rw [List.foldl_cons, ih]; simp; ring
  simpa using this 0

theorem fill_len (k : ℕ) (P : List ℕ) (i : ℕ) : (fill k P i).length = tsize P k := by
  rw [tsize_eq]
  induction P generalizing i with
  | nil => simp [fill]
  | cons a P ih => simp [fill, ih]

theorem fill_count_lt (k : ℕ) (P : List ℕ) (i j : ℕ) (h : j < i) : (fill k P i).count j = 0 := by
  induction P generalizing i with
  | nil => simp [fill]
  | cons a P ih => rw [fill, List.count_append, ih _ (by omega), List.count_replicate]; simp; omega

theorem fill_count (k : ℕ) (P : List ℕ) (i j : ℕ) (h : i ≤ j) : (fill k P i).count j = dg (P[j - i]?.getD 0) k := by
  induction P generalizing i with
  | nil =>
    have : dg 0 k = 0 := by simp [dg]
    simp [fill, this]
  | cons a P ih =>
    rw [fill, List.count_append]
    rcases Nat.lt_or_ge i j with hij | hij
    · rw [ih (i + 1) hij, List.count_replicate]
      have : j - i = (j - (i + 1)) + 1 := by omega
      rw [this, List.getElem?_cons_succ]
      simp; omega
    · have : i = j := by omega
      subst this
      rw [fill_count_lt _ _ _ _ (by omega)]
      simp

/-- All entries of the five tables, each as often as its numbers: what the lookup reads. -/
def line (P : List ℕ) : List ℕ :=
  blocks (2 ^ 24) (fill 1 P 0) ++ (blocks (2 ^ 18) (fill 2 P 0) ++ (blocks (2 ^ 12) (fill 3 P 0) ++
    (blocks (2 ^ 6) (fill 4 P 0) ++ fill 5 P 0)))

theorem line_len (P : List ℕ) (h : ∀ m ∈ P, m < 2 ^ 30) : (line P).length = P.sum := by
  simp only [line, List.length_append, blocks_len, fill_len, tsize_eq]
  induction P with
  | nil => simp
  | cons a P ih =>
    have := ih (fun m hm => h m (List.mem_cons_of_mem _ hm))
    have hd := digits a (h a (List.mem_cons_self ..))
    simp only [List.map_cons, List.sum_cons]
    linarith

theorem line_count (P : List ℕ) (h : ∀ m ∈ P, m < 2 ^ 30) (i : ℕ) : (line P).count i = P[i]?.getD 0 := by
  simp only [line, List.count_append, blocks_count, fill_count _ _ _ _ (Nat.zero_le i), Nat.sub_zero]
  have : P[i]?.getD 0 < 2 ^ 30 := by
    cases hp : P[i]? with
    | none => simp
    | some m => exact h m (List.mem_of_getElem? hp)
  have hd := digits _ this
  linarith

/-- The tables made from `P`. -/
def tables (P : List ℕ) : Sampler :=
  ⟨fill 1 P 0, fill 2 P 0, fill 3 P 0, fill 4 P 0, fill 5 P 0, tsize P 1 <<< 24, tsize P 1 <<< 24 + tsize P 2 <<< 18,
    tsize P 1 <<< 24 + tsize P 2 <<< 18 + tsize P 3 <<< 12, tsize P 1 <<< 24 + tsize P 2 <<< 18 + tsize P 3 <<< 12 + tsize P 4 <<< 6, none⟩

/-- The lookup reads the line. -/
theorem look_line (P : List ℕ) (j : ℕ) :
    (tables P).look j = match (line P)[j]? with | some i => .item i | none => .again := by
  have l1 := blocks_len (2 ^ 24) (fill 1 P 0)
  have l2 := blocks_len (2 ^ 18) (fill 2 P 0)
  have l3 := blocks_len (2 ^ 12) (fill 3 P 0)
  have l4 := blocks_len (2 ^ 6) (fill 4 P 0)
  rw [fill_len] at l1 l2 l3 l4
  have e : ∀ (t : List ℕ) (k : ℕ), k < t.length → entry t k = match t[k]? with | some i => Pick.item i | none => Pick.again := by
    intro t k hk
    rw [entry, List.getElem?_eq_getElem hk]
  unfold Sampler.look line
  simp only [tables, Nat.shiftLeft_eq, Nat.shiftRight_eq_div_pow, fill_len]
  by_cases h1 : j < tsize P 1 * 2 ^ 24
  · rw [if_pos h1, List.getElem?_append_left (by omega), blocks_get _ (by positivity)]
    exact e _ _ (by rw [fill_len]; omega)
  rw [if_neg h1, List.getElem?_append_right (by omega)]
  by_cases h2 : j < tsize P 1 * 2 ^ 24 + tsize P 2 * 2 ^ 18
  · rw [if_pos h2, List.getElem?_append_left (by omega), blocks_get _ (by positivity), l1]
    exact e _ _ (by rw [fill_len]; omega)
  rw [if_neg h2, List.getElem?_append_right (by omega)]
  by_cases h3 : j < tsize P 1 * 2 ^ 24 + tsize P 2 * 2 ^ 18 + tsize P 3 * 2 ^ 12
  · rw [if_pos h3, List.getElem?_append_left (by omega), blocks_get _ (by positivity), l1, l2, Nat.sub_sub]
    exact e _ _ (by rw [fill_len]; omega)
  rw [if_neg h3, List.getElem?_append_right (by omega)]
  by_cases h4 : j < tsize P 1 * 2 ^ 24 + tsize P 2 * 2 ^ 18 + tsize P 3 * 2 ^ 12 + tsize P 4 * 2 ^ 6
  · rw [if_pos h4, List.getElem?_append_left (by omega), blocks_get _ (by positivity), l1, l2, l3, Nat.sub_sub, Nat.sub_sub, ← Nat.add_assoc]
    exact e _ _ (by rw [fill_len]; omega)
  rw [if_neg h4, List.getElem?_append_right (by omega), l1, l2, l3, l4, Nat.sub_sub, Nat.sub_sub, Nat.sub_sub, ← Nat.add_assoc, ← Nat.add_assoc]
  by_cases h5 : j - (tsize P 1 * 2 ^ 24 + tsize P 2 * 2 ^ 18 + tsize P 3 * 2 ^ 12 + tsize P 4 * 2 ^ 6) ≥ tsize P 5
  · rw [if_pos h5, List.getElem?_eq_none (by rw [fill_len]; omega)]
  · rw [if_neg h5]
    exact e _ _ (by rw [fill_len]; omega)

theorem look_count (P : List ℕ) (h : ∀ m ∈ P, m < 2 ^ 30) (hs : P.sum ≤ 2 ^ 30) (i : ℕ) :
    ((Finset.range (2 ^ 30)).filter fun j => (tables P).look j = .item i).card = P[i]?.getD 0 := by
  rw [← line_count P h, ← count_positions (line P) (2 ^ 30) i (by rw [line_len P h]; exact hs)]
  refine congrArg Finset.card (Finset.filter_congr ?_)
  intro j _
  rw [look_line]
  cases (line P)[j]? <;> simp

theorem look_again (P : List ℕ) (h : ∀ m ∈ P, m < 2 ^ 30) (hs : P.sum ≤ 2 ^ 30) :
    ((Finset.range (2 ^ 30)).filter fun j => (tables P).look j = .again).card = 2 ^ 30 - P.sum := by
  have : ((Finset.range (2 ^ 30)).filter fun j => (tables P).look j = .again) = Finset.Ico P.sum (2 ^ 30) := by
    ext j
    rw [Finset.mem_filter, Finset.mem_range, Finset.mem_Ico, look_line, ← line_len P h]
    cases hj : (line P)[j]? with
    | none => rw [List.getElem?_eq_none_iff] at hj; simp; omega
    | some i =>
      have := (List.getElem?_eq_some_iff.1 hj).1
      simp; omega
  rw [this, Nat.card_Ico]

variable {K : Type*} [Field K] [LinearOrder K] [IsStrictOrderedRing K] [FloorRing K]

theorem wsum_eq (w : List K) : wsum w = w.sum := by
  rw [wsum, List.sum_eq_foldl]

/-- The rounded weights add up to almost everything. -/
theorem floor_sum (w : List K) (c : K) (h : ∀ x ∈ w, 0 ≤ x) (hc : 0 ≤ c) :
    ((w.map fun x => ⌊x * c⌋₊).sum : K) ≤ w.sum * c ∧ w.sum * c ≤ ((w.map fun x => ⌊x * c⌋₊).sum : K) + w.length ∧
    (w ≠ [] → w.sum * c < ((w.map fun x => ⌊x * c⌋₊).sum : K) + w.length) := by
  induction w with
  | nil => simp
  | cons a w ih =>
    obtain ⟨h1, h2, _⟩ := ih (fun x hx => h x (List.mem_cons_of_mem _ hx))
    have h3 := Nat.floor_le (mul_nonneg (h a (List.mem_cons_self ..)) hc)
    have h4 := Nat.lt_floor_add_one (a * c)
    have : (a :: w).sum * c < (((a :: w).map fun x => ⌊x * c⌋₊).sum : K) + (a :: w).length := by
      simp only [List.sum_cons, List.map_cons, List.length_cons, Nat.cast_add, Nat.cast_one, add_mul]
      linarith
    refine ⟨?_, this.le, fun _ => this⟩
    simp only [List.sum_cons, List.map_cons, Nat.cast_add, add_mul]
    linarith

end Verif.MC
