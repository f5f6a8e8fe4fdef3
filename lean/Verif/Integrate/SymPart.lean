import Verif.Integrate.SymPerm

/-!
# Symmetric rules: the partitions of `NXPRT`
-/

set_option linter.unusedSectionVars false

namespace Verif.SymRl

open Finset Verif.Adapt

theorem sum_le_of (l : List ℕ) (b : ℕ) (h : ∀ x ∈ l, x ≤ b) : l.sum ≤ l.length * b := by
  induction l with
  | nil => simp
  | cons a l ih =>
    have h1 := h a (by simp)
    have h2 := ih fun x hx => h x (by simp [hx])
    simp only [List.sum_cons, List.length_cons]
    rw [Nat.succ_mul]
    omega

theorem le_sum_of (l : List ℕ) (b : ℕ) (h : ∀ x ∈ l, b ≤ x) : l.length * b ≤ l.sum := by
  induction l with
  | nil => simp
  | cons a l ih =>
    have h1 := h a (by simp)
    have h2 := ih fun x hx => h x (by simp [hx])
    simp only [List.sum_cons, List.length_cons]
    rw [Nat.succ_mul]
    omega

/-- Among ascending lists with the same length and sum, the flattest is the last. -/
theorem lex_flat : ∀ {l m : List ℕ}, (∀ x ∈ l, ∀ y ∈ l, x ≤ y + 1) → m.Pairwise (· ≤ ·) → m.length = l.length → m.sum = l.sum → lex m l
  | _, [], _, _, _, _ => trivial
  | [], _ :: _, _, _, h, _ => by simp at h
  | a :: l, b :: m, hf, hm, hlen, hsum => by
    rw [List.pairwise_cons] at hm
    simp only [List.length_cons, List.sum_cons, Nat.add_right_cancel_iff] at hlen hsum
    rcases lt_trichotomy b a with h | rfl | h
    · exact Or.inl h
    · exact Or.inr ⟨rfl, lex_flat (fun x hx y hy => hf x (by simp [hx]) y (by simp [hy])) hm.2 hlen (by omega)⟩
    · exfalso
      have h1 := le_sum_of m (a + 1) fun x hx => by have := hm.1 x hx; omega
      have h2 := sum_le_of l (a + 1) fun x hx => hf x (by simp [hx]) a (by simp)
      rw [hlen] at h1
      omega

/-- Among lists of numbers not below `v` with the same length and sum, the steepest is the first. -/
theorem lex_steep (v z : ℕ) : ∀ (k : ℕ) (m : List ℕ), (∀ x ∈ m, v ≤ x) → m.length = k + 1 → m.sum = k * v + z → lex (List.replicate k v ++ [z]) m
  | _, [], _, h, _ => by simp at h
  | 0, y :: ys, _, hlen, hsum => by
    have : ys = [] := by simpa using hlen
    subst this
    simp only [List.sum_cons, List.sum_nil] at hsum
    exact Or.inr ⟨by omega, trivial⟩
  | k + 1, y :: ys, hv, hlen, hsum => by
    have hy := hv y (by simp)
    rw [List.replicate_succ, List.cons_append]
    rcases hy.lt_or_eq with h | rfl
    · exact Or.inl h
    · refine Or.inr ⟨rfl, lex_steep v z k ys (fun x hx => hv x (by simp [hx])) (by simpa using hlen) ?_⟩
      simp only [List.sum_cons] at hsum
      rw [Nat.succ_mul] at hsum
      omega

theorem lex_part {m z k : ℕ} {p : List ℕ} (hp : ∀ x ∈ p, ∀ y ∈ p, x ≤ y + 1) (hpl : p.length = k + 1) (hz : m + p.sum = m + 1 + (k * (m + 1) + z)) :
    ∀ (c x : List ℕ), x.Pairwise (· ≤ ·) → x.length = (c ++ m :: p).length → x.sum = (c ++ m :: p).sum → lex (c ++ m :: p) x →
      x = c ++ m :: p ∨ lex (c ++ (m + 1) :: (List.replicate k (m + 1) ++ [z])) x
  | [], [], _, h, _, _ => by simp at h
  | [], x :: xs, hx, hlen, hsum, hl => by
    rw [List.pairwise_cons] at hx
    simp only [List.nil_append, List.length_cons, List.sum_cons, Nat.add_right_cancel_iff] at *
    rcases hl with hl | ⟨rfl, hl⟩
    · right
      rcases (show m + 1 ≤ x from hl).lt_or_eq with h | rfl
      · exact Or.inl h
      · exact Or.inr ⟨rfl, lex_steep (m + 1) z k xs hx.1 (by omega) (by omega)⟩
    · left
      rw [lex_antisymm (lex_flat hp hx.2 hlen (by omega)) hl]
  | c :: cs, [], _, h, _, _ => by simp at h
  | c :: cs, x :: xs, hx, hlen, hsum, hl => by
    rw [List.pairwise_cons] at hx
    simp only [List.cons_append, List.length_cons, List.sum_cons, Nat.add_right_cancel_iff] at *
    rcases hl with hl | ⟨rfl, hl⟩
    · exact Or.inr (Or.inl hl)
    · rcases lex_part hp hpl hz cs xs hx.2 hlen (by omega) hl with h | h
      · left; rw [h]
      · exact Or.inr (Or.inr ⟨rfl, h⟩)

/-- The order of the partitions: first the sum, then the numbers from the last. -/
def key (M : List ℕ) : List ℕ := M.sum :: M.reverse

theorem key_inj {M M' : List ℕ} (h : key M = key M') : M = M' := List.reverse_injective (List.cons.inj h).2

theorem scan_spec {m1 : ℕ} : ∀ (ms pre : List ℕ), (∀ x ∈ pre, m1 ≤ x + 1) →
    (scan m1 pre.sum pre.length ms = none ∧ ∀ x ∈ pre ++ ms, m1 ≤ x + 1) ∨
    ∃ pre' m ms', pre ++ ms = pre' ++ m :: ms' ∧ pre <+: pre' ∧ (∀ x ∈ pre', m1 ≤ x + 1) ∧ m + 1 < m1 ∧
      scan m1 pre.sum pre.length ms = some ((pre'.sum + m - pre'.length * (m + 1)) :: List.replicate pre'.length (m + 1) ++ ms')
  | [], pre, h => by
    left
    exact ⟨rfl, by simpa using h⟩
  | m :: ms, pre, h => by
    rw [scan]
    by_cases hc : m1 ≤ m + 1
    · have h' : ∀ x ∈ pre ++ [m], m1 ≤ x + 1 := by
        intro x hx
        rcases List.mem_append.1 hx with hx | hx
        · exact h x hx
        · rw [List.mem_singleton.1 hx]; exact hc
      have := scan_spec ms (pre ++ [m]) h'
      simp only [List.sum_append, List.sum_singleton, List.length_append, List.length_singleton, List.append_assoc, List.singleton_append] at this
      rw [if_pos hc]
      rcases this with h1 | ⟨pre', m', ms', h1, h2, h3⟩
      · exact Or.inl h1
      · exact Or.inr ⟨pre', m', ms', h1, (List.prefix_append pre [m]).trans h2, h3⟩
    · right
      refine ⟨pre, m, ms, rfl, List.prefix_rfl, h, by omega, ?_⟩
      rw [if_neg hc]

/-- What follows a partition. -/
theorem nxprt_spec {M : List ℕ} (hM : M ≠ []) (hd : M.Pairwise (· ≥ ·)) :
    (nxprt M).length = M.length ∧ (nxprt M).Pairwise (· ≥ ·) ∧ lex (key M) (key (nxprt M)) ∧ nxprt M ≠ M ∧
      (nxprt M).sum = (if (nxprt M).headD 0 > M.sum then M.sum + 1 else M.sum) ∧
      ∀ x : List ℕ, x.Pairwise (· ≥ ·) → x.length = M.length → lex (key M) (key x) → x = M ∨ lex (key (nxprt M)) (key x) := by
  obtain ⟨m1, ms, rfl⟩ := List.exists_cons_of_ne_nil hM
  have hd1 := hd
  rw [List.pairwise_cons] at hd1
  have hs := scan_spec (m1 := m1) ms [m1] (by simp)
  simp only [List.sum_singleton, List.length_singleton, List.singleton_append] at hs
  rcases hs with ⟨h1, h2⟩ | ⟨pre, m, ms', h1, h2, h3, h4, h5⟩
  · -- the last partition with this sum
    have hn : nxprt (m1 :: ms) = (m1 + ms.sum + 1) :: List.replicate ms.length 0 := by
      show (scan m1 m1 1 ms).getD _ = _
      rw [h1]; rfl
    have hsum : (nxprt (m1 :: ms)).sum = m1 + ms.sum + 1 := by
      rw [hn]; simp
    rw [hn] at hsum ⊢
    refine ⟨by simp, ?_, ?_, ?_, ?_, ?_⟩
    · rw [List.pairwise_cons]
      refine ⟨fun x hx => ?_, List.pairwise_replicate.2 (Or.inr le_rfl)⟩
      rw [(List.mem_replicate.1 hx).2]
      exact Nat.zero_le _
    · refine Or.inl ?_
      rw [hsum]; simp
    · intro h
      have := congrArg List.sum h
      rw [hsum] at this
      simp at this
    · rw [hsum, if_pos (by simp)]
      simp
    · intro x hx hlen hl
      unfold key at hl ⊢
      rw [hsum]
      rcases hl with hl | ⟨hl, hl'⟩
      · right
        simp only [List.sum_cons] at hl
        rcases (show m1 + ms.sum + 1 ≤ x.sum from hl).lt_or_eq with h | h
        · exact Or.inl h
        · refine Or.inr ⟨h, ?_⟩
          rw [List.reverse_cons, List.reverse_replicate]
          refine lex_steep 0 _ ms.length x.reverse (by simp) (by simpa using hlen) ?_
          rw [List.sum_reverse, ← h]; omega
      · left
        refine List.reverse_injective (lex_antisymm (lex_flat ?_ ?_ (by simpa using hlen) ?_) hl')
        · intro y hy z hz
          rw [List.mem_reverse] at hy hz
          have hy' : y ≤ m1 := by
            rcases List.mem_cons.1 hy with rfl | hy
            · exact le_rfl
            · exact hd1.1 y hy
          exact hy'.trans (h2 z hz)
        · rw [List.pairwise_reverse]; exact hx
        · rw [List.sum_reverse, List.sum_reverse, hl]
  · -- another partition with this sum
    have hn : nxprt (m1 :: ms) = (pre.sum + m - pre.length * (m + 1)) :: List.replicate pre.length (m + 1) ++ ms' := by
      show (scan m1 m1 1 ms).getD _ = _
      rw [h5]; rfl
    obtain ⟨pre2, rfl⟩ := h2
    rw [List.singleton_append] at *
    set pre := m1 :: pre2 with hpre
    have hdd := hd
    rw [h1] at hdd
    obtain ⟨d1, d23, d4⟩ := List.pairwise_append.1 hdd
    obtain ⟨d2, d3⟩ := List.pairwise_cons.1 d23
    have hlenp : pre.length = pre2.length + 1 := by simp [hpre]
    have hsump : (pre2.length + 1) * (m + 1) + 1 ≤ pre.sum := by
      have := le_sum_of pre2 (m + 1) fun x hx => by have := h3 x (by simp [hpre, hx]); omega
      simp only [hpre, List.sum_cons]
      rw [Nat.succ_mul]
      omega
    set z := pre.sum + m - pre.length * (m + 1) with hz
    have hz' : pre.length * (m + 1) + z = pre.sum + m := by rw [hlenp] at hz ⊢; omega
    have hzm : m + 1 ≤ z := by rw [hlenp] at hz'; omega
    have hsum : (nxprt (m1 :: ms)).sum = (m1 :: ms).sum := by
      rw [hn, h1]
      simp only [List.sum_append, List.sum_cons, List.sum_replicate, smul_eq_mul, List.cons_append]
      omega
    have hr1 : (m1 :: ms).reverse = ms'.reverse ++ m :: pre.reverse := by rw [h1]; simp
    have hr2 : (nxprt (m1 :: ms)).reverse = ms'.reverse ++ (m + 1) :: (List.replicate pre2.length (m + 1) ++ [z]) := by
      rw [hn, hlenp, List.reverse_append, List.reverse_cons, List.reverse_replicate, List.replicate_succ]
      simp
    have hle : ∀ x ∈ pre, x ≤ m1 := by
      intro x hx
      rcases List.mem_cons.1 hx with rfl | hx
      · exact le_rfl
      · have := List.pairwise_cons.1 d1
        exact this.1 x hx
    refine ⟨?_, ?_, ?_, ?_, ?_, ?_⟩
    · rw [hn, h1]; simp; omega
    · rw [hn, List.cons_append, List.pairwise_cons, List.pairwise_append]
      refine ⟨?_, List.pairwise_replicate.2 (Or.inr le_rfl), d3, ?_⟩
      · intro x hx
        rcases List.mem_append.1 hx with hx | hx
        · rw [(List.mem_replicate.1 hx).2]; exact hzm
        · have := d2 x hx; omega
      · intro x hx y hy
        rw [(List.mem_replicate.1 hx).2]
        have := d2 y hy; omega
    · refine Or.inr ⟨hsum.symm, ?_⟩
      rw [hr1, hr2, lex_append]
      exact Or.inl (Nat.lt_succ_self m)
    · intro h
      have := congrArg List.reverse h
      rw [hr1, hr2] at this
      have := List.append_cancel_left this
      rw [List.cons.injEq] at this
      omega
    · rw [hsum, if_neg]
      rw [← hsum, hn]
      simp
    · intro x hx hlen hl
      unfold key at hl ⊢
      rcases hl with hl | ⟨hl, hl'⟩
      · right
        exact Or.inl (by rw [hsum]; exact hl)
      · rw [hr1] at hl'
        have := lex_part (m := m) (z := z) (k := pre2.length) (p := pre.reverse) ?_ (by simp [hlenp]) ?_ ms'.reverse x.reverse ?_ ?_ ?_ hl'
        · rcases this with h | h
          · left
            rw [← hr1] at h
            exact List.reverse_injective h
          · right
            refine Or.inr ⟨by rw [hsum, hl], ?_⟩
            rw [hr2]; exact h
        · intro y hy w hw
          rw [List.mem_reverse] at hy hw
          exact (hle y hy).trans (h3 w hw)
        · rw [List.sum_reverse]
          rw [hlenp, Nat.succ_mul] at hz'
          omega
        · rw [List.pairwise_reverse]; exact hx
        · rw [← hr1]; simpa using hlen
        · rw [← hr1, List.sum_reverse, List.sum_reverse]; exact hl.symm

/-! ## All partitions -/

/-- The partitions into `S` parts with a sum up to `D`, in descending order. -/
def Pt (S D : ℕ) : Finset (List ℕ) := {x ∈ (range (D + 1)).biUnion (Ls S) | x.Pairwise (· ≥ ·)}

theorem mem_Pt {S D : ℕ} {x : List ℕ} : x ∈ Pt S D ↔ x.length = S ∧ x.sum ≤ D ∧ x.Pairwise (· ≥ ·) := by
  unfold Pt
  simp only [mem_filter, mem_biUnion, mem_range, mem_Ls]
  constructor
  · rintro ⟨⟨n, h1, h2, rfl⟩, h3⟩
    exact ⟨h2, by omega, h3⟩
  · rintro ⟨h1, h2, h3⟩
    exact ⟨⟨x.sum, by omega, h1, rfl⟩, h3⟩

/-- The partitions that are not before `M`. -/
def fromP (S D : ℕ) (M : List ℕ) : Finset (List ℕ) := {x ∈ Pt S D | lex (key M) (key x)}

theorem fromP_zero (S D : ℕ) : fromP S D (List.replicate S 0) = Pt S D := by
  unfold fromP
  refine filter_true_of_mem fun x hx => ?_
  obtain ⟨h1, -, h3⟩ := mem_Pt.1 hx
  unfold key
  rcases Nat.eq_zero_or_pos x.sum with h | h
  · refine Or.inr ⟨by simp [h], ?_⟩
    have : x = List.replicate S 0 := by
      rw [List.eq_replicate_iff]
      refine ⟨h1, fun b hb => ?_⟩
      have := List.le_sum_of_mem hb
      omega
    rw [this]
    exact lex_refl _
  · exact Or.inl (by simpa using h)

/-- One step to the next partition, when it is still to be taken. -/
theorem fromP_step {S D : ℕ} (hS : 0 < S) {M : List ℕ} (hl : M.length = S) (hd : M.Pairwise (· ≥ ·)) (hM : M.sum ≤ D) :
    M ∉ fromP S D (nxprt M) ∧ fromP S D M = insert M (fromP S D (nxprt M)) := by
  have hne : M ≠ [] := by rintro rfl; simp at hl; omega
  obtain ⟨n1, n2, n3, n4, n5, n6⟩ := nxprt_spec hne hd
  constructor
  · intro h
    exact n4 (key_inj (lex_antisymm (mem_filter.1 h).2 n3))
  · ext x
    rw [mem_insert]
    unfold fromP
    rw [mem_filter, mem_filter, mem_Pt]
    constructor
    · rintro ⟨⟨h1, h2, h3⟩, h4⟩
      rcases n6 x h3 (by omega) h4 with h | h
      · exact Or.inl h
      · exact Or.inr ⟨⟨h1, h2, h3⟩, h⟩
    · rintro (rfl | ⟨h, h'⟩)
      · exact ⟨⟨hl, hM, hd⟩, lex_refl _⟩
      · exact ⟨h, lex_trans n3 h'⟩

theorem fromP_empty {S D : ℕ} {M : List ℕ} (h : D < M.sum) : fromP S D M = ∅ := by
  unfold fromP
  refine filter_false_of_mem fun x hx hl => ?_
  have := (mem_Pt.1 hx).2.1
  rcases hl with hl | ⟨hl, -⟩ <;> omega

/-- The partitions one after the other. -/
def Mseq (S k : ℕ) : List ℕ := nxprt^[k] (List.replicate S 0)

theorem Mseq_spec {S : ℕ} (hS : 0 < S) (k : ℕ) : (Mseq S k).length = S ∧ (Mseq S k).Pairwise (· ≥ ·) := by
  induction k with
  | zero => exact ⟨by simp [Mseq], List.pairwise_replicate.2 (Or.inr le_rfl)⟩
  | succ k ih =>
    have hne : Mseq S k ≠ [] := by
      intro h
      rw [h] at ih
      simp at ih
      omega
    have := nxprt_spec hne ih.2
    have he : Mseq S (k + 1) = nxprt (Mseq S k) := Function.iterate_succ_apply' _ _ _
    rw [he]
    exact ⟨this.1.trans ih.1, this.2.1⟩

theorem Mseq_succ (S k : ℕ) : Mseq S (k + 1) = nxprt (Mseq S k) := Function.iterate_succ_apply' _ _ _

theorem Mseq_mono {S : ℕ} (hS : 0 < S) : Monotone fun k => (Mseq S k).sum := by
  refine monotone_nat_of_le_succ fun k => ?_
  obtain ⟨h1, h2⟩ := Mseq_spec hS k
  have hne : Mseq S k ≠ [] := by
    intro h
    rw [h] at h1
    simp at h1
    omega
  have := (nxprt_spec hne h2).2.2.2.2.1
  simp only [Mseq_succ]
  rw [this]
  split_ifs <;> omega

end Verif.SymRl
