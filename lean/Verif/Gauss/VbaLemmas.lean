import Verif.Gauss.Vba
import Mathlib.Algebra.BigOperators.Intervals
import Mathlib.LinearAlgebra.Matrix.PosDef
import Mathlib.LinearAlgebra.Matrix.Block
import Mathlib.LinearAlgebra.Matrix.NonsingularInverse
import Mathlib.Tactic.Linarith
import Mathlib.Tactic.Ring
import Mathlib.Tactic.FieldSimp

/-!
# Lemmas about the metric
-/

set_option linter.unusedSectionVars false
set_option linter.unusedSimpArgs false

namespace Verif.Vba

open Finset

/-! ## Loops -/

theorem forUp_ind {σ : Type} {lo hi : ℕ} {f : ℕ → σ → σ} (P : ℕ → σ → Prop) (h : lo ≤ hi) {s : σ} (h0 : P lo s)
    (hs : ∀ i s, lo ≤ i → i < hi → P i s → P (i + 1) (f i s)) : P hi (forUp lo hi f s) := by
  unfold forUp
  obtain ⟨n, rfl⟩ : ∃ n, hi = lo + n := ⟨hi - lo, by omega⟩
  rw [Nat.add_sub_cancel_left]
  induction n generalizing lo s with
  | zero => simpa using h0
  | succ n ih =>
    rw [List.range'_succ, List.foldl_cons]
    have := ih (lo := lo + 1) (s := f lo s) (hs lo s le_rfl (by omega) h0) (by omega) (fun i s h1 h2 hp => hs i s (by omega) (by omega) hp)
    rw [show lo + (n + 1) = lo + 1 + n by omega]
    exact this

theorem forUp_empty {σ : Type} {lo hi : ℕ} {f : ℕ → σ → σ} (h : hi ≤ lo) (s : σ) : forUp lo hi f s = s := by
  unfold forUp; rw [show hi - lo = 0 by omega]; rfl

theorem forUpE_ind {σ : Type} {lo hi : ℕ} {f : ℕ → σ → Except Err σ} (P : ℕ → σ → Prop) (h : lo ≤ hi) {s : σ} (h0 : P lo s)
    (hs : ∀ i s s', lo ≤ i → i < hi → P i s → f i s = .ok s' → P (i + 1) s') :
    (∀ r, forUpE lo hi f s = .ok r → P hi r) ∧ (∀ e, forUpE lo hi f s = .error e → ∃ i s', lo ≤ i ∧ i < hi ∧ P i s' ∧ f i s' = .error e) := by
  unfold forUpE
  obtain ⟨n, rfl⟩ : ∃ n, hi = lo + n := ⟨hi - lo, by omega⟩
  rw [Nat.add_sub_cancel_left]
  induction n generalizing lo s with
  | zero =>
    refine ⟨?_, ?_⟩
    · intro r hr
      simp only [List.range'_zero, List.foldlM_nil] at hr
      cases hr
      simpa using h0
    · intro e he
      simp only [List.range'_zero, List.foldlM_nil] at he
      cases he
  | succ n ih =>
    rw [List.range'_succ, List.foldlM_cons]
    cases hf : f lo s with
    | error e =>
      refine ⟨?_, ?_⟩
      · intro r hr; cases hr
      · intro e' he
        have : e = e' := by simpa [bind, Except.bind] using he
        subst this
        exact ⟨lo, s, le_rfl, by omega, h0, hf⟩
    | ok s1 =>
      have := ih (lo := lo + 1) (s := s1) (hs lo s s1 le_rfl (by omega) h0 hf) (by omega) (fun i s s' h1 h2 hp => hs i s s' (by omega) (by omega) hp)
      rw [show lo + (n + 1) = lo + 1 + n by omega]
      refine ⟨fun r hr => this.1 r hr, fun e he => ?_⟩
      obtain ⟨i, s', a, b, c, d⟩ := this.2 e he
      exact ⟨i, s', by omega, by omega, c, d⟩

theorem forDown_sub (n : ℕ) (f : ℕ → ℝ) (s : ℝ) : forDown n (fun m sum => sum - f m) s = s - ∑ m ∈ range n, f m := by
  induction n generalizing s with
  | zero => simp [forDown]
  | succ n ih => rw [forDown, ih, sum_range_succ]; ring

theorem forUp_sub (lo hi : ℕ) (h : lo ≤ hi) (f : ℕ → ℝ) (s : ℝ) : forUp lo hi (fun m sum => sum - f m) s = s - ∑ m ∈ Ico lo hi, f m := by
  refine forUp_ind (fun i r => r = s - ∑ m ∈ Ico lo i, f m) h (by simp) ?_
  intro i r h1 h2 hr
  rw [hr, sum_Ico_succ_top h1]; ring

theorem forUp_add (lo hi : ℕ) (h : lo ≤ hi) (f : ℕ → ℝ) (s : ℝ) : forUp lo hi (fun m sum => sum + f m) s = s + ∑ m ∈ Ico lo hi, f m := by
  refine forUp_ind (fun i r => r = s + ∑ m ∈ Ico lo i, f m) h (by simp) ?_
  intro i r h1 h2 hr
  rw [hr, sum_Ico_succ_top h1]; ring

theorem set2_self (A : Arr2) (i j : ℕ) (v : ℝ) : set2 A i j v i j = v := by simp [set2]

theorem set2_ne (A : Arr2) {i j i' j' : ℕ} (v : ℝ) (h : i' ≠ i ∨ j' ≠ j) : set2 A i j v i' j' = A i' j' := by
  unfold set2
  rw [if_neg]
  rintro ⟨a, b⟩
  rcases h with h | h
  · exact h a
  · exact h b

theorem set1_self (x : Arr1) (i : ℕ) (v : ℝ) : set1 x i v i = v := by simp [set1]

theorem set1_ne (x : Arr1) {i i' : ℕ} (v : ℝ) (h : i' ≠ i) : set1 x i v i' = x i' := by simp [set1, h]

/-! ## Metric and projections -/

theorem metric_val (nmod nsamp : ℕ) (dmat : Arr2) {a b : ℕ} (ha : a < nmod) (hb : b < nmod) :
    metric nmod nsamp dmat a b = ∑ i ∈ range nsamp, dmat a i * dmat b i := by
  have hsum : ∀ a b, forUp 0 nsamp (fun i sum => sum + dmat a i * dmat b i) 0 = ∑ i ∈ range nsamp, dmat a i * dmat b i := by
    intro a b
    rw [forUp_add 0 nsamp (Nat.zero_le _), zero_add, Finset.range_eq_Ico]
  unfold metric
  simp only [hsum]
  have := forUp_ind (f := fun a (M : Arr2) => forUp 0 nmod (fun b M => set2 M a b (∑ i ∈ range nsamp, dmat a i * dmat b i)) M) (s := fun _ _ => (0 : ℝ))
    (fun k M => ∀ a b, a < k → b < nmod → M a b = ∑ i ∈ range nsamp, dmat a i * dmat b i) (Nat.zero_le nmod) (by intro a b h; omega) (by
      intro k M _ hk ih
      have := forUp_ind (f := fun b (M : Arr2) => set2 M k b (∑ i ∈ range nsamp, dmat k i * dmat b i)) (s := M)
        (fun j M => (∀ a b, a < k → b < nmod → M a b = ∑ i ∈ range nsamp, dmat a i * dmat b i) ∧ ∀ b, b < j → M k b = ∑ i ∈ range nsamp, dmat k i * dmat b i)
        (Nat.zero_le nmod) ⟨ih, by intro b h; omega⟩ (by
          rintro j M _ hj ⟨i1, i2⟩
          refine ⟨?_, ?_⟩
          · intro a b ha hb
            rw [set2_ne _ _ (Or.inl (by omega))]; exact i1 a b ha hb
          · intro b hb
            rcases Nat.lt_succ_iff_lt_or_eq.1 hb with h | h
            · rw [set2_ne _ _ (Or.inr (by omega))]; exact i2 b h
            · subst h; rw [set2_self])
      intro a b ha hb
      rcases Nat.lt_succ_iff_lt_or_eq.1 ha with h | h
      · exact this.1 a b h hb
      · subst h; exact this.2 b hb)
  exact this a b ha hb

theorem proj_val (nmod nsamp : ℕ) (dmat : Arr2) (smpls : Arr1) {a : ℕ} (ha : a < nmod) : proj nmod nsamp dmat smpls a = ∑ i ∈ range nsamp, dmat a i * smpls i := by
  have hsum : ∀ a, forUp 0 nsamp (fun i sum => sum + dmat a i * smpls i) 0 = ∑ i ∈ range nsamp, dmat a i * smpls i := by
    intro a
    rw [forUp_add 0 nsamp (Nat.zero_le _), zero_add, Finset.range_eq_Ico]
  unfold proj
  simp only [hsum]
  have := forUp_ind (f := fun a (P : Arr1) => set1 P a (∑ i ∈ range nsamp, dmat a i * smpls i)) (s := fun _ => (0 : ℝ))
    (fun k P => ∀ a, a < k → P a = ∑ i ∈ range nsamp, dmat a i * smpls i) (Nat.zero_le nmod) (by intro a h; omega) (by
      intro k P _ hk ih a ha
      rcases Nat.lt_succ_iff_lt_or_eq.1 ha with h | h
      · rw [set1_ne _ _ (by omega)]; exact ih a h
      · subst h; rw [set1_self])
  exact this a ha

/-! ## Factorisation -/

/-- What holds before column `a` is computed. -/
structure CholInv (n : ℕ) (G : Arr2) (a : ℕ) (s : Chol) : Prop where
  up : ∀ i j, i ≤ j → j < n → s.cf i j = G i j
  pos : ∀ i < a, 0 < s.diag i
  dia : ∀ i < a, i < n → G i i = ∑ m ∈ range i, s.cf i m * s.cf i m + s.diag i * s.diag i
  low : ∀ i < a, ∀ j, i < j → j < n → G i j = ∑ m ∈ range i, s.cf i m * s.cf j m + s.diag i * s.cf j i
  det : s.rdet = ∏ i ∈ range a, s.diag i

theorem cholBody_eq (a b : ℕ) (s : Chol) : cholBody a b s =
    if a = b then
      if s.cf a b - ∑ m ∈ range a, s.cf a m * s.cf b m ≤ 0 then .error .value
      else .ok { s with diag := set1 s.diag a (Real.sqrt (s.cf a b - ∑ m ∈ range a, s.cf a m * s.cf b m)),
                        rdet := s.rdet * Real.sqrt (s.cf a b - ∑ m ∈ range a, s.cf a m * s.cf b m) }
    else .ok { s with cf := set2 s.cf b a ((s.cf a b - ∑ m ∈ range a, s.cf a m * s.cf b m) / s.diag a) } := by
  unfold cholBody
  rw [forDown_sub]

/-- What holds in column `a` before row `b` is computed. -/
structure ColInv (n : ℕ) (G : Arr2) (a b : ℕ) (s : Chol) : Prop where
  up : ∀ i j, i ≤ j → j < n → s.cf i j = G i j
  pos : ∀ i < (if a < b then a + 1 else a), 0 < s.diag i
  dia : ∀ i < (if a < b then a + 1 else a), i < n → G i i = ∑ m ∈ range i, s.cf i m * s.cf i m + s.diag i * s.diag i
  low : ∀ i < a, ∀ j, i < j → j < n → G i j = ∑ m ∈ range i, s.cf i m * s.cf j m + s.diag i * s.cf j i
  col : ∀ j, a < j → j < b → G a j = ∑ m ∈ range a, s.cf a m * s.cf j m + s.diag a * s.cf j a
  det : s.rdet = ∏ i ∈ range (if a < b then a + 1 else a), s.diag i

theorem col_step {n a b : ℕ} {G : Arr2} {s s' : Chol} (hab : a ≤ b) (hb : b < n) (h : ColInv n G a b s) (hs : cholBody a b s = .ok s') : ColInv n G a (b + 1) s' := by
  rw [cholBody_eq] at hs
  have hlt : a < b + 1 := by omega
  by_cases he : a = b
  · subst he
    rw [if_pos rfl] at hs
    split_ifs at hs with hneg
    simp only [Except.ok.injEq] at hs
    subst hs
    push Not at hneg
    have hup := h.up a a le_rfl hb
    have hsq := Real.mul_self_sqrt hneg.le
    have hirr := lt_irrefl a
    have pos := h.pos
    have dia := h.dia
    have det := h.det
    simp only [hirr, if_false] at pos dia det
    set q := Real.sqrt (s.cf a a - ∑ m ∈ range a, s.cf a m * s.cf a m)
    have hq : 0 < q := Real.sqrt_pos.2 hneg
    refine ⟨h.up, ?_, ?_, ?_, ?_, ?_⟩
    · intro i hi
      rw [if_pos hlt] at hi
      try dsimp only
      rcases Nat.lt_succ_iff_lt_or_eq.1 hi with h' | h'
      · rw [set1_ne _ _ (by omega)]; exact pos i h'
      · subst h'; rw [set1_self]; exact hq
    · intro i hi hin
      rw [if_pos hlt] at hi
      try dsimp only
      rcases Nat.lt_succ_iff_lt_or_eq.1 hi with h' | h'
      · rw [set1_ne _ _ (by omega)]; exact dia i h' hin
      · subst h'
        rw [set1_self, hsq, ← hup]; ring
    · intro i hi j hij hj
      try dsimp only
      rw [set1_ne _ _ (by omega)]; exact h.low i hi j hij hj
    · intro j h1 h2; omega
    · try dsimp only
      rw [if_pos hlt, prod_range_succ, set1_self, det]
      congr 1
      refine prod_congr rfl fun i hi => ?_
      rw [set1_ne _ _ (by rw [mem_range] at hi; omega)]
  · rw [if_neg he] at hs
    simp only [Except.ok.injEq] at hs
    subst hs
    have hab' : a < b := by omega
    have pos := h.pos
    have dia := h.dia
    have det := h.det
    simp only [if_pos hab'] at pos dia det
    have hd := pos a (by omega)
    have hne : ∀ i j, (i ≠ b ∨ j ≠ a) → set2 s.cf b a ((s.cf a b - ∑ m ∈ range a, s.cf a m * s.cf b m) / s.diag a) i j = s.cf i j := fun i j h => set2_ne _ _ h
    refine ⟨?_, ?_, ?_, ?_, ?_, ?_⟩
    · intro i j hij hj
      try dsimp only
      rw [hne _ _ (by omega)]; exact h.up i j hij hj
    · intro i hi; rw [if_pos hlt] at hi; exact pos i hi
    · intro i hi hin
      rw [if_pos hlt] at hi
      try dsimp only
      rw [dia i hi hin]
      congr 1
      refine sum_congr rfl fun m hm => ?_
      rw [mem_range] at hm
      rw [hne _ _ (by omega)]
    · intro i hi j hij hj
      try dsimp only
      rw [h.low i hi j hij hj, hne j i (by omega)]
      congr 1
      refine sum_congr rfl fun m hm => ?_
      rw [mem_range] at hm
      rw [hne _ _ (by omega), hne _ _ (by omega)]
    · intro j h1 h2
      try dsimp only
      rcases Nat.lt_succ_iff_lt_or_eq.1 h2 with h' | h'
      · rw [h.col j h1 h', hne j a (by omega)]
        congr 1
        refine sum_congr rfl fun m hm => ?_
        rw [mem_range] at hm
        rw [hne _ _ (by omega), hne _ _ (by omega)]
      · subst h'
        rw [set2_self, mul_div_cancel₀ _ hd.ne', h.up a j hab'.le hb]
        have : ∑ m ∈ range a, set2 s.cf j a ((G a j - ∑ m ∈ range a, s.cf a m * s.cf j m) / s.diag a) a m *
            set2 s.cf j a ((G a j - ∑ m ∈ range a, s.cf a m * s.cf j m) / s.diag a) j m = ∑ m ∈ range a, s.cf a m * s.cf j m := by
          refine sum_congr rfl fun m hm => ?_
          rw [mem_range] at hm
          rw [set2_ne _ _ (by omega), set2_ne _ _ (by omega)]
        rw [this]; ring
    · (try dsimp only); rw [if_pos hlt]; exact det

theorem col_start {n a : ℕ} {G : Arr2} {s : Chol} (h : CholInv n G a s) : ColInv n G a a s := by
  refine ⟨h.up, ?_, ?_, h.low, fun j h1 h2 => by omega, ?_⟩
  · simpa using h.pos
  · simpa using h.dia
  · simpa using h.det

theorem col_end {n a : ℕ} {G : Arr2} {s : Chol} (ha : a < n) (h : ColInv n G a n s) : CholInv n G (a + 1) s := by
  refine ⟨h.up, ?_, ?_, ?_, ?_⟩
  · simpa [ha] using h.pos
  · simpa [ha] using h.dia
  · intro i hi j hij hj
    rcases Nat.lt_succ_iff_lt_or_eq.1 hi with h' | h'
    · exact h.low i h' j hij hj
    · subst h'; exact h.col j hij hj
  · simpa [ha] using h.det

/-- The factorisation: either it succeeds, or it fails at a pivot that is not positive. -/
theorem chol_spec (n : ℕ) (G : Arr2) (junk : Arr1) :
    (∀ r, chol n ⟨G, junk, 1⟩ = .ok r → CholInv n G n r) ∧
    (∀ e, chol n ⟨G, junk, 1⟩ = .error e → e = .value ∧ ∃ a s, a < n ∧ CholInv n G a s ∧ G a a - ∑ m ∈ range a, s.cf a m * s.cf a m ≤ 0) := by
  have h0 : CholInv n G 0 ⟨G, junk, 1⟩ := ⟨fun _ _ _ _ => rfl, by intro i h; omega, by intro i h; omega, by intro i h; omega, by simp⟩
  have key : ∀ a s, a < n → CholInv n G a s →
      (∀ r, forUpE a n (fun b s => cholBody a b s) s = .ok r → CholInv n G (a + 1) r) ∧
      (∀ e, forUpE a n (fun b s => cholBody a b s) s = .error e → e = .value ∧ ∃ s', CholInv n G a s' ∧ G a a - ∑ m ∈ range a, s'.cf a m * s'.cf a m ≤ 0) := by
    intro a s ha h
    obtain ⟨k1, k2⟩ := forUpE_ind (f := fun b s => cholBody a b s) (fun b s => ColInv n G a b s) ha.le (col_start h) (fun b s s' h1 h2 hc hs => col_step h1 h2 hc hs)
    refine ⟨fun r hr => col_end ha (k1 r hr), fun e he => ?_⟩
    obtain ⟨b, s', h1, h2, hc, hf⟩ := k2 e he
    rw [cholBody_eq] at hf
    by_cases heq : a = b
    · subst heq
      rw [if_pos rfl] at hf
      split_ifs at hf with hneg
      simp only [Except.error.injEq] at hf
      refine ⟨hf.symm, s', ?_, ?_⟩
      · have pos := hc.pos
        have dia := hc.dia
        have det := hc.det
        simp only [lt_irrefl, if_false] at pos dia det
        exact ⟨hc.up, pos, dia, hc.low, det⟩
      · rw [← hc.up a a le_rfl ha]; exact hneg
    · rw [if_neg heq] at hf; cases hf
  obtain ⟨k1, k2⟩ := forUpE_ind (f := fun a s => forUpE a n (fun b s => cholBody a b s) s) (fun a s => CholInv n G a s) (Nat.zero_le n) h0
    (fun a s s' _ h2 hc hs => (key a s h2 hc).1 s' hs)
  refine ⟨k1, fun e he => ?_⟩
  obtain ⟨a, s, _, h2, hc, hf⟩ := k2 e he
  obtain ⟨e1, s', e2, e3⟩ := (key a s h2 hc).2 e hf
  exact ⟨e1, a, s', h2, e2, e3⟩

theorem tidy_val (n : ℕ) (diag : Arr1) (cf : Arr2) {i j : ℕ} (hi : i < n) (hj : j < n) :
    tidy n diag cf i j = if i < j then 0 else if i = j then diag i else cf i j := by
  have inner : ∀ a (M : Arr2), a < n → ∀ b, a ≤ b → b ≤ n →
      ∀ i j, (forUp a b (fun b cf => if a = b then set2 cf a a (diag a) else set2 cf a b 0) M) i j =
        if i = a ∧ a ≤ j ∧ j < b then (if i < j then 0 else diag i) else M i j := by
    intro a M ha b hab hb
    refine forUp_ind (fun b (M' : Arr2) => ∀ i j, M' i j = if i = a ∧ a ≤ j ∧ j < b then (if i < j then 0 else diag i) else M i j) hab ?_ ?_
    · intro i j; rw [if_neg (by omega)]
    · intro k M' h1 h2 ih i j
      by_cases hk : a = k
      · subst hk
        rw [if_pos rfl]
        by_cases hij : i = a ∧ j = a
        · obtain ⟨rfl, rfl⟩ := hij
          rw [set2_self, if_pos (by omega), if_neg (by omega)]
        · rw [set2_ne _ _ (by omega), ih]
          by_cases hc : i = a ∧ a ≤ j ∧ j < a
          · omega
          · rw [if_neg hc, if_neg (by omega)]
      · rw [if_neg hk]
        by_cases hij : i = a ∧ j = k
        · obtain ⟨rfl, rfl⟩ := hij
          rw [set2_self, if_pos (by omega), if_pos (by omega)]
        · rw [set2_ne _ _ (by omega), ih]
          by_cases hc : i = a ∧ a ≤ j ∧ j < k
          · rw [if_pos hc, if_pos (show i = a ∧ a ≤ j ∧ j < k + 1 by omega)]
          · rw [if_neg hc, if_neg (by omega)]
  have := forUp_ind (f := fun a (M : Arr2) => forUp a n (fun b cf => if a = b then set2 cf a a (diag a) else set2 cf a b 0) M) (s := cf)
    (fun a M => ∀ i j, j < n → M i j = if i < a ∧ i ≤ j then (if i < j then 0 else diag i) else cf i j) (Nat.zero_le n) (by intro i j _; rw [if_neg (by omega)]) (by
      intro a M _ ha ih i j hj
      try dsimp only
      rw [inner a M ha n ha.le le_rfl i j]
      by_cases hc : i = a ∧ a ≤ j ∧ j < n
      · rw [if_pos hc, if_pos (show i < a + 1 ∧ i ≤ j by omega)]
      · rw [if_neg hc, ih i j hj]
        by_cases hd : i < a ∧ i ≤ j
        · rw [if_pos hd, if_pos (show i < a + 1 ∧ i ≤ j by omega)]
        · rw [if_neg hd, if_neg (by omega)])
  unfold tidy
  rw [this i j hj]
  by_cases h1 : i < j
  · rw [if_pos (by omega), if_pos h1, if_pos h1]
  · by_cases h2 : i = j
    · subst h2; rw [if_pos (by omega), if_neg h1, if_neg h1, if_pos rfl]
    · rw [if_neg (by omega), if_neg h1, if_neg h2]

/-! ## Substitution -/

theorem forward_spec (n : ℕ) (L : Arr2) (p A : Arr1) (hd : ∀ i < n, L i i ≠ 0) {i : ℕ} (hi : i < n) :
    ∑ b ∈ range (i + 1), L i b * forward n L p A b = p i := by
  have := forUp_ind (f := fun a (A : Arr1) => set1 A a (forDown a (fun b sum => sum - L a b * A b) (p a) / L a a)) (s := A)
    (fun k A => ∀ i < k, ∑ b ∈ range (i + 1), L i b * A b = p i) (Nat.zero_le n) (by intro i h; omega) (by
      intro k A _ hk ih i hi
      try dsimp only
      rw [forDown_sub]
      rcases Nat.lt_succ_iff_lt_or_eq.1 hi with h | h
      · rw [← ih i h]
        refine sum_congr rfl fun b hb => ?_
        rw [mem_range] at hb
        rw [set1_ne _ _ (by omega)]
      · subst h
        rw [sum_range_succ, set1_self, mul_div_cancel₀ _ (hd i hk)]
        have : ∑ b ∈ range i, L i b * set1 A i ((p i - ∑ m ∈ range i, L i m * A m) / L i i) b = ∑ b ∈ range i, L i b * A b := by
          refine sum_congr rfl fun b hb => ?_
          rw [mem_range] at hb
          rw [set1_ne _ _ (by omega)]
        rw [this]; ring)
  exact this i hi

theorem backward_spec (n : ℕ) (L : Arr2) (y : Arr1) (hd : ∀ i < n, L i i ≠ 0) {i : ℕ} (hi : i < n) :
    ∑ b ∈ Ico i n, L b i * backward n L y b = y i := by
  have gen : ∀ k, k ≤ n → ∀ A : Arr1, (∀ i, i < k → A i = y i) → (∀ i, k ≤ i → i < n → ∑ b ∈ Ico i n, L b i * A b = y i) →
      ∀ i, i < n → ∑ b ∈ Ico i n, L b i * forDown k (fun a A => set1 A a (forUp (a + 1) n (fun b sum => sum - L b a * A b) (A a) / L a a)) A b = y i := by
    intro k
    induction k with
    | zero => intro _ A _ h2 i hi; exact h2 i (Nat.zero_le _) hi
    | succ k ih =>
      intro hk A h1 h2 i hi
      rw [forDown]
      refine ih (by omega) _ ?_ ?_ i hi
      · intro j hj
        try dsimp only
        rw [set1_ne _ _ (by omega)]; exact h1 j (by omega)
      · intro j hj hjn
        try dsimp only
        rw [forUp_sub _ _ (by omega : k + 1 ≤ n)]
        rcases hj.eq_or_lt with h | h
        · subst h
          rw [sum_eq_sum_Ico_succ_bot (by omega : k < n), set1_self, mul_div_cancel₀ _ (hd k (by omega)), h1 k (by omega)]
          have : ∑ b ∈ Ico (k + 1) n, L b k * set1 A k ((y k - ∑ m ∈ Ico (k + 1) n, L m k * A m) / L k k) b = ∑ b ∈ Ico (k + 1) n, L b k * A b := by
            refine sum_congr rfl fun b hb => ?_
            rw [mem_Ico] at hb
            rw [set1_ne _ _ (by omega)]
          rw [this]; ring
        · rw [← h2 j (by omega) hjn]
          refine sum_congr rfl fun b hb => ?_
          rw [mem_Ico] at hb
          rw [set1_ne _ _ (by omega)]
  exact gen n le_rfl y (fun _ _ => rfl) (fun j h1 h2 => by omega) i hi

/-! ## Covariance -/

/-- The entries of the inverse of a lower triangular matrix: zero above the diagonal, and `L K = 1`. -/
def IsInvLower (n : ℕ) (L K : Arr2) : Prop :=
  (∀ a < n, K a a = 1 / L a a) ∧ ∀ a b, a < b → b < n → ∑ m ∈ Ico a (b + 1), L b m * K m a = 0

theorem covar1_spec (n : ℕ) (L : Arr2) (hd : ∀ i < n, L i i ≠ 0) : IsInvLower n L (covar1 n L) := by
  have := forUp_ind (f := fun a (cv : Arr2) =>
      forUp (a + 1) n (fun b cv => set2 cv b a (forUp a b (fun m sum => sum - cv b m * cv m a) 0 / cv b b)) (set2 cv a a (1 / cv a a))) (s := L)
    (fun k K => (∀ i j, k ≤ j → K i j = L i j) ∧ (∀ a < k, K a a = 1 / L a a) ∧ ∀ a b, a < k → a < b → b < n → ∑ m ∈ Ico a (b + 1), L b m * K m a = 0)
    (Nat.zero_le n) ⟨fun _ _ _ => rfl, by intro a h; omega, by intro a b h; omega⟩ (by
      rintro k K _ hk ⟨i1, i2, i3⟩
      have := forUp_ind (f := fun b (cv : Arr2) => set2 cv b k (forUp k b (fun m sum => sum - cv b m * cv m k) 0 / cv b b)) (s := set2 K k k (1 / K k k))
        (fun b K' => (∀ i j, k < j → K' i j = L i j) ∧ (∀ i, b ≤ i → K' i k = L i k) ∧ (∀ i j, j < k → K' i j = K i j) ∧ K' k k = 1 / L k k ∧
          ∀ i, k < i → i < b → ∑ m ∈ Ico k (i + 1), L i m * K' m k = 0) (by omega : k + 1 ≤ n)
        ⟨fun i j h => by rw [set2_ne _ _ (by omega)]; exact i1 i j h.le, fun i h => by rw [set2_ne _ _ (by omega)]; exact i1 i k le_rfl,
          fun i j h => by rw [set2_ne _ _ (by omega)], by rw [set2_self, i1 k k le_rfl], fun i h h' => by omega⟩ (by
          rintro b K' hb1 hb2 ⟨j1, j2, j3, j4, j5⟩
          try dsimp only
          rw [forUp_sub _ _ (by omega : k ≤ b)]
          refine ⟨fun i j h => by rw [set2_ne _ _ (by omega)]; exact j1 i j h, fun i h => by rw [set2_ne _ _ (by omega)]; exact j2 i (by omega),
            fun i j h => by rw [set2_ne _ _ (by omega)]; exact j3 i j h, by rw [set2_ne _ _ (by omega)]; exact j4, ?_⟩
          intro i h1 h2
          rcases Nat.lt_succ_iff_lt_or_eq.1 h2 with h | h
          · refine (sum_congr rfl fun m hm => ?_).trans (j5 i h1 h)
            rw [mem_Ico] at hm
            rw [set2_ne _ _ (by omega)]
          · subst h
            rw [sum_Ico_succ_top (by omega), set2_self, j1 i i h1, mul_div_cancel₀ _ (hd i hb2)]
            have e : ∑ m ∈ Ico k i, L i m * set2 K' i k ((0 - ∑ m ∈ Ico k i, K' i m * K' m k) / L i i) m k = ∑ m ∈ Ico k i, K' i m * K' m k := by
              refine sum_congr rfl fun m hm => ?_
              rw [mem_Ico] at hm
              rw [set2_ne _ _ (by omega)]
              congr 1
              rcases hm.1.eq_or_lt with h' | h'
              · subst h'; exact (j2 i le_rfl).symm
              · exact (j1 i m h').symm
            rw [e]; ring)
      obtain ⟨j1, j2, j3, j4, j5⟩ := this
      refine ⟨fun i j h => j1 i j (by omega), ?_, ?_⟩
      · intro a ha
        rcases Nat.lt_succ_iff_lt_or_eq.1 ha with h | h
        · rw [j3 a a h]; exact i2 a h
        · subst h; exact j4
      · intro a b ha hab hb
        rcases Nat.lt_succ_iff_lt_or_eq.1 ha with h | h
        · refine (sum_congr rfl fun m _ => ?_).trans (i3 a b h hab hb)
          rw [j3 m a h]
        · subst h; exact j5 b hab hb)
  exact ⟨this.2.1, fun a b => this.2.2 a b |> fun h hab hb => h (by omega) hab hb⟩

theorem covar2_spec (n : ℕ) (K : Arr2) : ∀ i j, i ≤ j → j < n → covar2 n K i j = ∑ m ∈ Ico j n, K m i * K m j := by
  have := forUp_ind (f := fun a (cv : Arr2) => forUp a n (fun b cv => set2 cv a b (forUp b n (fun m sum => sum + cv m a * cv m b) 0)) cv) (s := K)
    (fun k C => (∀ i j, k ≤ i → j ≤ i → C i j = K i j) ∧ (∀ i j, j < i → C i j = K i j) ∧ ∀ i j, i < k → i ≤ j → j < n → C i j = ∑ m ∈ Ico j n, K m i * K m j)
    (Nat.zero_le n) ⟨fun _ _ _ _ => rfl, fun _ _ _ => rfl, by intro i j h; omega⟩ (by
      rintro k C _ hk ⟨i1, i2, i3⟩
      have := forUp_ind (f := fun b (cv : Arr2) => set2 cv k b (forUp b n (fun m sum => sum + cv m k * cv m b) 0)) (s := C)
        (fun b C' => (∀ i j, k < i → j ≤ i → C' i j = K i j) ∧ (k = b → C' k k = K k k) ∧ (∀ i j, j < i → C' i j = K i j) ∧
          (∀ i j, i < k → C' i j = C i j) ∧ ∀ j, k ≤ j → j < b → C' k j = ∑ m ∈ Ico j n, K m k * K m j) hk.le
        ⟨fun i j h h' => i1 i j h.le h', fun _ => i1 k k le_rfl le_rfl, i2, fun _ _ _ => rfl, fun j h h' => by omega⟩ (by
          rintro b C' hb1 hb2 ⟨j1, j2, j3, j4, j5⟩
          try dsimp only
          rw [forUp_add _ _ hb2.le, zero_add]
          have hsum : ∑ m ∈ Ico b n, C' m k * C' m b = ∑ m ∈ Ico b n, K m k * K m b := by
            refine sum_congr rfl fun m hm => ?_
            rw [mem_Ico] at hm
            rcases Nat.lt_or_ge k m with h | h
            · rw [j1 m k h h.le, j1 m b h hm.1]
            · have : m = k := by omega
              have : b = k := by omega
              subst_vars
              rw [j2 rfl]
          rw [hsum]
          refine ⟨fun i j h h' => by rw [set2_ne _ _ (by omega)]; exact j1 i j h h', fun h => by omega,
            fun i j h => by rw [set2_ne _ _ (by omega)]; exact j3 i j h, fun i j h => by rw [set2_ne _ _ (by omega)]; exact j4 i j h, ?_⟩
          intro j h1 h2
          rcases Nat.lt_succ_iff_lt_or_eq.1 h2 with h | h
          · rw [set2_ne _ _ (by omega)]; exact j5 j h1 h
          · subst h; rw [set2_self])
      obtain ⟨j1, -, j3, j4, j5⟩ := this
      refine ⟨fun i j h h' => j1 i j (by omega) h', j3, ?_⟩
      intro i j hi hij hj
      rcases Nat.lt_succ_iff_lt_or_eq.1 hi with h | h
      · rw [j4 i j h]; exact i3 i j h hij hj
      · subst h; exact j5 j hij hj)
  exact fun i j hij hj => this.2.2 i j (by omega) hij hj

theorem covar3_spec (n : ℕ) (C : Arr2) : ∀ i j, i < n → j < n → covar3 n C i j = if i ≤ j then C i j else C j i := by
  have := forUp_ind (f := fun a (cv : Arr2) => forUp (a + 1) n (fun b cv => set2 cv b a (cv a b)) cv) (s := C)
    (fun k D => (∀ i j, i ≤ j → D i j = C i j) ∧ ∀ i j, j < k → j < i → i < n → D i j = C j i)
    (Nat.zero_le n) ⟨fun _ _ _ => rfl, by intro i j h; omega⟩ (by
      rintro k D _ hk ⟨i1, i2⟩
      have := forUp_ind (f := fun b (cv : Arr2) => set2 cv b k (cv k b)) (s := D)
        (fun b D' => (∀ i j, i ≤ j → D' i j = C i j) ∧ (∀ i j, j < k → D' i j = D i j) ∧ ∀ i, k < i → i < b → D' i k = C k i) (by omega : k + 1 ≤ n)
        ⟨i1, fun _ _ _ => rfl, fun i h h' => by omega⟩ (by
          rintro b D' hb1 hb2 ⟨j1, j2, j3⟩
          try dsimp only
          refine ⟨fun i j h => by rw [set2_ne _ _ (by omega)]; exact j1 i j h, fun i j h => by rw [set2_ne _ _ (by omega)]; exact j2 i j h, ?_⟩
          intro i h1 h2
          rcases Nat.lt_succ_iff_lt_or_eq.1 h2 with h | h
          · rw [set2_ne _ _ (by omega)]; exact j3 i h1 h
          · subst h; rw [set2_self]; exact j1 k i (by omega))
      obtain ⟨j1, j2, j3⟩ := this
      refine ⟨j1, ?_⟩
      intro i j hj hji hi
      rcases Nat.lt_succ_iff_lt_or_eq.1 hj with h | h
      · rw [j2 i j h]; exact i2 i j h hji hi
      · subst h; exact j3 i hji hi)
  intro i j hi hj
  unfold covar3
  split_ifs with h
  · exact this.1 i j h
  · exact this.2 i j (by omega) (by omega) hi

end Verif.Vba
