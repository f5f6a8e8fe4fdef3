import Verif.MC.TablesLemmas
import Mathlib.Data.Rat.Floor

/-!
# C49, C50, C51: the five-table sampler

Weights are exact and non-negative (the C code also takes negative ones).  A word is one of the 2^32 values of the generator; `dran` and `dranArray` are single and array
draws from the list of words the generator is going to produce.
-/

set_option linter.unusedSectionVars false
set_option linter.unusedSimpArgs false

namespace Verif.MC

variable {K : Type*} [Field K] [LinearOrder K] [IsStrictOrderedRing K] [FloorRing K]

theorem one_le_sum (w : List K) (h : ∀ x ∈ w, 0 ≤ x) (i : ℕ) : w[i]?.getD 0 ≤ w.sum := by
  induction w generalizing i with
  | nil => simp
  | cons a w ih =>
    have ih := ih (fun x hx => h x (List.mem_cons_of_mem _ hx))
    have ha := h a (List.mem_cons_self ..)
    rw [List.sum_cons]
    cases i with
    | zero => have := List.sum_nonneg (fun x hx => h x (List.mem_cons_of_mem a hx)); simp; exact this
    | succ i => have := ih i; rw [List.getElem?_cons_succ]; linarith

theorem two_le_sum (w : List K) (h : ∀ x ∈ w, 0 ≤ x) (i j : ℕ) (hij : i < j) : w[i]?.getD 0 + w[j]?.getD 0 ≤ w.sum := by
  induction w generalizing i j with
  | nil => simp
  | cons a w ih =>
    have hw : ∀ x ∈ w, 0 ≤ x := fun x hx => h x (List.mem_cons_of_mem _ hx)
    have ha := h a (List.mem_cons_self ..)
    rw [List.sum_cons]
    obtain ⟨j, rfl⟩ : ∃ k, j = k + 1 := ⟨j - 1, by omega⟩
    cases i with
    | zero => have := one_le_sum w hw j; simpa using this
    | succ i => have := ih hw i j (by omega); rw [List.getElem?_cons_succ, List.getElem?_cons_succ]; linarith

theorem quant_get (w : List K) (i : ℕ) (h : i < w.length) : (quant w)[i]?.getD 0 = ⌊w[i] / w.sum * 2 ^ 30⌋₊ := by
  simp [quant, wsum_eq, h]

theorem quant_lt (w : List K) (hw : ∀ x ∈ w, 0 ≤ x) (hpos : 0 < w.sum) (hone : ∀ x ∈ w, x ≠ w.sum) : ∀ m ∈ quant w, m < 2 ^ 30 := by
  intro m hm
  simp only [quant, List.mem_map, wsum_eq] at hm
  obtain ⟨x, hx, rfl⟩ := hm
  obtain ⟨i, hi, rfl⟩ := List.getElem_of_mem hx
  have h1 := one_le_sum w hw i
  rw [List.getElem?_eq_getElem hi, Option.getD_some] at h1
  have h2 : w[i] < w.sum := lt_of_le_of_ne h1 (hone _ hx)
  have h3 : w[i] / w.sum < 1 := (div_lt_one hpos).2 h2
  have h4 : w[i] / w.sum * 2 ^ 30 < 2 ^ 30 := by
    have : (0 : K) < 2 ^ 30 := by positivity
    nlinarith
  rw [Nat.floor_lt (mul_nonneg (div_nonneg (hw _ hx) hpos.le) (by positivity))]
  push_cast
  norm_num at h4 ⊢
  exact h4

theorem quant_sum (w : List K) (hw : ∀ x ∈ w, 0 ≤ x) (hpos : 0 < w.sum) :
    (quant w).sum ≤ 2 ^ 30 ∧ 2 ^ 30 < (quant w).sum + w.length := by
  have hc : (0 : K) ≤ 2 ^ 30 / w.sum := div_nonneg (by positivity) hpos.le
  have hne : w ≠ [] := by rintro rfl; simp at hpos
  obtain ⟨h1, _, h3⟩ := floor_sum w _ hw hc
  have e : (quant w) = w.map fun x => ⌊x * (2 ^ 30 / w.sum)⌋₊ := by
    unfold quant
    rw [wsum_eq]
    refine List.map_congr_left fun x _ => ?_
    rw [div_mul_eq_mul_div, mul_div_assoc]
  have h3 := h3 hne
  rw [← e, mul_div_cancel₀ _ hpos.ne'] at h1 h3
  constructor
  · exact_mod_cast h1
  · exact_mod_cast h3

/-- The sampler of weights none of which is the whole. -/
theorem init_eq (w : List K) (hw : ∀ x ∈ w, 0 ≤ x) (hpos : 0 < w.sum) (hone : ∀ x ∈ w, x ≠ w.sum) (hn : w.length ≤ 2 ^ 30) :
    initSampler w = some (tables (quant w)) := by
  unfold initSampler
  rw [if_neg (by rw [wsum_eq]; exact not_le.2 hpos)]
  dsimp only
  rw [if_neg, tables]
  intro h0
  have hl := line_len (quant w) (quant_lt w hw hpos hone)
  simp only [line, List.length_append, blocks_len, fill_len] at hl
  have := (quant_sum w hw hpos).2
  have h1 : tsize (quant w) 1 = 0 := by omega
  have h2 : tsize (quant w) 2 = 0 := by omega
  have h3 : tsize (quant w) 3 = 0 := by omega
  have h4 : tsize (quant w) 4 = 0 := by omega
  have h5 : tsize (quant w) 5 = 0 := by omega
  rw [h1, h2, h3, h4, h5] at hl
  omega

/-- Four words for each 30-bit number. -/
theorem words (p : ℕ → Prop) [DecidablePred p] (N : ℕ) :
    ((Finset.range (4 * N)).filter fun x => p (x >>> 2)).card = 4 * ((Finset.range N).filter p).card := by
  induction N with
  | zero => simp
  | succ N ih =>
    have e : ∀ x, x >>> 2 = x / 4 := fun x => by rw [Nat.shiftRight_eq_div_pow]
    rw [show 4 * (N + 1) = 4 * N + 1 + 1 + 1 + 1 by ring, Finset.range_add_one, Finset.range_add_one, Finset.range_add_one, Finset.range_add_one,
      Finset.range_add_one]
    rw [Finset.filter_insert, Finset.filter_insert, Finset.filter_insert, Finset.filter_insert, Finset.filter_insert]
    simp only [e] at ih ⊢
    rw [show (4 * N + 1 + 1 + 1) / 4 = N by omega, show (4 * N + 1 + 1) / 4 = N by omega, show (4 * N + 1) / 4 = N by omega,
      show (4 * N) / 4 = N by omega]
    by_cases h : p N
    · simp only [h, if_true]
      rw [Finset.card_insert_of_notMem (by simp), Finset.card_insert_of_notMem (by simp), Finset.card_insert_of_notMem (by simp),
        Finset.card_insert_of_notMem (by simp), Finset.card_insert_of_notMem (by simp), ih]
      ring
    · simp only [h, if_false]
      exact ih

/-! ## C49 -/

/-- **C49.**  Non-negative weights with a positive sum, none of them the whole: item `i` is returned for exactly `4 * floor(2^30 w_i / W)` of the 2^32 words. -/
theorem C49_counts (w : List K) (hw : ∀ x ∈ w, 0 ≤ x) (hpos : 0 < w.sum) (hone : ∀ x ∈ w, x ≠ w.sum) (hn : w.length ≤ 2 ^ 30) :
    ∃ s, initSampler w = some s ∧ s.prob1 = none ∧ ∀ (i : ℕ) (hi : i < w.length),
      ((Finset.range (2 ^ 32)).filter fun word => s.look (word >>> 2) = .item i).card = 4 * ⌊w[i] / w.sum * 2 ^ 30⌋₊ := by
  refine ⟨_, init_eq w hw hpos hone hn, rfl, fun i hi => ?_⟩
  rw [show 2 ^ 32 = 4 * 2 ^ 30 by norm_num, words (fun j => (tables (quant w)).look j = .item i),
    look_count _ (quant_lt w hw hpos hone) (quant_sum w hw hpos).1, quant_get w i hi]

/-- **C49.**  Every lookup is inside its table, and gives one of the items. -/
theorem C49_in_range (w : List K) (hw : ∀ x ∈ w, 0 ≤ x) (hpos : 0 < w.sum) (hone : ∀ x ∈ w, x ≠ w.sum) (hn : w.length ≤ 2 ^ 30) :
    ∃ s, initSampler w = some s ∧ ∀ word, s.look (word >>> 2) ≠ .wild ∧ ∀ i, s.look (word >>> 2) = .item i → i < w.length := by
  refine ⟨_, init_eq w hw hpos hone hn, fun word => ?_⟩
  rw [look_line]
  cases h : (line (quant w))[word >>> 2]? with
  | none => simp
  | some k =>
    refine ⟨by simp, fun i hi => ?_⟩
    simp only [Pick.item.injEq] at hi
    subst hi
    have hc : 0 < (line (quant w)).count k := List.count_pos_iff.2 (List.mem_of_getElem? h)
    rw [line_count _ (quant_lt w hw hpos hone)] at hc
    by_contra hk
    rw [List.getElem?_eq_none (by simp [quant]; omega)] at hc
    simp at hc

/-- **C49.**  Fewer than `4 n` of the 2^32 words are rejected. -/
theorem C49_rejected (w : List K) (hw : ∀ x ∈ w, 0 ≤ x) (hpos : 0 < w.sum) (hone : ∀ x ∈ w, x ≠ w.sum) (hn : w.length ≤ 2 ^ 30) :
    ∃ s, initSampler w = some s ∧ ((Finset.range (2 ^ 32)).filter fun word => s.look (word >>> 2) = .again).card < 4 * w.length := by
  refine ⟨_, init_eq w hw hpos hone hn, ?_⟩
  obtain ⟨h1, h2⟩ := quant_sum w hw hpos
  rw [show 2 ^ 32 = 4 * 2 ^ 30 by norm_num, words (fun j => (tables (quant w)).look j = .again),
    look_again _ (quant_lt w hw hpos hone) h1]
  omega

/-- **C49.**  The thresholds fit into the 32-bit integers of the code. -/
theorem C49_no_overflow (w : List K) (hw : ∀ x ∈ w, 0 ≤ x) (hpos : 0 < w.sum) (hone : ∀ x ∈ w, x ≠ w.sum) (hn : w.length ≤ 2 ^ 30) :
    ∃ s, initSampler w = some s ∧ s.t1 ≤ s.t2 ∧ s.t2 ≤ s.t3 ∧ s.t3 ≤ s.t4 ∧ s.t4 + s.EE.length ≤ 2 ^ 30 := by
  refine ⟨_, init_eq w hw hpos hone hn, ?_, ?_, ?_, ?_⟩
  · exact Nat.le_add_right ..
  · exact Nat.le_add_right ..
  · exact Nat.le_add_right ..
  · have hl := line_len (quant w) (quant_lt w hw hpos hone)
    have := (quant_sum w hw hpos).1
    simp only [line, List.length_append, blocks_len, fill_len] at hl
    simp only [tables, Nat.shiftLeft_eq, fill_len]
    linarith

example : (initSampler ([1, 2, 0, 1] : List ℚ)).map (fun s => (s.look 0, s.look (2 ^ 28), s.look (2 ^ 30 - 1))) = some (.item 0, .item 1, .item 3) := by
  decide +kernel

example : (∀ x ∈ ([1, 2, 0, 1] : List ℚ), 0 ≤ x) ∧ 0 < ([1, 2, 0, 1] : List ℚ).sum ∧ ∀ x ∈ ([1, 2, 0, 1] : List ℚ), x ≠ ([1, 2, 0, 1] : List ℚ).sum := by
  decide +kernel

/-! ## C50 -/

/-- **C50.**  A weight that is the whole: every draw gives its item and consumes no word. -/
theorem C50_certain (w : List K) (hw : ∀ x ∈ w, 0 ≤ x) (hpos : 0 < w.sum) (i : ℕ) (hi : i < w.length) (h : w[i] = w.sum) :
    ∃ s, initSampler w = some s ∧ (∀ ws, dran s ws = some (i, ws)) ∧ ∀ n ws, dranArray s n ws = some (List.replicate n i, ws) := by
  have hz : ∀ j (hj : j < w.length), j ≠ i → w[j] = 0 := by
    intro j hj hji
    have hj0 := hw w[j] (List.getElem_mem hj)
    rcases Nat.lt_or_gt_of_ne hji with hl | hl
    · have := two_le_sum w hw j i hl
      rw [List.getElem?_eq_getElem hj, List.getElem?_eq_getElem hi] at this
      simp only [Option.getD_some] at this
      linarith
    · have := two_le_sum w hw i j hl
      rw [List.getElem?_eq_getElem hj, List.getElem?_eq_getElem hi] at this
      simp only [Option.getD_some] at this
      linarith
  have hq : ∀ j (hj : j < (quant w).length), (quant w)[j] = if j = i then 2 ^ 30 else 0 := by
    intro j hj
    have hj' : j < w.length := by simpa [quant] using hj
    have e : (quant w)[j] = ⌊w[j] / w.sum * 2 ^ 30⌋₊ := by simp [quant, wsum_eq]
    rw [e]
    split_ifs with hji
    · subst hji
      rw [h, div_self hpos.ne', one_mul]
      have := Nat.floor_natCast (R := K) (2 ^ 30)
      push_cast at this
      norm_num at this ⊢
    · rw [hz j hj' hji]
      simp
  have hts : ∀ k, 1 ≤ k ∧ k ≤ 5 → tsize (quant w) k = 0 := by
    intro k hk
    rw [tsize_eq]
    apply List.sum_eq_zero
    intro x hx
    rw [List.mem_map] at hx
    obtain ⟨m, hm, rfl⟩ := hx
    obtain ⟨j, hj, rfl⟩ := List.getElem_of_mem hm
    rw [hq j hj]
    split_ifs
    · exact dg_whole k hk
    · simp [dg]
  have hf : ∀ (P : List ℕ) (o : ℕ), o ≤ i → (∀ j (hj : j < P.length), P[j] = if j + o = i then 2 ^ 30 else 0) → i < o + P.length →
      findOne P o = some i := by
    intro P
    induction P with
    | nil => intro o ho _ hl; simp at hl; omega
    | cons a P ih =>
      intro o ho hP hl
      have ha := hP 0 (by simp)
      simp only [List.getElem_cons_zero, Nat.zero_add] at ha
      unfold findOne
      by_cases hoi : o = i
      · rw [if_pos hoi] at ha
        rw [ha, if_pos (by decide +kernel), hoi]
      · rw [if_neg hoi] at ha
        rw [ha, if_neg (by decide +kernel)]
        apply ih (o + 1) (by omega)
        · intro j hj
          have := hP (j + 1) (by simpa using hj)
          rw [List.getElem_cons_succ] at this
          rw [this]
          congr 1
          rw [eq_iff_iff]
          omega
        · simp at hl; omega
  have hfo : findOne (quant w) 0 = some i := hf (quant w) 0 (Nat.zero_le _) (by simpa using hq) (by simpa [quant] using hi)
  refine ⟨⟨[], [], [], [], [], 0, 0, 0, 0, some i⟩, ?_, fun ws => ?_, fun n ws => ?_⟩
  · unfold initSampler
    rw [if_neg (by rw [wsum_eq]; exact not_le.2 hpos)]
    dsimp only
    rw [if_pos (by rw [hts 1 (by omega), hts 2 (by omega), hts 3 (by omega), hts 4 (by omega), hts 5 (by omega)]), hfo]
  · unfold dran; rfl
  · unfold dranArray; rfl

theorem dran_cons (s : Sampler) (hs : s.prob1 = none) (w : ℕ) (ws : List ℕ) :
    dran s (w :: ws) = match s.look (w >>> 2) with | .item i => some (i, ws) | .again => dran s ws | .wild => none := by
  rw [dran.eq_def, hs]
  rfl

theorem dran_nil (s : Sampler) (hs : s.prob1 = none) : dran s [] = none := by
  rw [dran.eq_def, hs]

/-- **C50.**  Otherwise: a draw consumes the rejected words before the first accepted one, and that one, and gives the item that word stands for. -/
theorem C50_uncertain (w : List K) (hw : ∀ x ∈ w, 0 ≤ x) (hpos : 0 < w.sum) (hone : ∀ x ∈ w, x ≠ w.sum) (hn : w.length ≤ 2 ^ 30) :
    ∃ s, initSampler w = some s ∧ ∀ rejected : List ℕ, (∀ x ∈ rejected, s.look (x >>> 2) = .again) →
      dran s rejected = none ∧ ∀ word rest i, s.look (word >>> 2) = .item i → dran s (rejected ++ word :: rest) = some (i, rest) := by
  refine ⟨_, init_eq w hw hpos hone hn, fun rej hr => ?_⟩
  have hs : (tables (quant w)).prob1 = none := rfl
  induction rej with
  | nil =>
    refine ⟨dran_nil _ hs, fun word rest i hi => ?_⟩
    rw [List.nil_append, dran_cons _ hs, hi]
  | cons a rej ih =>
    obtain ⟨h1, h2⟩ := ih (fun x hx => hr x (List.mem_cons_of_mem _ hx))
    have ha := hr a (List.mem_cons_self ..)
    refine ⟨by rw [dran_cons _ hs, ha]; exact h1, fun word rest i hi => ?_⟩
    rw [List.cons_append, dran_cons _ hs, ha]
    exact h2 word rest i hi

/-- **C50.**  Without a positive sum there is no sampler. -/
theorem C50_none (w : List K) (h : w.sum ≤ 0) : initSampler w = none := by
  unfold initSampler
  rw [if_pos (by rw [wsum_eq]; exact h)]

example : ∃ s, initSampler ([0, 5, 0] : List ℚ) = some s ∧ dran s [7] = some (1, [7]) := by
  obtain ⟨s, h1, h2, _⟩ := C50_certain ([0, 5, 0] : List ℚ) (by decide +kernel) (by decide +kernel) 1 (by decide) (by decide +kernel)
  exact ⟨s, h1, h2 _⟩

example : initSampler ([0, 0] : List ℚ) = none := C50_none _ (by decide +kernel)

/-- Three equal weights: the number `2^30 - 1` is rejected, so is the word `2^32 - 1`. -/
example : (initSampler ([1, 1, 1] : List ℚ)).map (fun s => (s.look ((2 ^ 32 - 1) >>> 2), s.look (0 >>> 2))) = some (.again, .item 0) := by
  decide +kernel

/-! ## C51 -/

/-- `n` single draws, one after the other. -/
def draws (s : Sampler) : ℕ → List ℕ → Option (List ℕ × List ℕ)
  | 0, ws => some ([], ws)
  | n + 1, ws =>
    match dran s ws with
    | none => none
    | some (i, ws) =>
      match draws s n ws with
      | none => none
      | some (out, ws) => some (i :: out, ws)

/-- **C51.**  An array draw gives the items of so many single draws, and leaves the words they leave. -/
theorem C51_array (s : Sampler) (n : ℕ) (ws : List ℕ) : dranArray s n ws = draws s n ws := by
  unfold dranArray
  cases hs : s.prob1 with
  | some i =>
    dsimp only
    induction n with
    | zero => rfl
    | succ n ih =>
      have : dran s ws = some (i, ws) := by rw [dran.eq_def, hs]
      rw [draws, this]
      dsimp only
      rw [← ih]
      rfl
  | none =>
    dsimp only
    induction ws generalizing n with
    | nil =>
      cases n with
      | zero => rfl
      | succ n => rw [draws, dran_nil s hs]; rfl
    | cons w ws ih =>
      cases n with
      | zero => rfl
      | succ n =>
        rw [draws, dran_cons s hs, dranLoop]
        cases s.look (w >>> 2) with
        | item i => dsimp only; rw [ih]; rfl
        | again => dsimp only; rw [ih, draws]
        | wild => rfl

/-- **C51.**  Two array draws are one of the joint length. -/
theorem C51_append (s : Sampler) (m n : ℕ) (ws : List ℕ) :
    dranArray s (m + n) ws = match dranArray s m ws with
      | none => none
      | some (a, ws') => match dranArray s n ws' with
        | none => none
        | some (b, ws'') => some (a ++ b, ws'') := by
  simp only [C51_array]
  induction m generalizing ws with
  | zero =>
    rw [Nat.zero_add]
    simp only [draws]
    cases draws s n ws with
    | none => rfl
    | some p => rfl
  | succ m ih =>
    rw [Nat.add_right_comm, draws, draws]
    cases dran s ws with
    | none => rfl
    | some p =>
      obtain ⟨i, ws'⟩ := p
      dsimp only
      rw [ih]
      cases draws s m ws' with
      | none => rfl
      | some p =>
        obtain ⟨a, ws''⟩ := p
        dsimp only
        cases draws s n ws'' <;> rfl

example : (initSampler ([1, 1, 1] : List ℚ)).bind (dranArray · 2 [0, 2 ^ 32 - 1, 2 ^ 31, 9]) = some ([0, 1], [9]) := by
  decide +kernel

end Verif.MC
