import Verif.MC.Pps5Lemmas

/-!
# Sampford's method with tables: property C106

`subset_pps5` draws with the tables of C49: the first member of a try by the tables of the weights, the others by the tables of the ratios of the weights in descending order.
A draw reads words until one is accepted (`Draw`: the rejected ones and the accepted one).  `member5` is the member of the population that an accepted word stands for.
-/

set_option linter.unusedSectionVars false
set_option linter.unusedSimpArgs false

namespace Verif.MC

open Finset Function

/-- The member of the population that a word stands for, at the first or a later position of a try. -/
def member5 (main tab : Sampler) (ord : List ℕ) (first : Bool) (word : ℕ) : Option ℕ :=
  match (if first then main else tab).look (word >>> 2) with
  | .item t => if first then some t else ord.reverse[t]?
  | _ => none

/-- The ratio of a weight: `p / (1 - n p)` with `p = x / W`. -/
noncomputable def ratioOf (w : List ℝ) (n : ℕ) (x : ℝ) : ℝ := (x / w.sum) / (1 - n * (x / w.sum))

section

variable {w : List ℝ} {ord : List ℕ} {k : ℕ} (hs : Sorts w ord) (hw : ∀ x ∈ w, 0 ≤ x) (hpos : 0 < w.sum) (hn : ∀ x ∈ w, (k + 1 : ℕ) * x < w.sum)

include hs hw hpos hn

theorem not_whole : ∀ x ∈ w, x ≠ w.sum := by
  rintro x hx rfl
  have := hn _ hx
  push_cast at this
  have : 0 ≤ (k : ℝ) * w.sum := by positivity
  linarith

theorem ratioWts_eq : ratioWts (sortedWts w ord) (k + 1) = (sortedWts w ord).map (ratioOf w (k + 1)) := by
  unfold ratioWts ratioOf
  rw [(sortedWts_perm hs).sum_eq]

theorem ratioWts_sum : (ratioWts (sortedWts w ord) (k + 1)).sum = (w.map (ratioOf w (k + 1))).sum := by
  rw [ratioWts_eq hs hw hpos hn]
  exact ((sortedWts_perm hs).map _).sum_eq

theorem ratioOf_nonneg {x : ℝ} (hx : x ∈ w) : 0 ≤ ratioOf w (k + 1) x := by
  have : ((k + 1 : ℕ) : ℝ) * (x / w.sum) < 1 := by rw [← mul_div_assoc, div_lt_one hpos]; exact hn x hx
  exact div_nonneg (div_nonneg (hw x hx) hpos.le) (by linarith)

theorem ratioOf_pos {x : ℝ} (hx : x ∈ w) (h : 0 < x) : 0 < ratioOf w (k + 1) x := by
  have : ((k + 1 : ℕ) : ℝ) * (x / w.sum) < 1 := by rw [← mul_div_assoc, div_lt_one hpos]; exact hn x hx
  exact div_pos (div_pos h hpos) (by linarith)

theorem ratioOf_eq {x : ℝ} (hx : x ∈ w) : x / w.sum = ratioOf w (k + 1) x * (1 - (k + 1 : ℕ) * (x / w.sum)) := by
  have : ((k + 1 : ℕ) : ℝ) * (x / w.sum) < 1 := by rw [← mul_div_assoc, div_lt_one hpos]; exact hn x hx
  unfold ratioOf
  rw [div_mul_cancel₀]
  intro h
  linarith

theorem ratioSum_pos : 0 < (w.map (ratioOf w (k + 1))).sum := by
  rw [← ratioWts_sum hs hw hpos hn]
  have hp := sortedWts_perm hs
  refine ratioWts_pos _ _ (fun x hx => hw x (hp.mem_iff.1 hx)) (by rw [hp.sum_eq]; exact hpos) (fun x hx => by rw [hp.sum_eq]; exact hn x (hp.mem_iff.1 hx))

/-- No ratio is the whole. -/
theorem ratio_not_whole : ∀ y ∈ ratioWts (sortedWts w ord) (k + 1), y ≠ (ratioWts (sortedWts w ord) (k + 1)).sum := by
  rw [ratioWts_sum hs hw hpos hn, ratioWts_eq hs hw hpos hn]
  intro y hy
  obtain ⟨x, hx, rfl⟩ := List.mem_map.1 hy
  have hxw := (sortedWts_perm hs).mem_iff.1 hx
  obtain ⟨i, hi, rfl⟩ := List.getElem_of_mem hxw
  -- another positive weight
  have hnw := not_whole hs hw hpos hn _ hxw
  have : ∃ j, ∃ h : j < w.length, j ≠ i ∧ 0 < w[j] := by
    by_contra hc
    push Not at hc
    apply hnw
    have e : w.sum = ∑ j : Fin w.length, w[j] := by simp
    rw [e, Finset.sum_eq_single (⟨i, hi⟩ : Fin w.length)]
    · rfl
    · intro b _ hb
      refine le_antisymm (hc b b.2 (fun h => hb (Fin.ext h))) (hw _ (List.getElem_mem _))
    · intro h; exact absurd (Finset.mem_univ _) h
  obtain ⟨j, hj, hji, hjp⟩ := this
  have h1 := ratioOf_pos hs hw hpos hn (List.getElem_mem hj) hjp
  have hnn : ∀ y ∈ w.map (ratioOf w (k + 1)), 0 ≤ y := by
    intro y hy
    obtain ⟨x, hx, rfl⟩ := List.mem_map.1 hy
    exact ratioOf_nonneg hs hw hpos hn hx
  rcases Nat.lt_or_gt_of_ne hji with h | h
  · have := two_le_sum _ hnn j i h
    simp only [List.getElem?_map, List.getElem?_eq_getElem hj, List.getElem?_eq_getElem hi, Option.map_some, Option.getD_some] at this
    intro hc
    linarith
  · have := two_le_sum _ hnn i j h
    simp only [List.getElem?_map, List.getElem?_eq_getElem hj, List.getElem?_eq_getElem hi, Option.map_some, Option.getD_some] at this
    intro hc
    linarith

theorem ratioWts_nn : ∀ y ∈ ratioWts (sortedWts w ord) (k + 1), 0 ≤ y := by
  have hp := sortedWts_perm hs
  exact ratioWts_nonneg _ _ (fun x hx => hw x (hp.mem_iff.1 hx)) (by rw [hp.sum_eq]; exact hpos) (fun x hx => by rw [hp.sum_eq]; exact hn x (hp.mem_iff.1 hx))

theorem ratioWts_len : (ratioWts (sortedWts w ord) (k + 1)).length = w.length := by
  rw [ratioWts_eq hs hw hpos hn, List.length_map, (sortedWts_perm hs).length_eq]

/-- The words that stand for a member: four times the quantised weight, or ratio. -/
theorem member5_count (hlen : w.length ≤ 2 ^ 30) :
    ∃ main tab, initSampler w = some main ∧ initSampler (ratioWts (sortedWts w ord) (k + 1)) = some tab ∧ main.prob1 = none ∧ tab.prob1 = none ∧
      (∀ word, main.look (word >>> 2) ≠ .wild) ∧ (∀ word, tab.look (word >>> 2) ≠ .wild) ∧
      (∀ b word i, member5 main tab ord b word = some i → i < w.length) ∧
      (∀ b word, (if b then main else tab).look (word >>> 2) ≠ .again → (member5 main tab ord b word).isSome) ∧
      ∀ (i : ℕ) (hi : i < w.length), ((range (2 ^ 32)).filter fun word => member5 main tab ord true word = some i).card = 4 * ⌊w[i] / w.sum * 2 ^ 30⌋₊ ∧
        ((range (2 ^ 32)).filter fun word => member5 main tab ord false word = some i).card =
          4 * ⌊ratioOf w (k + 1) w[i] / (w.map (ratioOf w (k + 1))).sum * 2 ^ 30⌋₊ := by
  have hl := ratioWts_len hs hw hpos hn
  have hnn := ratioWts_nn hs hw hpos hn
  have hpp : 0 < (ratioWts (sortedWts w ord) (k + 1)).sum := by rw [ratioWts_sum hs hw hpos hn]; exact ratioSum_pos hs hw hpos hn
  have hol : ord.reverse.length = w.length := by rw [List.length_reverse, hs.perm.length_eq, List.length_range]
  have hond : ord.reverse.Nodup := List.nodup_reverse.2 (hs.perm.nodup_iff.2 List.nodup_range)
  obtain ⟨main, m1, m2, m3⟩ := C49_counts w hw hpos (not_whole hs hw hpos hn) hlen
  obtain ⟨_, m1', m4⟩ := C49_in_range w hw hpos (not_whole hs hw hpos hn) hlen
  obtain rfl : main = _ := Option.some.inj (m1.symm.trans m1')
  obtain ⟨tab, t1, t2, t3⟩ := C49_counts _ hnn hpp (ratio_not_whole hs hw hpos hn) (by rw [hl]; exact hlen)
  obtain ⟨_, t1', t4⟩ := C49_in_range _ hnn hpp (ratio_not_whole hs hw hpos hn) (by rw [hl]; exact hlen)
  obtain rfl : tab = _ := Option.some.inj (t1.symm.trans t1')
  refine ⟨main, tab, m1, t1, m2, t2, fun v => (m4 v).1, fun v => (t4 v).1, ?_, ?_, ?_⟩
  · intro b word i h
    unfold member5 at h
    cases b with
    | true =>
      simp only [if_true] at h
      cases hc : main.look (word >>> 2) with
      | item t => rw [hc] at h; simp only [Option.some.injEq] at h; subst h; exact (m4 word).2 _ hc
      | again => rw [hc] at h; cases h
      | wild => rw [hc] at h; cases h
    | false =>
      simp only [Bool.false_eq_true, if_false] at h
      cases hc : tab.look (word >>> 2) with
      | item t =>
        rw [hc] at h
        have := List.mem_of_getElem? h
        rw [List.mem_reverse, hs.perm.mem_iff] at this
        simpa using this
      | again => rw [hc] at h; cases h
      | wild => rw [hc] at h; cases h
  · intro b word h
    unfold member5
    cases b with
    | true =>
      simp only [if_true] at h ⊢
      cases hc : main.look (word >>> 2) with
      | item t => rfl
      | again => exact absurd hc h
      | wild => exact absurd hc (m4 word).1
    | false =>
      simp only [Bool.false_eq_true, if_false] at h ⊢
      cases hc : tab.look (word >>> 2) with
      | item t =>
        have := (t4 word).2 _ hc
        rw [hl, ← hol] at this
        dsimp only
        rw [List.getElem?_eq_getElem this]
        rfl
      | again => exact absurd hc h
      | wild => exact absurd hc (t4 word).1
  · intro i hi
    constructor
    · rw [← m3 i hi]
      refine congrArg Finset.card (filter_congr fun word _ => ?_)
      unfold member5
      simp only [if_true]
      cases main.look (word >>> 2) <;> simp
    · obtain ⟨t, ht, hti⟩ : ∃ t, ∃ h : t < ord.reverse.length, ord.reverse[t] = i := by
        apply List.getElem_of_mem
        rw [List.mem_reverse, hs.perm.mem_iff]
        simpa using hi
      have ht' : t < (ratioWts (sortedWts w ord) (k + 1)).length := by rw [hl, ← hol]; exact ht
      have hval : (ratioWts (sortedWts w ord) (k + 1))[t] = ratioOf w (k + 1) w[i] := by
        have : ratioWts (sortedWts w ord) (k + 1) = (ord.reverse.map fun i => w[i]?.getD 0).map (ratioOf w (k + 1)) := ratioWts_eq hs hw hpos hn
        simp only [this, List.getElem_map, hti]
        rw [List.getElem?_eq_getElem hi, Option.getD_some]
      have := t3 t ht'
      rw [hval, ratioWts_sum hs hw hpos hn] at this
      rw [← this]
      refine congrArg Finset.card (filter_congr fun word _ => ?_)
      unfold member5
      simp only [Bool.false_eq_true, if_false]
      cases hc : tab.look (word >>> 2) with
      | item t' =>
        have h4 := (t4 word).2 _ hc
        rw [hl, ← hol] at h4
        dsimp only
        rw [List.getElem?_eq_getElem h4, Option.some.injEq, ← hti, hond.getElem_inj_iff]
        simp
      | again => simp
      | wild => simp

/-- **C106.**  Of the blocks of `n` random words (32 bits each), those that stand for the members `s 0, s 1, …`, in this order, are exactly as many as the product of four times the
quantised probability of `s 0` and of four times the quantised ratios of the others. -/
theorem C106_counts (hlen : w.length ≤ 2 ^ 30) :
    ∃ main tab, initSampler w = some main ∧ initSampler (ratioWts (sortedWts w ord) (k + 1)) = some tab ∧ ∀ s : Fin (k + 1) → Fin w.length,
      ((Fintype.piFinset fun _ : Fin (k + 1) => range (2 ^ 32)).filter fun v : Fin (k + 1) → ℕ => ∀ j, member5 main tab ord (j = 0) (v j) = some (s j : ℕ)).card =
        (4 * ⌊w[s 0] / w.sum * 2 ^ 30⌋₊) * ∏ j : Fin k, (4 * ⌊ratioOf w (k + 1) w[s j.succ] / (w.map (ratioOf w (k + 1))).sum * 2 ^ 30⌋₊) := by
  obtain ⟨main, tab, m1, t1, _, _, _, _, _, _, h⟩ := member5_count hs hw hpos hn hlen
  refine ⟨main, tab, m1, t1, fun s => ?_⟩
  rw [blocks_card (2 ^ 32) (fun j v => member5 main tab ord (j = 0) v = some (s j : ℕ)), Fin.prod_univ_succ]
  refine congrArg₂ (· * ·) (h _ (s 0).2).1 (prod_congr rfl fun j _ => ?_)
  · have : decide (j.succ = 0) = false := by simp
    rw [this]
    exact (h _ (s j.succ).2).2

/-- **C106.**  Inclusion: of all blocks of `n` words, the share of those that stand for `n` distinct members with member `m` among them differs from `n w[m] / W` times the share of those
that stand for `n` distinct members by at most `n N / 2^30`, where `N` is the size of the population. -/
theorem C106_inclusion (hlen : w.length ≤ 2 ^ 30) (m : ℕ) (hm : m < w.length) :
    ∃ main tab, initSampler w = some main ∧ initSampler (ratioWts (sortedWts w ord) (k + 1)) = some tab ∧
      open Classical in
      let blocks := Fintype.piFinset fun _ : Fin (k + 1) => range (2 ^ 32)
      let all := blocks.filter fun v : Fin (k + 1) → ℕ => ∃ s : Fin (k + 1) → ℕ, Injective s ∧ ∀ j, member5 main tab ord (j = 0) (v j) = some (s j)
      let with_m := blocks.filter fun v : Fin (k + 1) → ℕ => ∃ s : Fin (k + 1) → ℕ, Injective s ∧ (∃ j, s j = m) ∧ ∀ j, member5 main tab ord (j = 0) (v j) = some (s j)
      |(with_m.card : ℝ) / blocks.card - ((k + 1 : ℕ) * w[m] / w.sum) * (all.card / blocks.card)| ≤ (k + 1 : ℕ) * w.length / 2 ^ 30 := by
  classical
  obtain ⟨main, tab, m1, t1, _, _, _, _, hr, _, h⟩ := member5_count hs hw hpos hn hlen
  refine ⟨main, tab, m1, t1, ?_⟩
  intro blocks all with_m
  have hB : (blocks.card : ℝ) = (2 ^ 32) ^ (k + 1) := by
    rw [Fintype.card_piFinset, Finset.prod_const, card_range, card_univ, Fintype.card_fin]
    rw [Nat.cast_pow, Nat.cast_pow, Nat.cast_ofNat]
  have hmem : ∀ i : Fin w.length, w[i] ∈ w := fun i => List.getElem_mem _
  set c : Fin (k + 1) → Fin w.length → ℝ := fun j i => (((range (2 ^ 32)).filter fun v => member5 main tab ord (j = 0) v = some (i : ℕ)).card : ℝ) with hc
  set p : Fin w.length → ℝ := fun i => w[i] / w.sum with hp
  set l : Fin w.length → ℝ := fun i => ratioOf w (k + 1) w[i] with hl
  have hΛ : ∑ i, l i = (w.map (ratioOf w (k + 1))).sum := by
    have : ∀ (F : ℝ → ℝ), ∑ i : Fin w.length, F w[i] = (w.map F).sum := by
      intro F
      rw [← List.sum_ofFn]
      congr 1
      apply List.ext_getElem
      · simp
      · intro i _ _; simp
    exact this (ratioOf w (k + 1))
  have hΛ0 := ratioSum_pos hs hw hpos hn
  -- the counts
  have hq : ∀ j i, c j i / 2 ^ 32 = (⌊(if j = 0 then p i else l i / ∑ j, l j) * 2 ^ 30⌋₊ : ℝ) / 2 ^ 30 := by
    intro j i
    have hcnt : c j i = 4 * (⌊(if j = 0 then p i else l i / ∑ j, l j) * 2 ^ 30⌋₊ : ℝ) := by
      by_cases hj : j = 0
      · subst hj
        have := (h i i.2).1
        simp only [hc, if_true]
        have e : decide True = true := rfl
        simp only [e]
        rw [this]
        push_cast
        rfl
      · have := (h i i.2).2
        simp only [hc, hj, if_false]
        have e : decide False = false := rfl
        simp only [e]
        rw [this, hΛ]
        push_cast
        rfl
    rw [hcnt]
    ring
  have hx0 : ∀ j i, 0 ≤ (if j = (0 : Fin (k + 1)) then p i else l i / ∑ j, l j) := by
    intro j i
    split_ifs
    · exact div_nonneg (hw _ (hmem i)) hpos.le
    · rw [hΛ]
      exact div_nonneg (ratioOf_nonneg hs hw hpos hn (hmem i)) hΛ0.le
  have hnear := sampford_near (k := k) p l (fun j i => c j i / 2 ^ 32) (w.length / 2 ^ 30) ?_ ?_ (by rw [hΛ]; exact hΛ0) ?_ ?_ ?_ ?_ ?_ ⟨m, hm⟩
  · have hdiv : ∀ f : Fin (k + 1) → Fin w.length, ∏ j, (c j (f j) / 2 ^ 32) = ((blocks.card : ℝ))⁻¹ * ∏ j, c j (f j) := by
      intro f
      rw [prod_div_distrib, prod_const, card_univ, Fintype.card_fin, hB, div_eq_inv_mul]
    have e1 : (all.card : ℝ) / blocks.card = isum (k + 1) (fun f : Fin (k + 1) → Fin w.length => ∏ j, (c j (f j) / 2 ^ 32)) := by
      have hb := blocks_sum (k := k) (m := w.length) (2 ^ 32) (fun j v => member5 main tab ord (j = 0) v) (fun j v i hi => hr _ _ _ hi) (fun _ => True)
      have hset : all = blocks.filter fun v : Fin (k + 1) → ℕ => ∃ s : Fin (k + 1) → ℕ, Injective s ∧ True ∧ ∀ j, member5 main tab ord (j = 0) (v j) = some (s j) := by
        refine filter_congr fun v _ => ?_
        simp only [true_and]
      rw [hset, hb, div_eq_inv_mul, ← isum_mul]
      refine isum_congr fun f _ => ?_
      rw [if_pos trivial, hdiv]
    have e2 : (with_m.card : ℝ) / blocks.card = isum (k + 1) (fun f : Fin (k + 1) → Fin w.length => if (⟨m, hm⟩ : Fin w.length) ∈ Set.range f then ∏ j, (c j (f j) / 2 ^ 32) else 0) := by
      have hb := blocks_sum (k := k) (m := w.length) (2 ^ 32) (fun j v => member5 main tab ord (j = 0) v) (fun j v i hi => hr _ _ _ hi) (fun s => ∃ j, s j = m)
      rw [hb, div_eq_inv_mul, ← isum_mul]
      refine isum_congr fun f _ => ?_
      have hiff : (⟨m, hm⟩ : Fin w.length) ∈ Set.range f ↔ ∃ j, (f j : ℕ) = m := by
        constructor
        · rintro ⟨j, hj⟩; exact ⟨j, by rw [hj]⟩
        · rintro ⟨j, hj⟩; exact ⟨j, Fin.ext hj⟩
      by_cases hin : ∃ j, (f j : ℕ) = m
      · rw [if_pos hin, if_pos (hiff.2 hin), hdiv]
      · rw [if_neg hin, if_neg (fun h => hin (hiff.1 h)), mul_zero]
    rw [e1, e2, mul_div_assoc, mul_div_assoc]
    exact hnear
  · rw [hp, ← sum_div]
    have : ∑ j : Fin w.length, w[j] = w.sum := by simp
    rw [this, div_self hpos.ne']
  · intro j
    exact ratioOf_eq hs hw hpos hn (hmem j)
  · intro i
    exact div_nonneg (hw _ (hmem i)) hpos.le
  · intro i
    rw [hp, ← mul_div_assoc, div_le_one hpos]
    exact (hn _ (hmem i)).le
  · intro j i
    exact div_nonneg (Nat.cast_nonneg _) (pow_nonneg (by norm_num) _)
  · intro j i
    rw [hq, div_le_iff₀ (by positivity)]
    exact Nat.floor_le (mul_nonneg (hx0 j i) (by positivity))
  · intro j
    calc _ ≤ ∑ _i : Fin w.length, (1 / 2 ^ 30 : ℝ) := by
          refine sum_le_sum fun i _ => ?_
          rw [hq]
          have := Nat.lt_floor_add_one ((if j = 0 then p i else l i / ∑ j, l j) * 2 ^ 30)
          rw [sub_le_iff_le_add, ← add_div, le_div_iff₀ (by positivity)]
          linarith
      _ = _ := by
          rw [sum_const, card_univ, Fintype.card_fin, nsmul_eq_mul]
          ring

end

/-- The words of a draw: those rejected, and the one accepted. -/
abbrev Draw := List ℕ × ℕ

/-- The words are what a draw with the tables reads: the first ones are rejected, the last one is not. -/
def Draw.ok (s : Sampler) (d : Draw) : Prop := (∀ x ∈ d.1, s.look (x >>> 2) = .again) ∧ s.look (d.2 >>> 2) ≠ .again

/-- The words that the later draws of a try read: up to the first repetition. -/
def readDraws (look : ℕ → ℕ) : List ℕ → List Draw → List ℕ
  | _, [] => []
  | sample, d :: ds => d.1 ++ d.2 :: (if look d.2 ∈ sample then [] else readDraws look (sample ++ [look d.2]) ds)

theorem dran_draw (s : Sampler) (hs : s.prob1 = none) (d : Draw) (hd : ∀ x ∈ d.1, s.look (x >>> 2) = .again) (i : ℕ) (hi : s.look (d.2 >>> 2) = .item i) (rest : List ℕ) :
    dran s (d.1 ++ d.2 :: rest) = some (i, rest) := by
  obtain ⟨rej, x⟩ := d
  induction rej with
  | nil => rw [List.nil_append, dran_cons _ hs, hi]
  | cons a rej ih =>
    rw [List.cons_append, dran_cons _ hs, hd a (List.mem_cons_self ..)]
    exact ih (fun x hx => hd x (List.mem_cons_of_mem _ hx)) hi

theorem tableLoop_read (tab : Sampler) (ht : tab.prob1 = none) (indices : List ℕ) (look : ℕ → ℕ) (sample : List ℕ) (ds : List Draw) (more : List ℕ) (hd : sample.Nodup)
    (hok : ∀ d ∈ ds, (∀ x ∈ d.1, tab.look (x >>> 2) = .again) ∧ ∃ t, tab.look (d.2 >>> 2) = .item t ∧ indices[t]? = some (look d.2)) :
    ((sample ++ ds.map fun d => look d.2).Nodup → tableLoop tab indices ds.length sample (readDraws look sample ds ++ more) = some (sample ++ ds.map (fun d => look d.2), false, more)) ∧
    (¬ (sample ++ ds.map fun d => look d.2).Nodup → ∃ o, tableLoop tab indices ds.length sample (readDraws look sample ds ++ more) = some (o, true, more)) := by
  induction ds generalizing sample with
  | nil =>
    refine ⟨fun _ => by simp [tableLoop, readDraws], fun h => ?_⟩
    simp at h
    exact absurd hd h
  | cons d ds ih =>
    obtain ⟨hr, t, h1, h2⟩ := hok d (List.mem_cons_self ..)
    have hdr : ∀ rest, dran tab (d.1 ++ d.2 :: rest) = some (t, rest) := fun rest => dran_draw tab ht d hr t h1 rest
    rw [List.length_cons, readDraws, List.append_assoc, List.cons_append]
    by_cases hm : look d.2 ∈ sample
    · rw [if_pos hm, List.nil_append]
      refine ⟨fun h => ?_, fun _ => ⟨sample, ?_⟩⟩
      · exfalso
        rw [List.nodup_append] at h
        exact h.2.2 _ hm (look d.2) (by simp) rfl
      · unfold tableLoop
        rw [hdr]
        dsimp only
        rw [h2]
        dsimp only
        rw [if_pos hm]
    · rw [if_neg hm]
      have hd' : (sample ++ [look d.2]).Nodup := by
        rw [List.nodup_append]
        refine ⟨hd, by simp, ?_⟩
        intro a ha b hb
        simp at hb
        rintro rfl
        rw [hb] at ha
        exact hm ha
      have hstep : tableLoop tab indices (ds.length + 1) sample (d.1 ++ d.2 :: (readDraws look (sample ++ [look d.2]) ds ++ more)) =
          tableLoop tab indices ds.length (sample ++ [look d.2]) (readDraws look (sample ++ [look d.2]) ds ++ more) := by
        conv_lhs => unfold tableLoop
        rw [hdr]
        dsimp only
        rw [h2]
        dsimp only
        rw [if_neg hm]
      rw [hstep]
      have := ih (sample ++ [look d.2]) hd' (fun d hd => hok d (List.mem_cons_of_mem _ hd))
      rw [List.append_assoc, List.singleton_append] at this
      exact this

theorem tryLoop5_tries (main tab : Sampler) (hm : main.prob1 = none) (ht : tab.prob1 = none) (indices : List ℕ) (first look : ℕ → ℕ) (k : ℕ) (tries : List (Draw × List Draw)) (fuel : ℕ)
    (hf : tries.length ≤ fuel) (hk : ∀ t ∈ tries, t.2.length = k)
    (hok1 : ∀ t ∈ tries, (∀ x ∈ t.1.1, main.look (x >>> 2) = .again) ∧ main.look (t.1.2 >>> 2) = .item (first t.1.2))
    (hok2 : ∀ t ∈ tries, ∀ d ∈ t.2, (∀ x ∈ d.1, tab.look (x >>> 2) = .again) ∧ ∃ u, tab.look (d.2 >>> 2) = .item u ∧ indices[u]? = some (look d.2)) :
    (tryLoop5 main tab indices (k + 1 : ℕ) fuel (tries.flatMap fun t => t.1.1 ++ t.1.2 :: readDraws look [first t.1.2] t.2)).map (fun r => r.2.1) =
      (tries.map fun t => first t.1.2 :: t.2.map fun d => look d.2).find? (fun s => s.Nodup) := by
  induction tries generalizing fuel with
  | nil =>
    cases fuel with
    | zero => simp [tryLoop5]
    | succ fuel => simp [tryLoop5, dran_nil main hm]
  | cons t tries ih =>
    cases fuel with
    | zero => simp at hf
    | succ fuel =>
      have ih := ih fuel (by simpa using hf) (fun t ht => hk t (List.mem_cons_of_mem _ ht)) (fun t ht => hok1 t (List.mem_cons_of_mem _ ht)) (fun t ht => hok2 t (List.mem_cons_of_mem _ ht))
      have hlen := hk t (List.mem_cons_self ..)
      obtain ⟨a1, a2⟩ := hok1 t (List.mem_cons_self ..)
      have hdr := fun rest => dran_draw main hm t.1 a1 _ a2 rest
      simp only [List.flatMap_cons, List.map_cons, List.cons_append, List.append_assoc]
      unfold tryLoop5
      rw [hdr]
      dsimp only
      have hto : (((k + 1 : ℕ) : ℤ) - 1).toNat = t.2.length := by rw [hlen]; omega
      rw [hto]
      obtain ⟨h1, h2⟩ := tableLoop_read tab ht indices look [first t.1.2] t.2 (tries.flatMap fun t => t.1.1 ++ t.1.2 :: readDraws look [first t.1.2] t.2) (by simp) (hok2 t (List.mem_cons_self ..))
      by_cases hnd : (first t.1.2 :: t.2.map fun d => look d.2).Nodup
      · rw [List.find?_cons_of_pos (by simpa using hnd), h1 hnd]
        rfl
      · rw [List.find?_cons_of_neg (by simpa using hnd), ← ih]
        obtain ⟨o, ho⟩ := h2 hnd
        rw [ho]
        dsimp only
        cases tryLoop5 main tab indices (k + 1 : ℕ) fuel (tries.flatMap fun t => t.1.1 ++ t.1.2 :: readDraws look [first t.1.2] t.2) <;> rfl

variable {w : List ℝ} {ord : List ℕ}

/-- **C106.**  `subset_pps5(n)`, with the words of a sequence of tries, returns the members of the first try without repetition (and needs more words if there is none).  Each try
consists of the words of `n` draws, the first with the tables of the weights, the others with the tables of the ratios; those after a repetition are not read. -/
theorem C106_subset_pps5 {α : Type*} {items : List α} {rmax : ℕ} {p : Pop α ℝ} (hs : Sorts w ord) (hw : ∀ x ∈ w, 0 ≤ x) (hpos : 0 < w.sum)
    (hr : Reach items (some w) ord rmax p) (k : ℕ) (hlen : k + 1 < items.length) (hlen2 : items.length ≤ 2 ^ 30) (hn : ∀ x ∈ w, (k + 1 : ℕ) * x < w.sum) :
    ∃ main tab, initSampler w = some main ∧ initSampler (ratioWts (sortedWts w ord) (k + 1)) = some tab ∧
      ∀ (tries : List (Draw × List Draw)) (fuel : ℕ) (crand : List ℕ), tries.length ≤ fuel → (∀ t ∈ tries, t.2.length = k) → (∀ t ∈ tries, t.1.ok main ∧ ∀ d ∈ t.2, Draw.ok tab d) →
        let first := fun x => (member5 main tab ord true x).getD 0
        let later := fun x => (member5 main tab ord false x).getD 0
        let g : World := ⟨tries.flatMap fun t => t.1.1 ++ t.1.2 :: readDraws later [first t.1.2] t.2, [], [], crand⟩
        (p.subsetPps5 fuel (k + 1 : ℕ) g).2.2 =
          match (tries.map fun t => first t.1.2 :: t.2.map fun d => later d.2).find? (fun s => s.Nodup) with
          | none => .short
          | some s =>
            match pickAll items s with
            | none => .err .index
            | some out => .val out := by
  have hl := hr.length
  obtain ⟨main, tab, m1, t1, mp, tp, mw, tw, hrg, hsome, _⟩ := member5_count hs hw hpos hn (by rw [← hl]; exact hlen2)
  refine ⟨main, tab, m1, t1, fun tries fuel crand hf hk hok => ?_⟩
  intro first later g
  have hgood : ∀ w', some w = some w' → Sorts w' ord ∧ ∀ x ∈ w', 0 ≤ x := by rintro _ ⟨rfl⟩; exact ⟨hs, hw⟩
  have hwne : w ≠ [] := by rintro rfl; simp at hpos
  rw [(subsetPps5_spec fuel hgood (hr.inv hgood) (k + 1 : ℕ) g).2 (by omega)]
  obtain ⟨S, hS, h1, h2, h3, h4, h5, h6, h7⟩ := setup_eq hs hwne
  have hnI : ∀ x ∈ w, (((k + 1 : ℕ) : ℤ) : ℝ) * x < w.sum := by
    intro x hx
    rw [Int.cast_natCast]
    exact hn x hx
  have hok' := ok_of (n := ((k + 1 : ℕ) : ℤ)) hs hpos hS (fun x hx => (hnI x hx).le) (by omega)
  obtain ⟨hr1, _⟩ := ratios_fin hs hw hpos hS hnI
  have hratio : (S.sorted.map fun x => (x / w.sum) / (1 - (((k + 1 : ℕ) : ℤ) : ℝ) * (x / w.sum))) = ratioWts (sortedWts w ord) (k + 1) := by
    unfold ratioWts
    rw [h5, (sortedWts_perm hs).sum_eq, Int.cast_natCast]
    rfl
  rw [hratio] at hr1
  have hfin : ∀ l : List ℝ, finites (l.map Ext.fin) = some l := by
    intro l
    induction l with
    | nil => rfl
    | cons a l ih => simp [finites, ih]
  unfold pps5Spec
  rw [if_neg (by omega), setRng_extra, if_pos rfl]
  dsimp only
  rw [m1]; dsimp only
  rw [hS]; dsimp only
  rw [if_pos (by rw [hl]; exact hok'), hr1, hfin, Option.bind_some, t1]
  dsimp only
  rw [samplenr5_eq, if_neg (by omega)]
  have hfirst : ∀ x, main.look (x >>> 2) ≠ .again → main.look (x >>> 2) = .item (first x) := by
    intro x hx
    simp only [first, member5, if_true]
    cases hc : main.look (x >>> 2) with
    | item t => rfl
    | again => exact absurd hc hx
    | wild => exact absurd hc (mw x)
  have hlater : ∀ x, tab.look (x >>> 2) ≠ .again → ∃ u, tab.look (x >>> 2) = .item u ∧ ord.reverse[u]? = some (later x) := by
    intro x hx
    have hsm := hsome false x hx
    obtain ⟨i, hi⟩ := Option.isSome_iff_exists.1 hsm
    have hlx : later x = i := by simp only [later, hi, Option.getD_some]
    rw [hlx]
    simp only [member5, Bool.false_eq_true, if_false] at hi
    cases hc : tab.look (x >>> 2) with
    | item t => rw [hc] at hi; exact ⟨t, rfl, hi⟩
    | again => exact absurd hc hx
    | wild => exact absurd hc (tw x)
  have key := tryLoop5_tries main tab mp tp ord.reverse first later k tries fuel hf hk (fun t ht => ⟨(hok t ht).1.1, hfirst _ (hok t ht).1.2⟩)
    (fun t ht d hd => ⟨((hok t ht).2 d hd).1, hlater _ ((hok t ht).2 d hd).2⟩)
  have hgw : g.words = tries.flatMap fun t => t.1.1 ++ t.1.2 :: readDraws later [first t.1.2] t.2 := rfl
  rw [← hgw] at key
  have hfl : ∀ s, (tries.map fun t => first t.1.2 :: t.2.map fun d => later d.2).find? (fun s => s.Nodup) = some s → s.length = k + 1 := by
    intro s h
    obtain ⟨t, ht, rfl⟩ := List.mem_map.1 (List.mem_of_find?_eq_some h)
    simp [hk t ht]
  rw [← key] at hfl ⊢
  rcases htl : tryLoop5 main tab ord.reverse (k + 1 : ℕ) fuel g.words with _ | ⟨ntry, sample, cw⟩
  · rfl
  · rw [htl] at hfl
    have := hfl sample rfl
    simp only [Option.map_some]
    have ht : sample.take ((k + 1 : ℕ) : ℤ).toNat = sample := by
      rw [List.take_of_length_le]
      rw [this]
      simp
    rw [ht]
    cases pickAll items sample <;> rfl

/-- Non-vacuity: weights and a sample size as in the theorems. -/
example : ∃ w : List ℝ, Sorts w [1, 3, 2, 0] ∧ (∀ x ∈ w, 0 ≤ x) ∧ 0 < w.sum ∧ (∀ x ∈ w, (2 : ℕ) * x < w.sum) ∧ w.length ≤ 2 ^ 30 := by
  refine ⟨[3, 1, 2, 1], ⟨?_, ?_⟩, ?_, ?_, ?_, ?_⟩
  · decide
  · norm_num
  · norm_num
  · norm_num
  · norm_num
  · norm_num

/-- The members that words stand for: the first position by weight, the others by ratio. -/
example : (do
    let main ← initSampler ([3, 1, 2, 1] : List ℚ)
    let tab ← initSampler (([3, 2, 1, 1] : List ℚ).map fun x => (x / 7) / (1 - 2 * (x / 7)))
    some ([0, 2 ^ 31, 4294967295].map (member5 main tab [1, 3, 2, 0] true), [0, 2 ^ 31, 4 * (2 ^ 30 - 100), 4294967295].map (member5 main tab [1, 3, 2, 0] false))) =
    some ([some 0, some 1, none], [some 0, some 0, some 3, none]) := by
  decide +kernel

end Verif.MC
