import Verif.MC.SampfordProps

/-!
# Sampford's method with tables: lemmas for property C106
-/

set_option linter.unusedSectionVars false
set_option linter.unusedSimpArgs false

namespace Verif.MC

open Finset Function

section near

variable {K : Type*} [Field K] [LinearOrder K] [IsStrictOrderedRing K] {ι : Type*} [Fintype ι] [DecidableEq ι]

theorem one_sub_prod_le {β : Type*} (s : Finset β) (a : β → K) (h0 : ∀ j ∈ s, 0 ≤ a j) (h1 : ∀ j ∈ s, a j ≤ 1) : 1 - ∏ j ∈ s, a j ≤ ∑ j ∈ s, (1 - a j) := by
  classical
  induction s using Finset.induction_on with
  | empty => simp
  | insert b s hb ih =>
    rw [prod_insert hb, sum_insert hb]
    have ih := ih (fun j hj => h0 j (mem_insert_of_mem hj)) (fun j hj => h1 j (mem_insert_of_mem hj))
    have hp1 : ∏ j ∈ s, a j ≤ 1 := prod_le_one (fun j hj => h0 j (mem_insert_of_mem hj)) (fun j hj => h1 j (mem_insert_of_mem hj))
    have ha0 := h0 b (mem_insert_self ..)
    have ha1 := h1 b (mem_insert_self ..)
    nlinarith

variable {k : ℕ}

/-- Factors that are a little too small: the sum over any part of the sequences is too small by at most the sum of what is missing. -/
theorem isum_near (x q : Fin (k + 1) → ι → K) (δ : K) (hq : ∀ j i, 0 ≤ q j i) (hx : ∀ j i, q j i ≤ x j i) (hs : ∀ j, ∑ i, x j i = 1) (hd : ∀ j, ∑ i, (x j i - q j i) ≤ δ)
    (Q : (Fin (k + 1) → ι) → Prop) [DecidablePred Q] :
    0 ≤ isum (k + 1) (fun f => if Q f then ∏ j, x j (f j) else 0) - isum (k + 1) (fun f => if Q f then ∏ j, q j (f j) else 0) ∧
      isum (k + 1) (fun f => if Q f then ∏ j, x j (f j) else 0) - isum (k + 1) (fun f => if Q f then ∏ j, q j (f j) else 0) ≤ (k + 1 : ℕ) * δ := by
  classical
  have hle : ∀ f : Fin (k + 1) → ι, 0 ≤ ∏ j, x j (f j) - ∏ j, q j (f j) := fun f =>
    sub_nonneg.2 (prod_le_prod (fun j _ => hq j (f j)) (fun j _ => hx j (f j)))
  unfold isum
  rw [← sum_sub_distrib]
  have e : ∀ f : Fin (k + 1) → ι, ((if Injective f then if Q f then ∏ j, x j (f j) else 0 else 0) - (if Injective f then if Q f then ∏ j, q j (f j) else 0 else 0)) =
      if Injective f then if Q f then ∏ j, x j (f j) - ∏ j, q j (f j) else 0 else 0 := by
    intro f
    split_ifs <;> simp
  rw [sum_congr rfl fun f _ => e f]
  refine ⟨sum_nonneg fun f _ => ?_, ?_⟩
  · split_ifs
    · exact hle f
    · exact le_rfl
    · exact le_rfl
  · calc _ ≤ ∑ f : Fin (k + 1) → ι, (∏ j, x j (f j) - ∏ j, q j (f j)) := by
          refine sum_le_sum fun f _ => ?_
          split_ifs
          · exact le_rfl
          · exact hle f
          · exact hle f
      _ = 1 - ∏ j, ∑ i, q j i := by
          rw [sum_sub_distrib, ← Fintype.prod_sum, ← Fintype.prod_sum]
          simp [hs]
      _ ≤ ∑ j : Fin (k + 1), (1 - ∑ i, q j i) := by
          refine one_sub_prod_le _ _ (fun j _ => sum_nonneg fun i _ => hq j i) (fun j _ => ?_)
          rw [← hs j]
          exact sum_le_sum fun i _ => hx j i
      _ ≤ ∑ _j : Fin (k + 1), δ := by
          refine sum_le_sum fun j _ => ?_
          rw [← hs j, ← sum_sub_distrib]
          exact hd j
      _ = _ := by simp

/-- Sampford's identity for factors that are a little too small. -/
theorem sampford_near (p l : ι → K) (q : Fin (k + 1) → ι → K) (δ : K) (hp : ∑ j, p j = 1) (hl : ∀ j, p j = l j * (1 - (k + 1 : ℕ) * p j)) (hΛ : 0 < ∑ j, l j)
    (hp0 : ∀ i, 0 ≤ p i) (hp1 : ∀ i, (k + 1 : ℕ) * p i ≤ 1) (hq : ∀ j i, 0 ≤ q j i) (hx : ∀ j i, q j i ≤ if j = 0 then p i else l i / ∑ j, l j)
    (hd : ∀ j, ∑ i, ((if j = 0 then p i else l i / ∑ j, l j) - q j i) ≤ δ) (i : ι) [DecidablePred fun f : Fin (k + 1) → ι => i ∈ Set.range f] :
    |isum (k + 1) (fun f => if i ∈ Set.range f then ∏ j, q j (f j) else 0) - (k + 1 : ℕ) * p i * isum (k + 1) (fun f => ∏ j, q j (f j))| ≤ (k + 1 : ℕ) * δ := by
  classical
  set Λ := ∑ j, l j with hΛd
  set x : Fin (k + 1) → ι → K := fun j i => if j = 0 then p i else l i / Λ with hxd
  have hs : ∀ j, ∑ i, x j i = 1 := by
    intro j
    by_cases h : j = 0
    · simp only [hxd, h, if_true, hp]
    · simp only [hxd, h, if_false]
      rw [← sum_div, ← hΛd, div_self hΛ.ne']
  have hprod : ∀ f : Fin (k + 1) → ι, ∏ j, x j (f j) = (Λ ^ k)⁻¹ * (p (f 0) * ∏ j : Fin k, l (f j.succ)) := by
    intro f
    rw [Fin.prod_univ_succ]
    simp only [hxd, Fin.succ_ne_zero, if_false, if_true]
    rw [prod_div_distrib, prod_const, card_univ, Fintype.card_fin]
    ring
  have key := sampford_identity p l k hp hl i
  have X : isum (k + 1) (fun f => if i ∈ Set.range f then ∏ j, x j (f j) else 0) = (k + 1 : ℕ) * p i * isum (k + 1) (fun f => ∏ j, x j (f j)) := by
    have s1 : isum (k + 1) (fun f => ∏ j, x j (f j)) = (Λ ^ k)⁻¹ * isum (k + 1) (fun f => p (f 0) * ∏ j : Fin k, l (f j.succ)) := by
      rw [← isum_mul]
      exact isum_congr fun f _ => hprod f
    rw [s1, mul_left_comm, ← key, ← isum_mul]
    refine isum_congr fun f _ => ?_
    by_cases h : i ∈ Set.range f
    · rw [if_pos h, if_pos h, hprod]
    · rw [if_neg h, if_neg h, mul_zero]
  obtain ⟨a1, a2⟩ := isum_near x q δ hq hx hs hd (fun f => i ∈ Set.range f)
  obtain ⟨b1, b2⟩ := isum_near x q δ hq hx hs hd (fun _ => True)
  simp only [if_true] at b1 b2
  rw [X] at a1 a2
  have c0 : 0 ≤ (k + 1 : ℕ) * p i := mul_nonneg (Nat.cast_nonneg _) (hp0 i)
  have c1 := hp1 i
  generalize isum (k + 1) (fun f => if i ∈ Set.range f then ∏ j, q j (f j) else 0) = Qi at a1 a2 ⊢
  generalize isum (k + 1) (fun f => ∏ j, q j (f j)) = Q at b1 b2 ⊢
  generalize isum (k + 1) (fun f => ∏ j, x j (f j)) = X at a1 a2 b1 b2
  generalize ((k + 1 : ℕ) : K) * p i = c at a1 a2 c0 c1 ⊢
  generalize ((k + 1 : ℕ) : K) * δ = D at a2 b2 ⊢
  rw [abs_le]
  constructor <;> nlinarith [mul_nonneg c0 b1, mul_le_mul_of_nonneg_left b2 c0, mul_nonneg (sub_nonneg.2 c1) b1]

end near

/-- Blocks of words, one for each position. -/
theorem blocks_card {k : ℕ} (N : ℕ) (P : Fin (k + 1) → ℕ → Prop) [∀ j, DecidablePred (P j)] :
    ((Fintype.piFinset fun _ : Fin (k + 1) => range N).filter fun v : Fin (k + 1) → ℕ => ∀ j, P j (v j)).card = ∏ j, ((range N).filter (P j)).card := by
  rw [← Fintype.card_piFinset]
  congr 1
  ext v
  simp only [mem_filter, Fintype.mem_piFinset]
  exact ⟨fun h j => ⟨h.1 j, h.2 j⟩, fun h => ⟨fun j => (h j).1, fun j => (h j).2⟩⟩

/-- Their number by what they stand for. -/
theorem blocks_sum {k m : ℕ} (N : ℕ) (who : Fin (k + 1) → ℕ → Option ℕ) (hm : ∀ j v i, who j v = some i → i < m) (Q : (Fin (k + 1) → ℕ) → Prop) [DecidablePred Q]
    [DecidablePred fun v : Fin (k + 1) → ℕ => ∃ s : Fin (k + 1) → ℕ, Injective s ∧ Q s ∧ ∀ j, who j (v j) = some (s j)] :
    ((((Fintype.piFinset fun _ : Fin (k + 1) => range N).filter fun v : Fin (k + 1) → ℕ => ∃ s : Fin (k + 1) → ℕ, Injective s ∧ Q s ∧ ∀ j, who j (v j) = some (s j)).card : ℕ) : ℝ) =
      isum (k + 1) (fun f : Fin (k + 1) → Fin m => if Q (fun j => f j) then ∏ j, (((range N).filter fun v => who j v = some (f j : ℕ)).card : ℝ) else 0) := by
  classical
  have e : ((Fintype.piFinset fun _ : Fin (k + 1) => range N).filter fun v : Fin (k + 1) → ℕ => ∃ s : Fin (k + 1) → ℕ, Injective s ∧ Q s ∧ ∀ j, who j (v j) = some (s j)) =
      (univ.filter fun f : Fin (k + 1) → Fin m => Injective f ∧ Q (fun j => f j)).biUnion fun f =>
        (Fintype.piFinset fun _ : Fin (k + 1) => range N).filter fun v : Fin (k + 1) → ℕ => ∀ j, who j (v j) = some (f j : ℕ) := by
    ext v
    simp only [mem_filter, mem_biUnion, mem_univ, true_and]
    constructor
    · rintro ⟨h1, s, h2, h3, h4⟩
      refine ⟨fun j => ⟨s j, hm j _ _ (h4 j)⟩, ⟨fun a b hab => h2 (by simpa using hab), h3⟩, h1, h4⟩
    · rintro ⟨f, ⟨h1, h2⟩, h3, h4⟩
      exact ⟨h3, fun j => f j, fun a b hab => h1 (Fin.val_injective hab), h2, h4⟩
  rw [e, card_biUnion]
  · unfold isum
    rw [sum_filter, Nat.cast_sum]
    refine sum_congr rfl fun f _ => ?_
    dsimp only
    by_cases h1 : Injective f
    · by_cases h2 : Q (fun j => f j)
      · rw [if_pos ⟨h1, h2⟩, if_pos h1, if_pos h2, blocks_card N (fun j v => who j v = some (f j : ℕ)), Nat.cast_prod]
      · rw [if_neg (fun h => h2 h.2), if_pos h1, if_neg h2, Nat.cast_zero]
    · rw [if_neg (fun h => h1 h.1), if_neg h1, Nat.cast_zero]
  · intro f _ g _ hfg
    rw [Function.onFun, Finset.disjoint_left]
    intro v hv hv'
    simp only [mem_filter] at hv hv'
    apply hfg
    funext j
    have := (hv.2 j).symm.trans (hv'.2 j)
    exact Fin.val_injective (by simpa using this)

end Verif.MC
