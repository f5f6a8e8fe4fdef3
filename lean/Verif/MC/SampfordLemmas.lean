import Verif.MC.Sampford
import Verif.MC.PopFacts
import Mathlib.MeasureTheory.Constructions.UnitInterval
import Mathlib.MeasureTheory.Constructions.Pi

/-! # Sampford's method with exact draws: lemmas -/

set_option linter.unusedSectionVars false
set_option linter.unusedSimpArgs false

namespace Verif.MC

open MeasureTheory Set

/-! ## One draw -/

section cum

variable {K : Type*} [Field K] [LinearOrder K] [IsStrictOrderedRing K]

theorem cumFrom_getElem (a : K) (l : List K) (i : ℕ) (h : i < (cumFrom (· + ·) a l).length) : (cumFrom (· + ·) a l)[i] = a + (l.take (i + 1)).sum := by
  induction l generalizing a i with
  | nil => simp [cumFrom] at h
  | cons x l ih =>
    cases i with
    | zero => simp [cumFrom]
    | succ i =>
      simp only [cumFrom, List.getElem_cons_succ]
      rw [ih]
      simp [add_assoc]

theorem take_sum_mono (l : List K) (hl : ∀ x ∈ l, 0 ≤ x) (i j : ℕ) (h : i ≤ j) : (l.take i).sum ≤ (l.take j).sum := by
  induction l generalizing i j with
  | nil => simp
  | cons x l ih =>
    cases i with
    | zero =>
      simp only [List.take_zero, List.sum_nil]
      exact List.sum_nonneg (fun y hy => hl y (List.mem_of_mem_take hy))
    | succ i =>
      cases j with
      | zero => omega
      | succ j =>
        simp only [List.take_succ_cons, List.sum_cons]
        have := ih (fun y hy => hl y (List.mem_cons_of_mem _ hy)) i j (by omega)
        linarith

theorem take_sum_succ (l : List K) (i : ℕ) (h : i < l.length) : (l.take (i + 1)).sum = (l.take i).sum + l[i] := by
  rw [List.take_add_one, List.sum_append, List.getElem?_eq_getElem h]
  simp

/-- The index looked up is at most `j` exactly if the value is at most the `j`-th cumulative sum. -/
theorem look_le (l : List K) (hl : ∀ x ∈ l, 0 ≤ x) (v : K) (j : ℕ) (hj : j < l.length) :
    (cumFrom (· + ·) 0 l).findIdx (fun c => v ≤ c) ≤ j ↔ v ≤ (l.take (j + 1)).sum := by
  have hlen : j < (cumFrom (· + ·) 0 l).length := by rw [cumFrom_length]; exact hj
  constructor
  · intro h
    have h1 : (cumFrom (· + ·) 0 l).findIdx (fun c => decide (v ≤ c)) < (cumFrom (· + ·) 0 l).length := by omega
    have h2 := List.findIdx_getElem (xs := cumFrom (· + ·) 0 l) (p := fun c => decide (v ≤ c)) (w := h1)
    rw [decide_eq_true_eq, cumFrom_getElem, zero_add] at h2
    exact h2.trans (take_sum_mono l hl _ _ (by omega))
  · intro h
    by_contra hc
    have := List.not_of_lt_findIdx (xs := cumFrom (· + ·) 0 l) (p := fun c => decide (v ≤ c)) (i := j) (by omega)
    rw [cumFrom_getElem, zero_add] at this
    simp at this
    exact absurd h (not_le.2 this)

end cum

/-- The index drawn by a number of the unit interval. -/
noncomputable def drawIdx (l : List ℝ) (t u : ℝ) : ℕ := (cumFrom (· + ·) 0 l).findIdx (fun c => t * u ≤ c)

theorem drawIdx_lt (l : List ℝ) (hl : ∀ x ∈ l, 0 ≤ x) (ht : 0 < l.sum) (u : unitInterval) : drawIdx l l.sum u < l.length := by
  have hne : 0 < l.length := by
    cases l with
    | nil => simp at ht
    | cons a l => simp
  have := (look_le l hl (l.sum * u) (l.length - 1) (by omega)).2 (by
    rw [show l.length - 1 + 1 = l.length by omega, List.take_length]
    have := u.2.2
    nlinarith)
  unfold drawIdx
  omega

/-- The numbers that draw index `i` form an interval with the length of the probability. -/
theorem draw_volume (l : List ℝ) (hl : ∀ x ∈ l, 0 ≤ x) (ht : 0 < l.sum) (i : ℕ) (hi : i < l.length) :
    MeasurableSet {u : unitInterval | drawIdx l l.sum u = i} ∧ volume {u : unitInterval | drawIdx l l.sum u = i} = ENNReal.ofReal (l[i] / l.sum) := by
  have hmem : ∀ j, (l.take j).sum / l.sum ∈ unitInterval := by
    intro j
    have h0 : 0 ≤ (l.take j).sum := by simpa using take_sum_mono l hl 0 j (by omega)
    have h1 : (l.take j).sum ≤ l.sum := by
      rcases le_or_gt j l.length with h | h
      · have := take_sum_mono l hl j l.length h
        rwa [List.take_length] at this
      · rw [List.take_of_length_le h.le]
    exact ⟨div_nonneg h0 ht.le, (div_le_one ht).2 h1⟩
  have hle : ∀ (u : unitInterval) j, j < l.length → (drawIdx l l.sum u ≤ j ↔ u ≤ ⟨(l.take (j + 1)).sum / l.sum, hmem _⟩) := by
    intro u j hj
    unfold drawIdx
    rw [look_le l hl _ j hj, ← Subtype.coe_le_coe, le_div_iff₀ ht, mul_comm]
  cases i with
  | zero =>
    have hs : {u : unitInterval | drawIdx l l.sum u = 0} = Iic ⟨(l.take 1).sum / l.sum, hmem _⟩ := by
      ext u
      rw [mem_ofPred_eq, mem_Iic, ← hle u 0 hi]
      omega
    rw [hs]
    refine ⟨measurableSet_Iic, ?_⟩
    rw [unitInterval.volume_Iic]
    have := take_sum_succ l 0 hi
    simp only [zero_add, List.take_zero, List.sum_nil] at this
    dsimp only
    rw [this]
  | succ i =>
    have hs : {u : unitInterval | drawIdx l l.sum u = i + 1} = Ioc ⟨(l.take (i + 1)).sum / l.sum, hmem _⟩ ⟨(l.take (i + 2)).sum / l.sum, hmem _⟩ := by
      ext u
      rw [mem_ofPred_eq, mem_Ioc, ← hle u (i + 1) hi, ← not_le, ← hle u i (by omega)]
      omega
    rw [hs]
    refine ⟨measurableSet_Ioc, ?_⟩
    rw [unitInterval.volume_Ioc]
    congr 1
    have := take_sum_succ l (i + 1) hi
    dsimp only
    rw [← sub_div, this]
    ring

/-! ## One try -/

section try1

variable {m k : ℕ} (idx : Fin (k + 1) → unitInterval → ℕ) (q : Fin (k + 1) → Fin m → ℝ)

/-- Sequences of indices drawn without repetition, and their weights. -/
theorem try_volume (hq : ∀ j i, 0 ≤ q j i)
    (hv : ∀ j (i : Fin m), MeasurableSet {u | idx j u = i} ∧ volume {u | idx j u = i} = ENNReal.ofReal (q j i)) (Q : (Fin (k + 1) → Fin m) → Prop) :
    MeasurableSet {u : Fin (k + 1) → unitInterval | ∃ f : Fin (k + 1) → Fin m, Function.Injective f ∧ Q f ∧ ∀ j, idx j (u j) = f j} ∧
    volume {u : Fin (k + 1) → unitInterval | ∃ f : Fin (k + 1) → Fin m, Function.Injective f ∧ Q f ∧ ∀ j, idx j (u j) = f j} =
      ENNReal.ofReal (isum (k + 1) fun f => open Classical in if Q f then ∏ j, q j (f j) else 0) := by
  classical
  set E : (Fin (k + 1) → Fin m) → Set (Fin (k + 1) → unitInterval) := fun f => Set.pi univ (fun j => {x | idx j x = f j}) with hE
  have hset : {u : Fin (k + 1) → unitInterval | ∃ f : Fin (k + 1) → Fin m, Function.Injective f ∧ Q f ∧ ∀ j, idx j (u j) = f j} =
      ⋃ f ∈ (Finset.univ.filter fun f : Fin (k + 1) → Fin m => Function.Injective f ∧ Q f), E f := by
    ext u
    simp only [mem_ofPred_eq, mem_iUnion, Finset.mem_filter, Finset.mem_univ, true_and, hE, mem_univ_pi, exists_prop]
    constructor
    · rintro ⟨f, h1, h2, h3⟩; exact ⟨f, ⟨h1, h2⟩, h3⟩
    · rintro ⟨f, ⟨h1, h2⟩, h3⟩; exact ⟨f, h1, h2, h3⟩
  have hm : ∀ f, MeasurableSet (E f) := fun f => MeasurableSet.univ_pi (fun j => (hv j (f j)).1)
  rw [hset]
  refine ⟨Finset.measurableSet_biUnion _ (fun f _ => hm f), ?_⟩
  rw [measure_biUnion_finset ?_ (fun f _ => hm f)]
  · have hvol : ∀ f, volume (E f) = ENNReal.ofReal (∏ j, q j (f j)) := by
      intro f
      rw [hE]
      dsimp only
      rw [volume_pi_pi, Finset.prod_congr rfl (fun j _ => (hv j (f j)).2), ENNReal.ofReal_prod_of_nonneg (fun j _ => hq j (f j))]
    rw [Finset.sum_congr rfl (fun f _ => hvol f), ← ENNReal.ofReal_sum_of_nonneg (fun f _ => Finset.prod_nonneg (fun j _ => hq j (f j)))]
    congr 1
    unfold isum
    rw [Finset.sum_filter]
    refine Finset.sum_congr rfl (fun f _ => ?_)
    by_cases h1 : Function.Injective f <;> by_cases h2 : Q f <;> simp [h1, h2]
  · intro f _ g _ hfg
    rw [Function.onFun, Set.disjoint_left]
    intro u hu hu'
    apply hfg
    funext j
    simp only [hE, mem_univ_pi, mem_ofPred_eq] at hu hu'
    have := (hu j).symm.trans (hu' j)
    exact Fin.val_injective this

end try1

/-! ## Repeated tries -/

/-- The first try that is not rejected has a property: its probability within `T` tries. -/
theorem tries_volume {Ω : Type*} [MeasureSpace Ω] [IsProbabilityMeasure (volume : Measure Ω)] (T : ℕ) (A B : Set Ω) (hA : MeasurableSet A) (hB : MeasurableSet B)
    (hBA : B ⊆ A) :
    volume {ω : Fin T → Ω | ∃ j, ω j ∈ B ∧ ∀ j' < j, ω j' ∉ A} = (∑ j ∈ Finset.range T, (volume Aᶜ) ^ j) * volume B := by
  classical
  set R : Fin T → Set (Fin T → Ω) := fun j => Set.pi univ (fun j' => if j' < j then Aᶜ else if j' = j then B else univ) with hR
  have hset : {ω : Fin T → Ω | ∃ j, ω j ∈ B ∧ ∀ j' < j, ω j' ∉ A} = ⋃ j ∈ (Finset.univ : Finset (Fin T)), R j := by
    ext ω
    simp only [mem_ofPred_eq, Finset.mem_univ, iUnion_true, mem_iUnion, hR, mem_univ_pi]
    refine exists_congr fun j => ?_
    constructor
    · rintro ⟨h1, h2⟩ j'
      rcases lt_trichotomy j' j with h | h | h
      · rw [if_pos h]; exact h2 j' h
      · subst h; simp [h1]
      · rw [if_neg (by omega), if_neg (by omega)]; trivial
    · intro h
      refine ⟨by simpa using h j, fun j' hj' => ?_⟩
      have := h j'
      rw [if_pos hj'] at this
      exact this
  have hm : ∀ j, MeasurableSet (R j) := by
    intro j
    refine MeasurableSet.univ_pi (fun j' => ?_)
    split_ifs
    · exact hA.compl
    · exact hB
    · exact MeasurableSet.univ
  rw [hset, measure_biUnion_finset ?_ (fun j _ => hm j)]
  · have hv : ∀ j : Fin T, volume (R j) = (volume Aᶜ) ^ (j : ℕ) * volume B := by
      intro j
      rw [hR]
      dsimp only
      rw [volume_pi_pi]
      have hsplit : ∀ j' : Fin T, volume (if j' < j then Aᶜ else if j' = j then B else univ) = (if j' < j then volume Aᶜ else 1) * (if j' = j then volume B else 1) := by
        intro j'
        rcases lt_trichotomy j' j with h | h | h
        · rw [if_pos h, if_pos h, if_neg (by omega), mul_one]
        · subst h; simp
        · rw [if_neg (by omega), if_neg (by omega), if_neg (by omega), if_neg (by omega), measure_univ, mul_one]
      rw [Finset.prod_congr rfl (fun j' _ => hsplit j'), Finset.prod_mul_distrib, Finset.prod_ite_eq' Finset.univ j, if_pos (Finset.mem_univ j)]
      congr 1
      rw [← Finset.prod_filter, Finset.prod_const]
      congr 1
      have hf : (Finset.univ.filter fun j' : Fin T => j' < j) = Finset.Iio j := by ext j'; simp
      rw [hf, Fin.card_Iio]
    rw [Finset.sum_congr rfl (fun j _ => hv j), ← Finset.sum_mul, Finset.sum_range]
  · intro j _ j' _ hjj
    rw [Function.onFun, Set.disjoint_left]
    intro ω h1 h2
    simp only [hR, mem_univ_pi] at h1 h2
    rcases lt_or_gt_of_ne hjj with h | h
    · have ha := h1 j
      have hb := h2 j
      rw [if_neg (by omega), if_pos rfl] at ha
      rw [if_pos h] at hb
      exact hb (hBA ha)
    · have ha := h2 j'
      have hb := h1 j'
      rw [if_neg (by omega), if_pos rfl] at ha
      rw [if_pos h] at hb
      exact hb (hBA ha)

end Verif.MC
