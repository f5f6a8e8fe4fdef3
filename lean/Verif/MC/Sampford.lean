import Mathlib.Algebra.BigOperators.Fin
import Mathlib.Algebra.BigOperators.Ring.Finset
import Mathlib.Algebra.Field.Basic
import Mathlib.Data.Fin.Tuple.Basic
import Mathlib.Data.Fintype.Pi
import Mathlib.Data.Fintype.BigOperators
import Mathlib.Tactic.Ring
import Mathlib.Tactic.FieldSimp
import Mathlib.Tactic.LinearCombination
import Mathlib.Logic.Equiv.Fin.Basic

/-!
# Sampford's identity

The weight of a try with the indices `f 0, f 1, …` is `p (f 0)` times the ratios of the others; the tries without repetition that include a given member have together
`n` times its probability of the weight of all of them.
-/

namespace Verif.MC

open Finset Function

variable {K : Type*} [Field K] {ι : Type*} [Fintype ι] [DecidableEq ι]

/-- Sum over the sequences without repetition. -/
noncomputable def isum (k : ℕ) (F : (Fin k → ι) → K) : K := open Classical in ∑ f : Fin k → ι, if Injective f then F f else 0

theorem isum_congr {k : ℕ} {F G : (Fin k → ι) → K} (h : ∀ f, Injective f → F f = G f) : isum k F = isum k G := by
  classical
  unfold isum
  refine sum_congr rfl fun f _ => ?_
  by_cases hf : Injective f
  · rw [if_pos hf, if_pos hf, h f hf]
  · rw [if_neg hf, if_neg hf]

theorem isum_add {k : ℕ} (F G : (Fin k → ι) → K) : isum k (fun f => F f + G f) = isum k F + isum k G := by
  classical
  unfold isum
  rw [← sum_add_distrib]
  refine sum_congr rfl fun f _ => ?_
  by_cases hf : Injective f
  · simp [hf]
  · simp [hf]

theorem isum_mul {k : ℕ} (c : K) (F : (Fin k → ι) → K) : isum k (fun f => c * F f) = c * isum k F := by
  classical
  unfold isum
  rw [mul_sum]
  refine sum_congr rfl fun f _ => ?_
  by_cases hf : Injective f
  · simp [hf]
  · simp [hf]

theorem isum_sum {k : ℕ} {β : Type*} (s : Finset β) (F : β → (Fin k → ι) → K) : isum k (fun f => ∑ b ∈ s, F b f) = ∑ b ∈ s, isum k (F b) := by
  classical
  induction s using Finset.induction_on with
  | empty =>
    simp only [sum_empty]
    unfold isum
    simp
  | insert a s ha ih =>
    simp only [sum_insert ha, isum_add, ih]

/-- The sum does not change when the positions are permuted. -/
theorem isum_perm {k : ℕ} (σ : Equiv.Perm (Fin k)) (F : (Fin k → ι) → K) : isum k (fun f => F (f ∘ σ)) = isum k F := by
  classical
  unfold isum
  refine Fintype.sum_equiv (Equiv.arrowCongr σ.symm (Equiv.refl ι)) _ _ fun f => ?_
  have h1 : (Equiv.arrowCongr σ.symm (Equiv.refl ι)) f = f ∘ σ := rfl
  rw [h1]
  have h2 : Injective (f ∘ σ) ↔ Injective f := σ.injective_comp f
  by_cases hf : Injective f
  · rw [if_pos hf, if_pos (h2.2 hf)]
  · rw [if_neg hf, if_neg (fun h => hf (h2.1 h))]

/-- The first position split off. -/
theorem isum_cons {k : ℕ} (F : (Fin (k + 1) → ι) → K) :
    isum (k + 1) F = open Classical in ∑ j : ι, isum k (fun g => if j ∈ Set.range g then 0 else F (Fin.cons j g)) := by
  classical
  unfold isum
  rw [← Fintype.sum_prod_type']
  refine (Fintype.sum_equiv (Fin.consEquiv (fun _ => ι)) _ _ ?_).symm
  rintro ⟨j, g⟩
  have hce : (Fin.consEquiv fun _ => ι) (j, g) = Fin.cons j g := rfl
  simp only [hce]
  by_cases hg : Injective g
  · by_cases hj : j ∈ Set.range g
    · rw [if_pos hg, if_pos hj, if_neg]
      intro h
      exact (Fin.cons_injective_iff.1 h).1 hj
    · rw [if_pos hg, if_neg hj, if_pos (Fin.cons_injective_iff.2 ⟨hj, hg⟩)]
  · rw [if_neg hg, if_neg]
    intro h
    exact hg (Fin.cons_injective_iff.1 h).2

variable (p l : ι → K) (k : ℕ)

/-- A symmetric weight: any one of the positions may carry the factor. -/
theorem isum_sym (F : (Fin (k + 1) → ι) → K) (hF : ∀ (σ : Equiv.Perm (Fin (k + 1))) f, F (f ∘ σ) = F f) (q : ι → K) :
    isum (k + 1) (fun f => F f * ∑ j, q (f j)) = (k + 1 : ℕ) * isum (k + 1) (fun f => F f * q (f 0)) := by
  classical
  have h1 : ∀ j : Fin (k + 1), isum (k + 1) (fun f => F f * q (f j)) = isum (k + 1) (fun f => F f * q (f 0)) := by
    intro j
    rw [← isum_perm (Equiv.swap 0 j) (fun f => F f * q (f 0))]
    refine isum_congr fun f _ => ?_
    rw [hF, comp_apply, Equiv.swap_apply_left]
  simp only [mul_sum]
  rw [isum_sum, sum_congr rfl (fun j _ => h1 j), sum_const, card_univ, Fintype.card_fin, nsmul_eq_mul]

/-- **Sampford's identity.** -/
theorem sampford_identity (hp : ∑ j, p j = 1) (hl : ∀ j, p j = l j * (1 - (k + 1 : ℕ) * p j)) (i : ι) :
    isum (k + 1) (fun f => open Classical in if i ∈ Set.range f then p (f 0) * ∏ j : Fin k, l (f j.succ) else 0) =
      (k + 1 : ℕ) * p i * isum (k + 1) (fun f => p (f 0) * ∏ j : Fin k, l (f j.succ)) := by
  classical
  set n : K := ((k + 1 : ℕ) : K) with hn
  -- the symmetric weight
  set P : (Fin (k + 1) → ι) → K := fun f => ∏ j, l (f j) with hP
  have hPs : ∀ (σ : Equiv.Perm (Fin (k + 1))) f, P (f ∘ σ) = P f := by
    intro σ f
    simp only [hP, comp_apply]
    exact Equiv.prod_comp σ (fun j => l (f j))
  have hrs : ∀ (σ : Equiv.Perm (Fin (k + 1))) (f : Fin (k + 1) → ι), (i ∈ Set.range (f ∘ σ)) = (i ∈ Set.range f) := by
    intro σ f
    rw [EquivLike.range_comp]
  have hw : ∀ f : Fin (k + 1) → ι, p (f 0) * ∏ j : Fin k, l (f j.succ) = P f * (1 - n * p (f 0)) := by
    intro f
    simp only [hP]
    rw [Fin.prod_univ_succ]
    conv_lhs => rw [hl (f 0)]
    ring
  -- for a symmetric factor, the weight may be averaged over the positions
  have havg : ∀ I : (Fin (k + 1) → ι) → K, (∀ (σ : Equiv.Perm (Fin (k + 1))) f, I (f ∘ σ) = I f) →
      isum (k + 1) (fun f => I f * (p (f 0) * ∏ j : Fin k, l (f j.succ))) = isum (k + 1) (fun f => I f * (P f * (1 - ∑ j, p (f j)))) := by
    intro I hI
    have h1 := isum_sym k (fun f => I f * P f) (fun σ f => by rw [hI, hPs]) p
    have h2 : isum (k + 1) (fun f => I f * (p (f 0) * ∏ j : Fin k, l (f j.succ))) =
        isum (k + 1) (fun f => I f * P f) + (-n) * isum (k + 1) (fun f => I f * P f * p (f 0)) := by
      rw [← isum_mul, ← isum_add]
      refine isum_congr fun f _ => ?_
      rw [hw]; ring
    have h3 : isum (k + 1) (fun f => I f * (P f * (1 - ∑ j, p (f j)))) =
        isum (k + 1) (fun f => I f * P f) + (-1) * isum (k + 1) (fun f => I f * P f * ∑ j, p (f j)) := by
      rw [← isum_mul, ← isum_add]
      refine isum_congr fun f _ => ?_
      ring
    rw [h2, h3, h1]
    ring
  set B := isum (k + 1) (fun f => P f * (1 - ∑ j, p (f j))) with hB
  set D := isum (k + 1) (fun f => if i ∈ Set.range f then P f * (1 - ∑ j, p (f j)) else 0) with hD
  set A := isum (k + 1) (fun f => if f 0 = i then P f * (1 - ∑ j, p (f j)) else 0) with hA
  -- all of them
  have e1 : isum (k + 1) (fun f => p (f 0) * ∏ j : Fin k, l (f j.succ)) = B := by
    have := havg (fun _ => 1) (fun _ _ => rfl)
    simpa using this
  -- those with the member
  have e2 : isum (k + 1) (fun f => if i ∈ Set.range f then p (f 0) * ∏ j : Fin k, l (f j.succ) else 0) = D := by
    have := havg (fun f => if i ∈ Set.range f then 1 else 0) (fun σ f => by simp only [hrs])
    simp only [ite_mul, one_mul, zero_mul] at this
    rw [hD, ← this]
  -- the member may be at any position
  have e3 : D = n * A := by
    have hS : ∀ (σ : Equiv.Perm (Fin (k + 1))) (f : Fin (k + 1) → ι), P (f ∘ σ) * (1 - ∑ j, p ((f ∘ σ) j)) = P f * (1 - ∑ j, p (f j)) := by
      intro σ f
      rw [hPs]
      simp only [comp_apply]
      rw [Equiv.sum_comp σ (fun j => p (f j))]
    have h1 := isum_sym k (fun f => P f * (1 - ∑ j, p (f j))) hS (fun j => if j = i then (1 : K) else 0)
    have h2 : D = isum (k + 1) (fun f => P f * (1 - ∑ j, p (f j)) * ∑ j, if f j = i then (1 : K) else 0) := by
      refine isum_congr fun f hf => ?_
      by_cases hr : i ∈ Set.range f
      · obtain ⟨j, hj⟩ := hr
        rw [if_pos ⟨j, hj⟩]
        have h3 : (∑ j, if f j = i then (1 : K) else 0) = 1 := by
          rw [sum_eq_single j, if_pos hj]
          · intro b _ hb
            rw [if_neg]
            intro hb'
            exact hb (hf (hb'.trans hj.symm))
          · simp
        rw [h3, mul_one]
      · rw [if_neg hr]
        have h3 : (∑ j, if f j = i then (1 : K) else 0) = 0 := by
          rw [sum_eq_zero]
          intro j _
          rw [if_neg]
          rintro hj
          exact hr ⟨j, hj⟩
        rw [h3, mul_zero]
    rw [h2, h1]
    congr 1
    refine isum_congr fun f _ => ?_
    by_cases h : f 0 = i <;> simp [h]
  -- the member first
  have e4 : A = l i * (B - D) := by
    -- complement
    have hc : B - D = isum (k + 1) (fun f => if i ∈ Set.range f then 0 else p (f 0) * ∏ j : Fin k, l (f j.succ)) := by
      have h1 := havg (fun f => if i ∈ Set.range f then 0 else 1) (fun σ f => by simp only [hrs])
      have h2 : isum (k + 1) (fun f => if i ∈ Set.range f then 0 else p (f 0) * ∏ j : Fin k, l (f j.succ)) =
          isum (k + 1) (fun f => (if i ∈ Set.range f then 0 else 1) * (P f * (1 - ∑ j, p (f j)))) := by
        rw [← h1]
        refine isum_congr fun f _ => ?_
        by_cases h : i ∈ Set.range f <;> simp [h]
      rw [h2, sub_eq_iff_eq_add, hB, hD, ← isum_add]
      refine isum_congr fun f _ => ?_
      by_cases h : i ∈ Set.range f <;> simp [h]
    rw [hc, hA, isum_cons, isum_cons]
    rw [sum_eq_single i]
    · -- sum over the sequences of the others
      rw [← isum_sum, ← isum_mul]
      refine isum_congr fun g hg => ?_
      by_cases hr : i ∈ Set.range g
      · rw [if_pos hr, sum_eq_zero, mul_zero]
        intro j _
        by_cases hj : j ∈ Set.range g
        · rw [if_pos hj]
        · rw [if_neg hj, if_pos]
          obtain ⟨a, ha⟩ := hr
          exact ⟨a.succ, by rw [Fin.cons_succ, ha]⟩
      · rw [if_neg hr]
        simp only [Fin.cons_zero, if_true]
        have h1 : ∀ j : ι, (if j ∈ Set.range g then (0 : K) else if i ∈ Set.range (Fin.cons j g : Fin (k + 1) → ι) then 0 else p j * ∏ a : Fin k, l ((Fin.cons j g : Fin (k + 1) → ι) a.succ)) =
            (p j - (if j ∈ Set.range g then p j else 0) - if j = i then p j else 0) * ∏ a : Fin k, l (g a) := by
          intro j
          simp only [Fin.cons_succ]
          by_cases hj : j ∈ Set.range g
          · have hji : j ≠ i := by rintro rfl; exact hr hj
            rw [if_pos hj, if_pos hj, if_neg hji]; ring
          · rw [if_neg hj, if_neg hj]
            by_cases hji : j = i
            · subst hji
              rw [if_pos ⟨0, by rw [Fin.cons_zero]⟩, if_pos rfl]; ring
            · rw [if_neg hji, if_neg]
              · ring
              · rintro ⟨a, ha⟩
                refine Fin.cases ?_ ?_ a ha
                · intro h; rw [Fin.cons_zero] at h; exact hji h
                · intro b h; rw [Fin.cons_succ] at h; exact hr ⟨b, h⟩
        rw [sum_congr rfl (fun j _ => h1 j), ← sum_mul, sum_sub_distrib, sum_sub_distrib, hp]
        have h2 : ∑ j, (if j ∈ Set.range g then p j else 0) = ∑ a, p (g a) := by
          rw [← sum_filter]
          have : (univ.filter fun j => j ∈ Set.range g) = univ.image g := by
            ext j; simp
          rw [this, sum_image (fun a _ b _ h => hg h)]
        rw [h2, sum_ite_eq' univ i p, if_pos (mem_univ i)]
        simp only [hP]
        rw [Fin.prod_univ_succ, Fin.sum_univ_succ]
        simp only [Fin.cons_zero, Fin.cons_succ]
        ring
    · intro j _ hj
      rw [isum, sum_eq_zero]
      intro g _
      by_cases hg : Injective g
      · rw [if_pos hg]
        simp [hj]
      · rw [if_neg hg]
    · simp
  rw [e2, e1, e3]
  rw [e3] at e4
  have e5 : A = p i * B := by
    have h1 : A * (1 - n * p i) = l i * (1 - n * p i) * (B - n * A) := by rw [← sub_eq_zero]; linear_combination (1 - n * p i) * e4
    rw [← hl i] at h1
    linear_combination h1
  rw [e5]
  ring

end Verif.MC
