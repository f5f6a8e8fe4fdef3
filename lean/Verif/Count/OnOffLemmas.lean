import Verif.Count.OnOff
import Mathlib.Algebra.BigOperators.Intervals
import Mathlib.Algebra.BigOperators.Field
import Mathlib.Algebra.Order.BigOperators.Group.Finset
import Mathlib.Data.Nat.Factorial.Basic
import Mathlib.Data.Nat.Cast.Field
import Mathlib.Tactic.Linarith
import Mathlib.Tactic.FieldSimp
import Mathlib.Tactic.Ring

/-! # Lemmas about counting with a background -/

set_option linter.unusedSectionVars false
set_option linter.unusedSimpArgs false

namespace Verif.OnOff

open Finset

/-! ## Specification -/

/-- The probability that `i` of the `non` counts are from the signal, up to a factor: `ρ^i (non + noff - i)! / (non - i)!`. -/
noncomputable def wgt (ρ : ℝ) (non noff i : ℕ) : ℝ := ρ ^ i * (non + noff - i).factorial / (non - i).factorial

/-- Term `k` of the series for the marginal likelihood: `x^k (non - k + noff)! / ((non - k)! k!)`. -/
noncomputable def trm (x : ℝ) (non noff k : ℕ) : ℝ := x ^ k * (non - k + noff).factorial / ((non - k).factorial * k.factorial)

/-! ## Signal count probabilities -/

theorem wgt_pos {ρ : ℝ} (h : 0 < ρ) (non noff i : ℕ) : 0 < wgt ρ non noff i := by unfold wgt; positivity

theorem wgt_step {ρ : ℝ} (h : 0 < ρ) (non noff i : ℕ) (hi : i < non) :
    wgt ρ non noff (i + 1) * (non + noff - i) = wgt ρ non noff i * ρ * (non - i) := by
  obtain ⟨m, rfl⟩ : ∃ m, non = i + 1 + m := ⟨non - i - 1, by omega⟩
  have e1 : i + 1 + m + noff - (i + 1) = m + noff := by omega
  have e2 : i + 1 + m - (i + 1) = m := by omega
  have e3 : i + 1 + m + noff - i = m + noff + 1 := by omega
  have e4 : i + 1 + m - i = m + 1 := by omega
  simp only [wgt, e1, e2, e3, e4, Nat.factorial_succ]
  push_cast
  have a : (m.factorial : ℝ) ≠ 0 := by positivity
  have b : (m : ℝ) + 1 ≠ 0 := by positivity
  have c : (i : ℝ) + 1 + m - i = m + 1 := by ring
  have d : (i : ℝ) + 1 + m + noff - i = m + noff + 1 := by ring
  rw [c, d]
  field_simp
  ring

theorem downC_spec {ρ : ℝ} (h : 0 < ρ) (non noff : ℕ) (A : ℝ) : ∀ (k : ℕ) (c : ℕ → ℝ) (sum : ℝ), k ≤ non → c k = A * wgt ρ non noff k →
    (∀ i, (downC ρ (non + noff) non k (c, sum)).1 i = if i < k then A * wgt ρ non noff i else c i) ∧
    (downC ρ (non + noff) non k (c, sum)).2 = sum + A * ∑ i ∈ range k, wgt ρ non noff i := by
  intro k
  induction k with
  | zero => intro c sum _ _; simp [downC]
  | succ k ih =>
    intro c sum hk hc
    simp only [downC]
    have hki : k < non := by omega
    have hv : c (k + 1) * (((non : ℝ) + noff - k) / (non - k) / ρ) = A * wgt ρ non noff k := by
      rw [hc]
      have hs := wgt_step h non noff k hki
      have hne : (non : ℝ) - k ≠ 0 := by
        have : (k : ℝ) < non := by exact_mod_cast hki
        linarith
      field_simp
      linear_combination A * hs
    rw [hv]
    obtain ⟨h1, h2⟩ := ih (Function.update c k (A * wgt ρ non noff k)) (sum + A * wgt ρ non noff k) (by omega) (by simp)
    refine ⟨fun i => ?_, ?_⟩
    · rw [h1 i]
      rcases Nat.lt_trichotomy i k with hlt | heq | hgt
      · rw [if_pos hlt, if_pos (by omega)]
      · subst heq; simp
      · rw [if_neg (by omega), if_neg (by omega), Function.update_of_ne (by omega)]
    · rw [h2, sum_range_succ]; ring

theorem upC_spec {ρ : ℝ} (h : 0 < ρ) (non noff : ℕ) (A : ℝ) : ∀ (r i : ℕ) (c : ℕ → ℝ) (sum : ℝ), 0 < i → i + r = non + 1 → c (i - 1) = A * wgt ρ non noff (i - 1) →
    (∀ j, (upC ρ (non + noff) non r i (c, sum)).1 j = if i ≤ j ∧ j ≤ non then A * wgt ρ non noff j else c j) ∧
    (upC ρ (non + noff) non r i (c, sum)).2 = sum + A * ∑ j ∈ Ico i (non + 1), wgt ρ non noff j := by
  intro r
  induction r with
  | zero =>
    intro i c sum hi hr hc
    have : Ico i (non + 1) = ∅ := by rw [Ico_eq_empty_iff]; omega
    refine ⟨fun j => ?_, ?_⟩
    · rw [if_neg (by omega)]; rfl
    · rw [this]; simp [upC]
  | succ r ih =>
    intro i c sum hi hr hc
    simp only [upC]
    obtain ⟨k, rfl⟩ : ∃ k, i = k + 1 := ⟨i - 1, by omega⟩
    simp only [Nat.add_sub_cancel] at hc ⊢
    have hki : k < non := by omega
    have hv : c k * (ρ * (((non : ℝ) - (k + 1 : ℕ) + 1) / ((non : ℝ) + noff - (k + 1 : ℕ) + 1))) = A * wgt ρ non noff (k + 1) := by
      rw [hc]
      have hs := wgt_step h non noff k hki
      have hne : (non : ℝ) + noff - k ≠ 0 := by
        have : (k : ℝ) < non := by exact_mod_cast hki
        have : (0 : ℝ) ≤ noff := by positivity
        linarith
      push_cast
      have e1 : (non : ℝ) - (k + 1) + 1 = non - k := by ring
      have e2 : (non : ℝ) + noff - (k + 1) + 1 = non + noff - k := by ring
      rw [e1, e2]
      field_simp
      linear_combination (-A) * hs
    rw [hv]
    obtain ⟨h1, h2⟩ := ih (k + 1 + 1) (Function.update c (k + 1) (A * wgt ρ non noff (k + 1))) (sum + A * wgt ρ non noff (k + 1)) (by omega) (by omega) (by simp)
    refine ⟨fun j => ?_, ?_⟩
    · rw [h1 j]
      rcases Nat.lt_trichotomy j (k + 1) with hlt | heq | hgt
      · rw [if_neg (by omega), if_neg (by omega), Function.update_of_ne (by omega)]
      · subst heq; rw [if_neg (by omega), if_pos (by omega)]; simp
      · by_cases hj : j ≤ non
        · rw [if_pos (by omega), if_pos (by omega)]
        · rw [if_neg (by omega), if_neg (by omega), Function.update_of_ne (by omega)]
    · rw [h2, Finset.sum_eq_sum_Ico_succ_bot (show k + 1 < non + 1 by omega)]; ring

theorem coeffsFrom_eq {ton toff : ℝ} (h1 : 0 < ton) (h2 : 0 < toff) (non noff mode : ℕ) (hm : mode ≤ non) :
    coeffsFrom mode non ton noff toff = (List.range (non + 1)).map fun i =>
      wgt (1 + toff / ton) non noff i / ∑ j ∈ range (non + 1), wgt (1 + toff / ton) non noff j := by
  have hρ : 0 < 1 + toff / ton := by positivity
  set ρ := 1 + toff / ton with hρd
  unfold coeffsFrom
  dsimp only
  rw [← hρd]
  set A := (wgt ρ non noff mode)⁻¹ with hA
  have hw : wgt ρ non noff mode ≠ 0 := (wgt_pos hρ _ _ _).ne'
  have hAw : A * wgt ρ non noff mode = 1 := inv_mul_cancel₀ hw
  obtain ⟨d1, d2⟩ := downC_spec hρ non noff A mode (Function.update (fun _ => 0) mode 1) 1 hm (by rw [hAw]; simp)
  rcases hst : downC ρ (non + noff) non mode (Function.update (fun _ => 0) mode 1, 1) with ⟨c, sum⟩
  rw [hst] at d1 d2
  dsimp only at d1 d2
  obtain ⟨u1, u2⟩ := upC_spec hρ non noff A (non - mode) (mode + 1) c sum (by omega) (by omega) (by
    rw [Nat.add_sub_cancel, d1 mode, if_neg (by omega), hAw]; simp)
  have hall : ∀ i, i ≤ non → (upC ρ (non + noff) non (non - mode) (mode + 1) (c, sum)).1 i = A * wgt ρ non noff i := by
    intro i hi
    rw [u1 i]
    rcases Nat.lt_trichotomy i mode with hlt | heq | hgt
    · rw [if_neg (by omega), d1 i, if_pos hlt]
    · subst heq; rw [if_neg (by omega), d1 i, if_neg (by omega), hAw]; simp
    · rw [if_pos (by omega)]
  have hsum : (upC ρ (non + noff) non (non - mode) (mode + 1) (c, sum)).2 = A * ∑ j ∈ range (non + 1), wgt ρ non noff j := by
    rw [u2, d2]
    have e1 : ∑ j ∈ range (non + 1), wgt ρ non noff j = ∑ j ∈ range mode, wgt ρ non noff j + wgt ρ non noff mode +
        ∑ j ∈ Ico (mode + 1) (non + 1), wgt ρ non noff j := by
      rw [← sum_range_succ, sum_range_add_sum_Ico _ (by omega)]
    rw [e1]
    linear_combination -hAw
  have hA0 : A ≠ 0 := inv_ne_zero hw
  apply List.map_congr_left
  intro i hi
  rw [List.mem_range] at hi
  rw [hall i (by omega), hsum, mul_div_mul_left _ _ hA0]

theorem startIdx_le (non : ℕ) (ton : ℝ) (noff : ℕ) (toff : ℝ) : startIdx non ton noff toff ≤ non := by
  unfold startIdx; omega

/-! ## Poisson probabilities -/

/-- The table holds factorials as far as it is filled. -/
def Table.Good (t : Table) : Prop := t.ntop ≤ 32 ∧ ∀ n ≤ t.ntop, t.a n = n.factorial

theorem extend_spec : ∀ (r j : ℕ) (a : ℕ → ℝ), 0 < j → (∀ n < j, a n = n.factorial) →
    ∀ n < j + r, extend r j a n = n.factorial := by
  intro r
  induction r with
  | zero => intro j a _ h n hn; exact h n hn
  | succ r ih =>
    intro j a hj h n hn
    simp only [extend]
    refine ih (j + 1) _ (by omega) ?_ n (by omega)
    intro m hm
    by_cases hmj : m = j
    · subst hmj
      obtain ⟨k, rfl⟩ : ∃ k, m = k + 1 := ⟨m - 1, by omega⟩
      simp only [Function.update_self, Nat.add_sub_cancel]
      rw [h k (by omega), Nat.factorial_succ]; push_cast; ring
    · rw [Function.update_of_ne hmj]; exact h m (by omega)

theorem extend2_fst : ∀ (r j : ℕ) (a b : ℕ → ℝ), (extend2 r j (a, b)).1 = extend r j a := by
  intro r
  induction r with
  | zero => intro j a b; rfl
  | succ r ih => intro j a b; simp only [extend2, extend]; exact ih _ _ _

theorem extend2_snd : ∀ (r j : ℕ) (a b : ℕ → ℝ), 0 < j → (∀ n < j, a n = n.factorial) →
    ∀ n, (extend2 r j (a, b)).2 n = if j ≤ n ∧ n < j + r then Real.log n.factorial else b n := by
  intro r
  induction r with
  | zero => intro j a b _ _ n; rw [if_neg (by omega)]; rfl
  | succ r ih =>
    intro j a b hj h n
    simp only [extend2]
    have hv : (j : ℝ) * a (j - 1) = j.factorial := by
      obtain ⟨k, rfl⟩ : ∃ k, j = k + 1 := ⟨j - 1, by omega⟩
      simp only [Nat.add_sub_cancel]
      rw [h k (by omega), Nat.factorial_succ]; push_cast; ring
    rw [hv, ih (j + 1) _ _ (by omega) ?_ n]
    · by_cases h1 : n = j
      · subst h1; rw [if_neg (by omega), if_pos (by omega)]; simp
      · by_cases h2 : j + 1 ≤ n ∧ n < j + 1 + r
        · rw [if_pos h2, if_pos (by omega)]
        · rw [if_neg h2, if_neg (by omega), Function.update_of_ne h1]
    · intro m hm
      by_cases hmj : m = j
      · subst hmj; simp
      · rw [Function.update_of_ne hmj]; exact h m (by omega)

theorem init_good (junk : ℕ → ℝ) : (Table.init junk).Good := by
  refine ⟨by simp [Table.init], fun n hn => ?_⟩
  simp only [Table.init, Nat.le_zero] at hn
  subst hn; simp [Table.init]

theorem ppois_good {g : ℝ → ℝ} {t : Table} (h : t.Good) (n : ℕ) (dm : ℝ) : (ppois g t n dm).1.Good := by
  unfold ppois
  by_cases h1 : dm = 0
  · rw [if_pos h1]; exact h
  rw [if_neg h1]
  by_cases h2 : n ≤ t.ntop
  · rw [if_pos h2]; exact h
  rw [if_neg h2]
  by_cases h3 : n ≤ 32
  · rw [if_pos h3]
    refine ⟨h3, fun m hm => ?_⟩
    exact extend_spec _ _ _ (by omega) (fun k hk => h.2 k (by omega)) m (by simp only at hm; omega)
  · rw [if_neg h3]; exact h

theorem ppois_val {g : ℝ → ℝ} {t : Table} (h : t.Good) (n : ℕ) (dm : ℝ) :
    (ppois g t n dm).2 = if n ≤ 32 ∨ dm = 0 then dm ^ n * Real.exp (-dm) / n.factorial else Real.exp (n * Real.log dm - dm - g (n + 1)) := by
  unfold ppois
  by_cases h1 : dm = 0
  · rw [if_pos h1, if_pos (Or.inr h1)]
    subst h1
    by_cases h2 : n = 0
    · subst h2; simp
    · simp [h2]
  rw [if_neg h1]
  by_cases h2 : n ≤ t.ntop
  · rw [if_pos h2, if_pos (Or.inl (by have := h.1; omega)), h.2 n h2]
  rw [if_neg h2]
  by_cases h3 : n ≤ 32
  · have := extend_spec (n - t.ntop) (t.ntop + 1) t.a (by omega) (fun k hk => h.2 k (by omega)) n (by omega)
    rw [if_pos h3, if_pos (Or.inl h3)]
    dsimp only
    rw [this]
  · rw [if_neg h3, if_neg (by tauto)]

/-! ## The series -/

theorem trm_pos {x : ℝ} (h : 0 < x) (non noff k : ℕ) : 0 < trm x non noff k := by unfold trm; positivity

theorem trm_step {x : ℝ} (non noff k : ℕ) (hk : k < non) :
    trm x non noff (k + 1) * ((k + 1) * (non + noff - k)) = trm x non noff k * (x * (non - k)) := by
  obtain ⟨m, rfl⟩ : ∃ m, non = k + 1 + m := ⟨non - k - 1, by omega⟩
  have e1 : k + 1 + m - (k + 1) = m := by omega
  have e2 : k + 1 + m - k = m + 1 := by omega
  have e3 : m + 1 + noff = m + noff + 1 := by omega
  simp only [trm, e1, e2, e3, Nat.factorial_succ]
  push_cast
  have a : (m.factorial : ℝ) ≠ 0 := by positivity
  have b : (m : ℝ) + 1 ≠ 0 := by positivity
  have b' : (k : ℝ) + 1 ≠ 0 := by positivity
  have b'' : (k.factorial : ℝ) ≠ 0 := by positivity
  have c : (k : ℝ) + 1 + m - k = m + 1 := by ring
  have d : (k : ℝ) + 1 + m + noff - k = m + noff + 1 := by ring
  rw [c, d]
  field_simp
  ring

/-- Whether a term is at least the one before is decided by the sign of a quadratic. -/
theorem trm_le_iff {x : ℝ} (h : 0 < x) (non noff k : ℕ) (hk : k < non) :
    trm x non noff k ≤ trm x non noff (k + 1) ↔ 0 ≤ (k : ℝ) ^ 2 - (non + noff + x - 1) * k - (non + noff - non * x) := by
  have hs := trm_step (x := x) non noff k hk
  have p := trm_pos h non noff k
  have hkn : (k : ℝ) < non := by exact_mod_cast hk
  have h0 : (0 : ℝ) ≤ noff := by positivity
  have hk0 : (0 : ℝ) ≤ k := by positivity
  have hA : 0 < ((k : ℝ) + 1) * (non + noff - k) := mul_pos (by linarith) (by linarith)
  have e : x * (non - k) - ((k : ℝ) + 1) * (non + noff - k) = (k : ℝ) ^ 2 - (non + noff + x - 1) * k - (non + noff - non * x) := by ring
  rw [← e, ← mul_le_mul_iff_of_pos_right hA, hs, mul_le_mul_iff_of_pos_left p, sub_nonneg]

theorem downS_spec {x : ℝ} (h : 0 < x) (non noff : ℕ) (A low : ℝ) : ∀ (k : ℕ) (slike : ℝ) (nt : ℕ), k ≤ non →
    ∃ j ≤ k, downS low x (non + noff) non k (A * trm x non noff k) slike nt = (slike + A * ∑ i ∈ Ico j k, trm x non noff i, nt + (k - j)) ∧
      (j = 0 ∨ A * trm x non noff j ≤ low) ∧ ∀ i, j < i → i < k → low < A * trm x non noff i := by
  intro k
  induction k with
  | zero => intro slike nt _; exact ⟨0, le_rfl, by simp [downS], Or.inl rfl, by omega⟩
  | succ k ih =>
    intro slike nt hk
    have hki : k < non := by omega
    have hne : (non : ℝ) - k ≠ 0 := by
      have : (k : ℝ) < non := by exact_mod_cast hki
      linarith
    have hv : A * trm x non noff (k + 1) * ((non : ℝ) + noff - k) * (k + 1) / (x * (non - k)) = A * trm x non noff k := by
      have hs := trm_step (x := x) non noff k hki
      rw [div_eq_iff (mul_ne_zero h.ne' hne)]
      linear_combination A * hs
    simp only [downS, hv]
    split_ifs with hc
    · obtain ⟨j, hj, he, h1, h2⟩ := ih (slike + A * trm x non noff k) (nt + 1) (by omega)
      refine ⟨j, by omega, ?_, h1, ?_⟩
      · rw [he, Finset.sum_Ico_succ_top (by omega)]
        refine Prod.ext ?_ ?_
        · simp only; ring
        · simp only; omega
      · intro i hi hik
        rcases Nat.lt_or_ge i k with h' | h'
        · exact h2 i hi h'
        · have : i = k := by omega
          rw [this]; exact hc
    · refine ⟨k, by omega, ?_, Or.inr (not_lt.1 hc), by omega⟩
      rw [Finset.sum_Ico_succ_top (by omega)]
      simp

theorem upS_spec {x : ℝ} (h : 0 < x) (non noff : ℕ) (A low : ℝ) : ∀ (r k : ℕ) (slike : ℝ) (nt : ℕ), k + r = non →
    ∃ j, k ≤ j ∧ j ≤ non ∧ upS low x (non + noff) non r k (A * trm x non noff k) slike nt =
        (slike + A * ∑ i ∈ Ico (k + 1) (j + 1), trm x non noff i, nt + (j - k)) ∧
      (j = non ∨ A * trm x non noff j ≤ low) ∧ ∀ i, k < i → i < j → low < A * trm x non noff i := by
  intro r
  induction r with
  | zero => intro k slike nt hk; exact ⟨k, le_rfl, by omega, by simp [upS], Or.inl (by omega), by omega⟩
  | succ r ih =>
    intro k slike nt hk
    have hki : k < non := by omega
    have hkn : (k : ℝ) < non := by exact_mod_cast hki
    have h0 : (0 : ℝ) ≤ noff := by positivity
    have hk0 : (0 : ℝ) ≤ k := by positivity
    have hne : ((k + 1 : ℕ) : ℝ) * ((non : ℝ) + noff - (k + 1 : ℕ) + 1) ≠ 0 := by
      push_cast; exact (mul_pos (by linarith) (by linarith)).ne'
    have hv : A * trm x non noff k * x * ((non : ℝ) - (k + 1 : ℕ) + 1) / ((k + 1 : ℕ) * ((non : ℝ) + noff - (k + 1 : ℕ) + 1)) = A * trm x non noff (k + 1) := by
      have hs := trm_step (x := x) non noff k hki
      rw [div_eq_iff hne]
      push_cast
      linear_combination -A * hs
    simp only [upS, hv]
    split_ifs with hc
    · obtain ⟨j, hj, hjn, he, h1, h2⟩ := ih (k + 1) (slike + A * trm x non noff (k + 1)) (nt + 1) (by omega)
      refine ⟨j, by omega, hjn, ?_, h1, ?_⟩
      · rw [he, Finset.sum_eq_sum_Ico_succ_bot (show k + 1 < j + 1 by omega)]
        refine Prod.ext ?_ ?_
        · simp only; ring
        · simp only; omega
      · intro i hi hij
        rcases Nat.lt_or_ge (k + 1) i with h' | h'
        · exact h2 i h' hij
        · have : i = k + 1 := by omega
          rw [this]; exact hc
    · refine ⟨k + 1, by omega, by omega, ?_, Or.inr (not_lt.1 hc), by omega⟩
      rw [Finset.sum_Ico_succ_top (by omega)]
      simp

theorem downD_fst (low s ton x nn : ℝ) (non : ℕ) : ∀ (k : ℕ) (term slike dsl : ℝ) (nt : ℕ),
    ((downD low s ton x nn non k term slike dsl nt).1, (downD low s ton x nn non k term slike dsl nt).2.2) = downS low x nn non k term slike nt := by
  intro k
  induction k with
  | zero => intros; rfl
  | succ k ih =>
    intro term slike dsl nt
    simp only [downD, downS]
    split_ifs with h
    · exact ih _ _ _ _
    · rfl

theorem upD_fst (low s ton x nn : ℝ) (non : ℕ) : ∀ (r k : ℕ) (term slike dsl : ℝ) (nt : ℕ),
    ((upD low s ton x nn non r k term slike dsl nt).1, (upD low s ton x nn non r k term slike dsl nt).2.2) = upS low x nn non r k term slike nt := by
  intro r
  induction r with
  | zero => intros; rfl
  | succ r ih =>
    intro k term slike dsl nt
    simp only [upD, upS]
    split_ifs with h
    · exact ih _ _ _ _ _
    · rfl

/-- The derivative sum of the loop working down, when no term is left out. -/
theorem downD_all {x : ℝ} (h : 0 < x) (non noff : ℕ) (A s ton : ℝ) (hA : 0 < A) : ∀ (k : ℕ) (slike dsl : ℝ) (nt : ℕ), k ≤ non →
    downD 0 s ton x (non + noff) non k (A * trm x non noff k) slike dsl nt =
      (slike + A * ∑ i ∈ range k, trm x non noff i, dsl + A * ∑ i ∈ range k, trm x non noff i * (i / s - ton), nt + k) := by
  intro k
  induction k with
  | zero => intros; simp [downD]
  | succ k ih =>
    intro slike dsl nt hk
    have hki : k < non := by omega
    have hne : (non : ℝ) - k ≠ 0 := by
      have : (k : ℝ) < non := by exact_mod_cast hki
      linarith
    have hv : A * trm x non noff (k + 1) * ((non : ℝ) + noff - k) * (k + 1) / (x * (non - k)) = A * trm x non noff k := by
      have hs := trm_step (x := x) non noff k hki
      rw [div_eq_iff (mul_ne_zero h.ne' hne)]
      linear_combination A * hs
    simp only [downD, hv]
    rw [if_pos (mul_pos hA (trm_pos h _ _ _)), ih _ _ _ (by omega), sum_range_succ, sum_range_succ]
    refine Prod.ext ?_ (Prod.ext ?_ ?_)
    · simp only; ring
    · simp only; ring
    · simp only; omega

theorem upD_all {x : ℝ} (h : 0 < x) (non noff : ℕ) (A s ton : ℝ) (hA : 0 < A) : ∀ (r k : ℕ) (slike dsl : ℝ) (nt : ℕ), k + r = non →
    upD 0 s ton x (non + noff) non r k (A * trm x non noff k) slike dsl nt =
      (slike + A * ∑ i ∈ Ico (k + 1) (non + 1), trm x non noff i, dsl + A * ∑ i ∈ Ico (k + 1) (non + 1), trm x non noff i * (i / s - ton), nt + r) := by
  intro r
  induction r with
  | zero =>
    intro k slike dsl nt hk
    have : Ico (k + 1) (non + 1) = ∅ := by rw [Ico_eq_empty_iff]; omega
    simp [upD, this]
  | succ r ih =>
    intro k slike dsl nt hk
    have hki : k < non := by omega
    have hkn : (k : ℝ) < non := by exact_mod_cast hki
    have h0 : (0 : ℝ) ≤ noff := by positivity
    have hk0 : (0 : ℝ) ≤ k := by positivity
    have hne : ((k + 1 : ℕ) : ℝ) * ((non : ℝ) + noff - (k + 1 : ℕ) + 1) ≠ 0 := by
      push_cast; exact (mul_pos (by linarith) (by linarith)).ne'
    have hv : A * trm x non noff k * x * ((non : ℝ) - (k + 1 : ℕ) + 1) / ((k + 1 : ℕ) * ((non : ℝ) + noff - (k + 1 : ℕ) + 1)) = A * trm x non noff (k + 1) := by
      have hs := trm_step (x := x) non noff k hki
      rw [div_eq_iff hne]
      push_cast
      linear_combination -A * hs
    simp only [upD, hv]
    rw [if_pos (mul_pos hA (trm_pos h _ _ _)), ih _ _ _ _ (by omega), Finset.sum_eq_sum_Ico_succ_bot (show k + 1 < non + 1 by omega),
      Finset.sum_eq_sum_Ico_succ_bot (show k + 1 < non + 1 by omega)]
    refine Prod.ext ?_ (Prod.ext ?_ ?_)
    · simp only; ring
    · simp only; ring
    · simp only; omega

/-! ## The starting index -/

/-- The quadratic whose sign says whether the terms increase. -/
theorem quad_facts (x : ℝ) (non noff : ℕ) :
    let nns : ℝ := non + noff + x - 1
    let disc := nns * nns + 4 * ((non : ℝ) + noff - non * x)
    let k1 := 1 / 2 * (nns - Real.sqrt disc)
    0 ≤ disc ∧ k1 ≤ non ∧ (∀ k : ℝ, k ≤ non → (0 ≤ k ^ 2 - (non + noff + x - 1) * k - (non + noff - non * x) ↔ k ≤ k1 ∨ k = 1 / 2 * (nns + Real.sqrt disc))) := by
  intro nns disc k1
  have hn : (0 : ℝ) ≤ non := by positivity
  have hf : (0 : ℝ) ≤ noff := by positivity
  have hd : disc = (2 * non - nns) ^ 2 + 4 * ((non + 1) * noff) := by
    simp only [disc, nns]; ring
  have hd0 : 0 ≤ disc := by rw [hd]; positivity
  have hsq : Real.sqrt disc ^ 2 = disc := Real.sq_sqrt hd0
  have hs0 := Real.sqrt_nonneg disc
  have hle : |2 * non - nns| ≤ Real.sqrt disc := by
    apply Real.abs_le_sqrt
    rw [hd]
    have : (0 : ℝ) ≤ 4 * ((non + 1) * noff) := by positivity
    linarith
  have hab := abs_le.1 hle
  refine ⟨hd0, ?_, ?_⟩
  · simp only [k1]; linarith
  · intro k hk
    have hfac : k ^ 2 - (non + noff + x - 1) * k - (non + noff - non * x) = (k1 - k) * (1 / 2 * (nns + Real.sqrt disc) - k) := by
      have : disc = nns * nns + 4 * ((non : ℝ) + noff - non * x) := rfl
      simp only [k1]
      have h2 : (1 / 2 * (nns - Real.sqrt disc) - k) * (1 / 2 * (nns + Real.sqrt disc) - k) = k ^ 2 - nns * k + 1 / 4 * (nns * nns - Real.sqrt disc ^ 2) := by ring
      rw [h2, hsq, this]; simp only [nns]; ring
    rw [hfac]
    have hk2 : k ≤ 1 / 2 * (nns + Real.sqrt disc) := by linarith
    constructor
    · intro h0
      by_contra hc
      push Not at hc
      have : k < 1 / 2 * (nns + Real.sqrt disc) := lt_of_le_of_ne hk2 hc.2
      nlinarith [hc.1]
    · rintro (h' | h')
      · exact mul_nonneg (by linarith) (by linarith)
      · rw [← h']; simp

end Verif.OnOff
