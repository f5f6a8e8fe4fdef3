import Verif.MC.PoissTable
import Mathlib.Topology.Algebra.Order.Floor
import Mathlib.Analysis.SpecificLimits.Basic
import Mathlib.Analysis.Complex.ExponentialBounds
import Mathlib.Tactic.Ring
import Mathlib.Tactic.Linarith
import Mathlib.Tactic.NormNum
import Mathlib.Tactic.FieldSimp
import Mathlib.Tactic.LinearCombination

/-!
# C225: the Poisson probabilities of the five-table sampler
-/

namespace Verif.MC.FiveTable

open Real

/-- The Poisson probability of `k` at mean `lam` (specification). -/
noncomputable def ppmf (lam : ℝ) (k : ℕ) : ℝ := exp (-lam) * lam ^ k / (k.factorial : ℝ)

/-- The probability in units of 2^-30, rounded to the nearest integer (specification). -/
noncomputable def pentry (lam : ℝ) (k : ℕ) : ℕ := ⌊ppmf lam k * 1073741824 + 1 / 2⌋₊

theorem ppmf_up (lam : ℝ) (k : ℕ) : ppmf lam k * (lam / ((k + 1 : ℕ) : ℝ)) = ppmf lam (k + 1) := by
  rw [ppmf, ppmf, Nat.factorial_succ]
  have h1 : ((k + 1 : ℕ) : ℝ) ≠ 0 := by positivity
  have h2 : (k.factorial : ℝ) ≠ 0 := by positivity
  push_cast at h1 ⊢
  field_simp
  ring

theorem ppmf_down {lam : ℝ} (h : 0 < lam) (k : ℕ) : ppmf lam (k + 1) * (((k : ℝ) + 1) / lam) = ppmf lam k := by
  rw [← ppmf_up]
  have h1 : (k : ℝ) + 1 ≠ 0 := by positivity
  push_cast
  field_simp

/-- Some value is improbable enough to end the loop. -/
theorem ppmf_small (lam : ℝ) (n : ℕ) : ∃ N, n ≤ N ∧ ¬ 1 < ppmf lam N * 2147483648 := by
  have h := (FloorSemiring.tendsto_pow_div_factorial_atTop lam).const_mul (exp (-lam) * 2147483648)
  rw [mul_zero] at h
  have h2 := (h.eventually (gt_mem_nhds (show (0 : ℝ) < 1 by norm_num))).and (Filter.eventually_ge_atTop n)
  obtain ⟨N, h3, h4⟩ := h2.exists
  refine ⟨N, h4, not_lt.2 ?_⟩
  rw [ppmf]
  refine le_trans (le_of_eq ?_) h3.le
  ring

theorem poissSize_eq (lam : ℝ) {N : ℕ} (hN : ¬ 1 < ppmf lam N * 2147483648) : ∀ fuel i, i ≤ N → N ≤ i + fuel →
    ∃ r, poissSize lam fuel (i + 1) (ppmf lam i) = some r ∧ i ≤ r ∧ ¬ 1 < ppmf lam r * 2147483648 ∧ ∀ k, i ≤ k → k < r → 1 < ppmf lam k * 2147483648
  | 0, i, h1, h2 => by
    have : i = N := by omega
    subst this
    exact ⟨i, by rw [poissSize, if_neg hN, Nat.add_sub_cancel], le_rfl, hN, fun k h3 h4 => by omega⟩
  | fuel + 1, i, h1, h2 => by
    rw [poissSize]
    by_cases h : 1 < ppmf lam i * 2147483648
    · rw [if_pos h, ppmf_up]
      have hi : i ≠ N := fun e => hN (e ▸ h)
      obtain ⟨r, e, h3, h4, h5⟩ := poissSize_eq lam hN fuel (i + 1) (by omega) (by omega)
      refine ⟨r, e, by omega, h4, fun k hk hk' => ?_⟩
      rcases Nat.eq_or_lt_of_le hk with rfl | hk2
      · exact h
      · exact h5 k hk2 hk'
    · rw [if_neg h]
      exact ⟨i, by rw [Nat.add_sub_cancel], le_rfl, h, fun k h3 h4 => by omega⟩

theorem poissFill_eq (lam : ℝ) : ∀ cnt i, poissFill lam cnt (i + 1) (ppmf lam i) = (List.range' (i + 1) cnt).map (pentry lam)
  | 0, _ => rfl
  | cnt + 1, i => by
    rw [poissFill, ppmf_up, poissFill_eq lam cnt (i + 1), List.range'_succ, List.map_cons]
    rfl

theorem poissProd_eq (c : ℝ) : ∀ cnt i, poissProd c cnt (i + 1) (c ^ i / (i.factorial : ℝ)) = c ^ (i + cnt) / ((i + cnt).factorial : ℝ)
  | 0, _ => rfl
  | cnt + 1, i => by
    rw [poissProd]
    have : c ^ i / (i.factorial : ℝ) * (c / ((i + 1 : ℕ) : ℝ)) = c ^ (i + 1) / ((i + 1).factorial : ℝ) := by
      rw [Nat.factorial_succ]; push_cast
      have h1 : (i : ℝ) + 1 ≠ 0 := by positivity
      have h2 : (i.factorial : ℝ) ≠ 0 := by positivity
      field_simp
      ring
    rw [this, poissProd_eq c cnt (i + 1), show i + 1 + cnt = i + (cnt + 1) by omega]

theorem poissProd_mode (lam : ℝ) {n : ℕ} (hn : 1 ≤ n) : poissProd (lam * exp (-lam / n)) n 1 1 = ppmf lam n := by
  have h := poissProd_eq (lam * exp (-lam / n)) n 0
  simp only [pow_zero, Nat.factorial_zero, Nat.cast_one, div_one, Nat.zero_add] at h
  rw [h, ppmf, mul_pow, ← exp_nat_mul]
  have h1 : (n : ℝ) ≠ 0 := by positivity
  rw [show (n : ℝ) * (-lam / n) = -lam by field_simp]
  ring

theorem poissDown_eq {lam : ℝ} (h : 0 < lam) : ∀ i, poissDown lam i (ppmf lam i) ≤ i ∧
      (0 < poissDown lam i (ppmf lam i) → ppmf lam (poissDown lam i (ppmf lam i) - 1) * 2147483648 < 1) ∧
      ∀ k, poissDown lam i (ppmf lam i) ≤ k → k < i → ¬ ppmf lam k * 2147483648 < 1
  | 0 => by simp [poissDown]
  | i + 1 => by
    simp only [poissDown]
    rw [ppmf_down h]
    by_cases h' : ppmf lam i * 2147483648 < 1
    · rw [if_pos h']
      exact ⟨le_rfl, fun _ => by rwa [Nat.add_sub_cancel], fun k h2 h3 => by omega⟩
    · rw [if_neg h']
      obtain ⟨a, b, c⟩ := poissDown_eq h i
      refine ⟨by omega, b, fun k hk hk' => ?_⟩
      rcases Nat.lt_or_ge k i with h2 | h2
      · exact c k hk h2
      · rwa [show k = i by omega]

theorem poissDownP_eq {lam : ℝ} (h : 0 < lam) (off : ℕ) : ∀ (i : ℕ) (acc : List ℕ), off ≤ i →
    poissDownP lam off i (ppmf lam i) acc = (List.range' off (i - off)).map (pentry lam) ++ acc
  | 0, acc, ho => by simp [poissDownP]
  | i + 1, acc, ho => by
    rw [poissDownP]
    by_cases h' : off ≤ i
    · rw [if_pos h', ppmf_down h, poissDownP_eq h off i _ h', show i + 1 - off = i - off + 1 by omega, List.range'_concat]
      simp only [List.map_append, List.map_cons, List.map_nil, List.append_assoc, List.singleton_append, Nat.one_mul]
      rw [show off + (i - off) = i by omega]; rfl
    · rw [if_neg h', show i + 1 - off = 0 by omega]; simp

/-- Below 21.4 the probability of 0 exceeds 2^-31. -/
theorem exp_bound {lam : ℝ} (h : lam < 21.4) : 1 < exp (-lam) * 2147483648 := by
  have h1 : exp lam < 2147483648 := by
    have h2 : exp lam < exp 21.4 := exp_lt_exp.2 h
    have h3 : exp 21.4 ^ 5 < (2147483648 : ℝ) ^ 5 := by
      rw [← exp_nat_mul, show ((5 : ℕ) : ℝ) * 21.4 = ((107 : ℕ) : ℝ) * 1 by norm_num, exp_nat_mul]
      calc exp 1 ^ 107 < (2.7182818286 : ℝ) ^ 107 := pow_lt_pow_left₀ exp_one_lt_d9 (exp_pos 1).le (by norm_num)
        _ < 2147483648 ^ 5 := by norm_num
    exact lt_trans h2 (lt_of_pow_lt_pow_left₀ 5 (by norm_num) h3)
  have h2 : exp (-lam) * exp lam = 1 := by rw [← exp_add]; simp
  nlinarith [exp_pos (-lam)]

/-- Below 21.4: the entries begin with that of 0, whatever `offset` is. -/
theorem small_eq {lam : ℝ} (off : ℕ) (h : lam < 21.4) : ∃ fuel cnt, 0 < cnt ∧ PoissP fuel lam off = some ((List.range' 0 cnt).map (pentry lam), off) ∧
    ¬ 1 < ppmf lam cnt * 2147483648 ∧ ∀ k, k < cnt → 1 < ppmf lam k * 2147483648 := by
  obtain ⟨N, _, hN⟩ := ppmf_small lam 0
  obtain ⟨r, e, _, h3, h4⟩ := poissSize_eq lam hN N 0 (by omega) (by omega)
  have e0 : ppmf lam 0 = exp (-lam) := by simp [ppmf]
  have hr : 0 < r := by
    rcases Nat.eq_zero_or_pos r with rfl | hr
    · exact absurd (e0 ▸ exp_bound h) h3
    · exact hr
  refine ⟨N, r, hr, ?_, h3, fun k hk => h4 k (by omega) hk⟩
  rw [PoissP, if_pos h, poissP, ← e0]
  rw [Nat.zero_add] at e
  have hf := poissFill_eq lam (r - 1) 0
  rw [Nat.zero_add] at hf
  simp only [e]
  rw [hf]
  congr 2
  obtain ⟨q, rfl⟩ : ∃ q, r = q + 1 := ⟨r - 1, by omega⟩
  rw [List.range'_succ, List.map_cons, Nat.add_sub_cancel]
  rfl

/-- From 21.4 on. -/
theorem large_eq {lam : ℝ} (off0 : ℕ) (h : 21.4 ≤ lam) : ∃ fuel cnt off, PoissP fuel lam off0 = some ((List.range' off cnt).map (pentry lam), off) ∧
    off ≤ ⌊lam⌋₊ ∧ ⌊lam⌋₊ < off + cnt ∧ (0 < off → ppmf lam (off - 1) * 2147483648 < 1) ∧ (∀ k, off ≤ k → k < ⌊lam⌋₊ → 1 ≤ ppmf lam k * 2147483648) ∧
    (1 < ppmf lam ⌊lam⌋₊ * 2147483648 → ppmf lam (off + cnt) * 2147483648 ≤ 1 ∧ ∀ k, ⌊lam⌋₊ ≤ k → k < off + cnt → 1 < ppmf lam k * 2147483648) := by
  have hpos : 0 < lam := by linarith
  have hn : 1 ≤ ⌊lam⌋₊ := Nat.one_le_floor_iff _ |>.2 (by linarith)
  obtain ⟨N, hN1, hN⟩ := ppmf_small lam ⌊lam⌋₊
  refine ⟨N, ?_⟩
  rw [PoissP, if_neg (not_lt.2 h)]
  simp only
  rw [poissProd_mode lam hn]
  generalize ⌊lam⌋₊ = m at *
  obtain ⟨r, e, h2, h3, h4⟩ := poissSize_eq lam hN N m (by omega) (by omega)
  obtain ⟨a, b, c⟩ := poissDown_eq hpos m
  simp only [e]
  generalize poissDown lam m (ppmf lam m) = off at *
  rw [poissFill_eq, poissDownP_eq hpos off m _ a]
  refine ⟨(m - off) + 1 + (r - 1 - m), off, ?_, a, by omega, b, fun k hk hk' => not_lt.1 (c k hk hk'), fun hpm => ?_⟩
  · congr 2
    rw [← List.range'_append_1, ← List.range'_append_1, List.map_append, List.map_append, List.append_assoc]
    rw [show off + (m - off) = m by omega, show off + (m - off + 1) = m + 1 by omega]
    simp [pentry]
  · have hr : m + 1 ≤ r := by
      rcases Nat.lt_or_ge r (m + 1) with h' | h'
      · exfalso
        rw [show r = m by omega] at h3
        exact h3 hpm
      · exact h'
    rw [show off + (m - off + 1 + (r - 1 - m)) = r by omega]
    exact ⟨not_lt.1 h3, h4⟩

/-- **C225.**  For every mean, the first call of `PoissP` ends and stores the Poisson probabilities of successive values, from `offset` on, in units of 2^-30 and rounded to the nearest integer; the value just below them has a probability under 2^-31; and (if the integer part of the mean is more probable than 2^-31, when the mean is 21.4 or more) that just above them has a probability of at most 2^-31.  Missing: later calls with a mean below 21.4 (`C225_violated_offset`); the `double` arithmetic. -/
theorem C225_entries_partial (lam : ℝ) :
    ∃ fuel cnt off, PoissP fuel lam 0 = some ((List.range' off cnt).map (pentry lam), off) ∧ 0 < cnt ∧ (0 < off → ppmf lam (off - 1) * 2 ^ 31 < 1) ∧
      (lam < 21.4 ∨ 1 < ppmf lam ⌊lam⌋₊ * 2 ^ 31 → ppmf lam (off + cnt) * 2 ^ 31 ≤ 1 ∧ ∀ k, off ≤ k → k < off + cnt → 1 ≤ ppmf lam k * 2 ^ 31) := by
  rw [show (2 : ℝ) ^ 31 = 2147483648 by norm_num]
  rcases lt_or_ge lam 21.4 with h | h
  · obtain ⟨fuel, cnt, h1, e, h2, h3⟩ := small_eq 0 h
    refine ⟨fuel, cnt, 0, e, h1, fun h => absurd h (by omega), fun _ => ⟨?_, fun k _ hk => (h3 k (by omega)).le⟩⟩
    rw [Nat.zero_add]; exact not_lt.1 h2
  · obtain ⟨fuel, cnt, off, e, h1, h2, h3, h4, h5⟩ := large_eq 0 h
    refine ⟨fuel, cnt, off, e, by omega, h3, fun hor => ?_⟩
    obtain ⟨h6, h7⟩ := h5 (hor.resolve_left (not_lt.2 h))
    refine ⟨h6, fun k hk hk' => ?_⟩
    rcases Nat.lt_or_ge k ⌊lam⌋₊ with h8 | h8
    · exact h4 k hk h8
    · exact (h7 k h8 hk').le

/-- **C225, violated.**  `offset` is static and is not set for means below 21.4: after a call with mean 100, a call with any such mean stores the entries of 0, 1, … as those of `offset`, `offset`+1, …, with `offset` > 0. -/
theorem C225_violated_offset (lam : ℝ) (h : lam < 21.4) :
    ∃ fuel P off, PoissP fuel 100 0 = some (P, off) ∧ 0 < off ∧
      ∃ fuel' cnt, 0 < cnt ∧ PoissP fuel' lam off = some ((List.range' 0 cnt).map (pentry lam), off) := by
  obtain ⟨fuel, cnt, off, e, h1, _, _, h4, _⟩ := large_eq (lam := 100) 0 (by norm_num)
  have hoff : 0 < off := by
    rcases Nat.eq_zero_or_pos off with rfl | ho
    · exfalso
      have h0 := h4 0 le_rfl (Nat.floor_pos.2 (by norm_num))
      have h2 : (2 : ℝ) ^ 100 ≤ exp 100 := by
        have : (2 : ℝ) ≤ exp 1 := by linarith [exp_one_gt_d9]
        calc (2 : ℝ) ^ 100 ≤ exp 1 ^ 100 := pow_le_pow_left₀ (by norm_num) this _
          _ = exp 100 := by rw [← exp_nat_mul]; norm_num
      have h3 : exp (-100 : ℝ) * exp 100 = 1 := by rw [← exp_add]; simp
      have h5 : (0 : ℝ) < exp (-100) := exp_pos _
      simp only [ppmf, pow_zero, mul_one, Nat.factorial_zero, Nat.cast_one, div_one] at h0
      have h6 : exp (-100 : ℝ) * 2 ^ 100 ≤ 1 := by rw [← h3]; exact mul_le_mul_of_nonneg_left h2 h5.le
      have h7 : (2147483648 : ℝ) < 2 ^ 100 := by norm_num
      nlinarith
    · exact ho
  obtain ⟨fuel', cnt', hc, e', _⟩ := small_eq off h
  exact ⟨fuel, _, off, e, hoff, fuel', cnt', hc, e'⟩

end Verif.MC.FiveTable
