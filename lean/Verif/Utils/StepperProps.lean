import Verif.Utils.Steppers
import Verif.Grid.IntervalProps
import Mathlib.Tactic.FieldSimp
import Mathlib.Tactic.Ring
import Mathlib.Analysis.SpecialFunctions.Pow.Real

/-!
# Steppers: property C39
-/

set_option linter.unusedSectionVars false
set_option linter.unusedSimpArgs false

namespace Verif.Num

open Verif.Grid1 (LogExp realLog)

section
variable {K : Type} [Field K] [LinearOrder K] [IsStrictOrderedRing K]

theorem linGo_fst (lo hi delta : K) (n : ℤ) : ∀ (is : List ℕ) (o : K), (linGo lo hi delta n is o).map Prod.fst = is ∧
    (linGo lo hi delta n is o).map Prod.snd = linGo' lo hi delta n is o
  | [], _ => ⟨rfl, rfl⟩
  | i :: is, o => by
    unfold linGo linGo'
    split_ifs <;> simp [linGo_fst lo hi delta n is]

theorem logGo_fst (lo hi fac : K) (n : ℤ) : ∀ (is : List ℕ) (o : K), (logGo lo hi fac n is o).map Prod.fst = is ∧
    (logGo lo hi fac n is o).map Prod.snd = logGo' lo hi fac n is o
  | [], _ => ⟨rfl, rfl⟩
  | i :: is, o => by
    unfold logGo logGo'
    split_ifs <;> simp [logGo_fst lo hi fac n is]

/-- The part of the loop after the first step. -/
theorem linGo_tail (lo hi delta : K) (n : ℕ) (hlast : hi = lo + ((n : K) - 1) * delta) : ∀ (m j : ℕ) (o : K), 0 < j → j + m ≤ n → o = ((j : K) - 1) * delta →
    linGo' lo hi delta n (List.range' j m) o = (List.range' j m).map fun i : ℕ => lo + i * delta
  | 0, _, _, _, _, _ => rfl
  | m + 1, j, o, hj, hm, ho => by
    rw [List.range'_succ, linGo', if_neg (by omega), List.map_cons]
    by_cases h : (j : ℤ) = (n : ℤ) - 1
    · have hj' : (j : K) = (n : K) - 1 := by
        have h0 : (j : ℤ) + 1 = n := by omega
        have h1 : (j : K) + 1 = n := by exact_mod_cast h0
        rw [← h1]; ring
      have hm0 : m = 0 := by omega
      subst hm0
      rw [if_pos h, hlast, hj']
      simp [linGo']
    · have e : o + delta = ((j + 1 : ℕ) : K) * delta - delta := by rw [ho]; push_cast; ring
      rw [if_neg h, linGo_tail lo hi delta n hlast m (j + 1) (o + delta) (by omega) (by omega) (by rw [e]; push_cast; ring)]
      congr 1
      rw [e]; push_cast; ring

theorem logGo_tail (lo hi fac : K) (n : ℕ) (hlast : hi = lo * fac ^ (n - 1)) : ∀ (m j : ℕ) (o : K), 0 < j → j + m ≤ n → o = lo * fac ^ (j - 1) →
    logGo' lo hi fac n (List.range' j m) o = (List.range' j m).map fun i : ℕ => lo * fac ^ i
  | 0, _, _, _, _, _ => rfl
  | m + 1, j, o, hj, hm, ho => by
    rw [List.range'_succ, logGo', if_neg (by omega), List.map_cons]
    by_cases h : (j : ℤ) = (n : ℤ) - 1
    · have hj' : j = n - 1 := by omega
      have hm0 : m = 0 := by omega
      subst hm0
      rw [if_pos h, hlast, hj']
      simp [logGo']
    · have e : o * fac = lo * fac ^ j := by
        rw [ho, mul_assoc, ← pow_succ]; congr 2; omega
      rw [if_neg h, logGo_tail lo hi fac n hlast m (j + 1) (o * fac) (by omega) (by omega) (by rw [e]; rfl)]
      rw [e]

/-- **C39.** `lin_stepper(lo, hi, n)` yields the `n` equally spaced values from `lo` to `hi`, the last exactly `hi`. -/
theorem C39_linear (lo hi : K) (n : ℕ) (hn : 2 ≤ n) : ∃ l, linStepper lo hi n = .ok l ∧
    l = (List.range n).map (fun i : ℕ => lo + i * ((hi - lo) / ((n : K) - 1))) ∧ l.length = n ∧ l.head? = some lo ∧ l.getLast? = some hi := by
  have h1 : (n : K) - 1 ≠ 0 := by
    have : (2 : K) ≤ n := by exact_mod_cast hn
    linarith
  have hlast : hi = lo + ((n : K) - 1) * ((hi - lo) / ((n : K) - 1)) := by field_simp; ring
  obtain ⟨m, rfl⟩ : ∃ m, n = m + 1 := ⟨n - 1, by omega⟩
  have e : linStepper lo hi ((m + 1 : ℕ) : ℤ) = .ok ((List.range (m + 1)).map (fun i : ℕ => lo + i * ((hi - lo) / (((m + 1 : ℕ) : K) - 1)))) := by
    unfold linStepper
    rw [if_neg (by omega), Int.toNat_natCast, List.range_eq_range', List.range'_succ, linGo', if_pos rfl, Int.cast_natCast, List.map_cons]
    rw [linGo_tail lo hi _ (m + 1) hlast m (0 + 1) 0 (by omega) (by omega) (by simp)]
    simp
  refine ⟨_, e, rfl, by simp, by simp [List.range_succ_eq_map], ?_⟩
  rw [List.range_succ]
  simp only [List.map_append, List.map_cons, List.map_nil, List.getLast?_append, List.getLast?_singleton, Option.some_or, Option.some.injEq]
  refine Eq.trans ?_ hlast.symm
  push_cast
  ring

/-- **C39.** The enumerating version pairs the values with 0, 1, ... -/
theorem C39_linear_enum (lo hi : K) (n : ℤ) : linEnumStepper lo hi n = (linStepper lo hi n).map fun l => (List.range n.toNat).zip l := by
  unfold linEnumStepper linStepper
  split_ifs with h
  · rfl
  · simp only [Except.map]
    obtain ⟨h1, h2⟩ := linGo_fst lo hi ((hi - lo) / ((n : K) - 1)) n (List.range n.toNat) 0
    rw [← h2]
    nth_rewrite 2 [← h1]
    congr 1
    rw [List.zip_map']
    simp

/-- A single point cannot be asked for: `n = 1` raises whatever the range; a non-positive `n` gives nothing. -/
theorem C39_linear_small (lo hi : K) (n : ℤ) (hn : n ≤ 1) : linStepper lo hi n = if n = 1 then .error .zeroDiv else .ok [] := by
  unfold linStepper
  split_ifs with h
  · rfl
  · rw [Int.toNat_of_nonpos (by omega)]; rfl

end

/-- **C39.** `log_stepper(lo, hi, n)` yields the `n` values `lo (hi/lo)^(i/(n-1))`, the last exactly `hi`. -/
theorem C39_log (lo hi : ℝ) (n : ℕ) (hn : 2 ≤ n) (hlo : 0 < lo) (hhi : 0 < hi) : ∃ l, logStepper realLog lo hi n = .ok l ∧
    l = (List.range n).map (fun i : ℕ => lo * (hi / lo) ^ ((i : ℝ) / ((n : ℝ) - 1))) ∧ l.length = n ∧ l.head? = some lo ∧ l.getLast? = some hi := by
  have h1 : (n : ℝ) - 1 ≠ 0 := by
    have : (2 : ℝ) ≤ n := by exact_mod_cast hn
    linarith
  have hr : 0 < hi / lo := div_pos hhi hlo
  set fac := Real.exp (Real.log (hi / lo) / ((n : ℝ) - 1)) with hfac
  have hpow : ∀ i : ℕ, fac ^ i = (hi / lo) ^ ((i : ℝ) / ((n : ℝ) - 1)) := by
    intro i
    rw [hfac, ← Real.exp_nat_mul, Real.rpow_def_of_pos hr]
    congr 1
    ring
  have hn1 : ((n - 1 : ℕ) : ℝ) = (n : ℝ) - 1 := by rw [Nat.cast_sub (by omega)]; simp
  have hlast : hi = lo * fac ^ (n - 1) := by
    rw [hpow, hn1, div_self h1, Real.rpow_one]
    field_simp
  have e : logStepper realLog lo hi n = .ok ((List.range n).map fun i : ℕ => lo * (hi / lo) ^ ((i : ℝ) / ((n : ℝ) - 1))) := by
    obtain ⟨m, rfl⟩ : ∃ m, n = m + 1 := ⟨n - 1, by omega⟩
    unfold logStepper
    rw [if_neg hlo.ne', Int.toNat_natCast, List.range_eq_range', List.range'_succ, logGo', if_pos rfl, Int.cast_natCast]
    change Except.ok (lo :: logGo' lo hi fac _ _ lo) = _
    rw [logGo_tail lo hi _ (m + 1) hlast m (0 + 1) lo (by omega) (by omega) (by simp), List.map_cons]
    simp only [hpow]
    simp
  refine ⟨_, e, rfl, by simp, ?_, ?_⟩
  · obtain ⟨m, rfl⟩ : ∃ m, n = m + 1 := ⟨n - 1, by omega⟩
    simp [List.range_succ_eq_map]
  · obtain ⟨m, rfl⟩ : ∃ m, n = m + 1 := ⟨n - 1, by omega⟩
    rw [List.range_succ]
    simp only [List.map_append, List.map_cons, List.map_nil, List.getLast?_append, List.getLast?_singleton, Option.some_or, Option.some.injEq]
    rw [← hpow]
    exact hlast.symm

/-- **C39.** The enumerating version pairs the values with 0, 1, ... -/
theorem C39_log_enum {K : Type} [Field K] [LinearOrder K] [IsStrictOrderedRing K] (c : LogExp K) (lo hi : K) (n : ℤ) :
    logEnumStepper c lo hi n = (logStepper c lo hi n).map fun l => (List.range n.toNat).zip l := by
  unfold logEnumStepper logStepper
  split_ifs with h
  · rfl
  · simp only [Except.map]
    obtain ⟨h1, h2⟩ := logGo_fst lo hi (c.ex (c.lg (hi / lo) / ((n : K) - 1))) n (List.range n.toNat) lo
    rw [← h2]
    nth_rewrite 2 [← h1]
    congr 1
    rw [List.zip_map']
    simp

/-- Concrete cases. -/
example : (linStepper (0 : ℚ) 2 5 = .ok [0, 1 / 2, 1, 3 / 2, 2]) ∧ linEnumStepper (3 : ℚ) 1 3 = .ok [(0, 3), (1, 2), (2, 1)] := by
  constructor <;> decide +kernel

end Verif.Num
