import Verif.MC.FiveTable
import Mathlib.Data.Nat.Choose.Sum
import Mathlib.Tactic.Ring
import Mathlib.Tactic.Linarith
import Mathlib.Tactic.NormNum
import Mathlib.Tactic.FieldSimp
import Mathlib.Tactic.LinearCombination

/-!
# C223: the binomial probabilities of the five-table sampler
-/

namespace Verif.MC.FiveTable

variable {K : Type*} [Field K] [LinearOrder K] [IsStrictOrderedRing K]

/-- The binomial probability of `k` successes in `n` trials (specification). -/
def pmf (n : ℕ) (p : K) (k : ℕ) : K := (n.choose k : K) * p ^ k * (1 - p) ^ (n - k)

theorem pmf_lt_one {n m : ℕ} {p : K} (h0 : 0 < p) (h1 : p < 1) (hm : 1 ≤ m) (hmn : m ≤ n) : pmf n p m < 1 := by
  have hq : 0 < 1 - p := by linarith
  have e : ∑ k ∈ Finset.range (n + 1), p ^ k * (1 - p) ^ (n - k) * (n.choose k : K) = 1 := by
    rw [← add_pow, show p + (1 - p) = 1 by ring, one_pow]
  rw [← e, pmf, show (n.choose m : K) * p ^ m * (1 - p) ^ (n - m) = p ^ m * (1 - p) ^ (n - m) * (n.choose m : K) by ring]
  refine Finset.single_lt_sum (f := fun k => p ^ k * (1 - p) ^ (n - k) * (n.choose k : K)) (j := 0) (by omega) (by simp; omega) (by simp) ?_ ?_
  · simp only [pow_zero, Nat.choose_zero_right, Nat.cast_one, mul_one, one_mul]; positivity
  · intro k _ _; positivity

/-- The product of the first `i` factors of the loop. -/
def g (n m : ℕ) (q : K) (i : ℕ) : K := q ^ i * (n.choose m : K) / ((n - i).choose m : K)

theorem g_succ {n m i : ℕ} (q : K) (hm : m ≤ n) (hi : i < n - m) : g n m q (i + 1) = g n m q i * (q * ((n : K) - i) / (((n - m : ℕ) : K) - i)) := by
  obtain ⟨N, hN⟩ : ∃ N, n - i = N + 1 := ⟨n - i - 1, by omega⟩
  have c1 : ((N.choose m : ℕ) : K) ≠ 0 := Nat.cast_ne_zero.2 (Nat.choose_pos (by omega)).ne'
  have c2 : (((N + 1).choose m : ℕ) : K) ≠ 0 := Nat.cast_ne_zero.2 (Nat.choose_pos (by omega)).ne'
  have e := congrArg (Nat.cast (R := K)) (Nat.choose_mul_succ_eq N m)
  push_cast [show m ≤ N + 1 by omega] at e
  have hn : (n : K) - i = N + 1 := by
    rw [← Nat.cast_sub (by omega), hN]; push_cast; rfl
  have hn' : ((n - m : ℕ) : K) - i = N + 1 - m := by
    rw [Nat.cast_sub hm]; linarith
  have c3 : (N : K) + 1 - m ≠ 0 := by
    have : (m : K) < N + 1 := by exact_mod_cast (show m < N + 1 by omega)
    linarith
  rw [g, g, hn, hn', hN, show n - (i + 1) = N by omega]
  rw [pow_succ]
  field_simp
  linear_combination (-(q ^ i * q * (n.choose m : K))) * e

theorem g_pos {n m i : ℕ} {q : K} (hq : 0 < q) (hi : i ≤ n - m) (hm : m ≤ n) : 0 < g n m q i := by
  have c1 : (0 : K) < (n.choose m : ℕ) := Nat.cast_pos.2 (Nat.choose_pos hm)
  have c2 : (0 : K) < ((n - i).choose m : ℕ) := Nat.cast_pos.2 (Nat.choose_pos (by omega))
  rw [g]; positivity

theorem g_end {n m : ℕ} {p : K} (hm : m ≤ n) : p ^ m * g n m (1 - p) (n - m) = pmf n p m := by
  rw [g, show n - (n - m) = m by omega, Nat.choose_self, pmf]; simp; ring

theorem g_up {n m : ℕ} {p : K} (h0 : 0 < p) (h1 : p < 1) (hm : m ≤ n) : ∀ d i : ℕ, i + d = n - m → p * ((n : K) - i) ≤ m → g n m (1 - p) i ≤ g n m (1 - p) (n - m)
  | 0, i, hi, _ => by rw [show i = n - m by omega]
  | d + 1, i, hi, h => by
    have ih := g_up h0 h1 hm d (i + 1) (by omega) (by push_cast; nlinarith)
    refine le_trans ?_ ih
    rw [g_succ _ hm (by omega)]
    have hc : (0 : K) < ((n - m : ℕ) : K) - i := by
      have : (i : K) < (n - m : ℕ) := by exact_mod_cast (show i < n - m by omega)
      linarith
    refine le_mul_of_one_le_right (g_pos (by linarith) (by omega) hm).le ?_
    rw [le_div_iff₀ hc, Nat.cast_sub hm]
    linarith

theorem g_down {n m : ℕ} {p : K} (h0 : 0 < p) (h1 : p < 1) (hm : m ≤ n) : ∀ i : ℕ, i ≤ n - m → (m : K) < p * ((n : K) - i) → g n m (1 - p) i ≤ 1
  | 0, _, _ => by
    have c1 : ((n.choose m : ℕ) : K) ≠ 0 := Nat.cast_ne_zero.2 (Nat.choose_pos hm).ne'
    rw [g]; simp [c1]
  | i + 1, hi, h => by
    push_cast at h
    have h' : (m : K) < p * ((n : K) - i) := by nlinarith
    have ih := g_down h0 h1 hm i (by omega) h'
    rw [g_succ _ hm (by omega)]
    have hc : (0 : K) < ((n - m : ℕ) : K) - i := by
      have : (i : K) < (n - m : ℕ) := by exact_mod_cast (show i < n - m by omega)
      linarith
    refine le_trans (mul_le_of_le_one_right (g_pos (by linarith) (by omega) hm).le ?_) ih
    rw [div_le_iff₀ hc, Nat.cast_sub hm]
    linarith

theorem g_lt {n m i : ℕ} {p : K} (h0 : 0 < p) (h1 : p < 1) (hm1 : 1 ≤ m) (hm : m ≤ n) (hi : i ≤ n - m) : p ^ m * g n m (1 - p) i < 1 := by
  have hp : (0 : K) < p ^ m := by positivity
  by_cases h : p * ((n : K) - i) ≤ m
  · refine lt_of_le_of_lt (mul_le_mul_of_nonneg_left (g_up h0 h1 hm (n - m - i) i (by omega) h) hp.le) ?_
    rw [g_end hm]; exact pmf_lt_one h0 h1 hm1 hm
  · refine lt_of_le_of_lt (mul_le_mul_of_nonneg_left (g_down h0 h1 hm i hi (not_le.1 h)) hp.le) ?_
    rw [mul_one]; exact pow_lt_one₀ h0.le h1 (by omega)

theorem modeLoop_eq {n m : ℕ} {p : K} (h0 : 0 < p) (h1 : p < 1) (hm1 : 1 ≤ m) (hm : m ≤ n) : ∀ (fuel i j : ℕ), i ≤ n - m → j ≤ m → (n - m - i) + (m - j) ≤ fuel →
    modeLoop n (n - m) m p (1 - p) fuel i j (p ^ j * g n m (1 - p) i) = some (pmf n p m)
  | 0, i, j, hi, hj, hf => by
    have hi' : i = n - m := by omega
    have hj' : j = m := by omega
    rw [modeLoop, if_pos ⟨hi', hj'⟩, hi', hj', g_end hm]
  | fuel + 1, i, j, hi, hj, hf => by
    rw [modeLoop]
    by_cases hd : i = n - m ∧ j = m
    · rw [if_pos hd, hd.1, hd.2, g_end hm]
    rw [if_neg hd]
    by_cases hs : p ^ j * g n m (1 - p) i < 1 ∧ i < n - m
    · rw [if_pos hs, mul_assoc, ← g_succ _ hm hs.2]
      exact modeLoop_eq h0 h1 hm1 hm fuel (i + 1) j (by omega) hj (by omega)
    · rw [if_neg hs]
      have hjm : j < m := by
        rcases Nat.lt_or_ge j m with h | h
        · exact h
        · exfalso
          have hj' : j = m := by omega
          subst hj'
          exact hs ⟨g_lt h0 h1 hm1 hm hi, by omega⟩
      rw [show p ^ j * g n m (1 - p) i * p = p ^ (j + 1) * g n m (1 - p) i by ring]
      exact modeLoop_eq h0 h1 hm1 hm fuel i (j + 1) hi hjm (by omega)

/-- One term of the binomial distribution from that before it. -/
theorem pmf_succ {n : ℕ} {p : K} (h1 : p < 1) (i : ℕ) : pmf n p (i + 1) = pmf n p i * (p / (1 - p) * ((n : K) - i) / ((i : K) + 1)) := by
  have hq : (1 : K) - p ≠ 0 := by linarith
  have hi : (i : K) + 1 ≠ 0 := by positivity
  rcases Nat.lt_or_ge i n with h | h
  · obtain ⟨d, rfl⟩ : ∃ d, n = i + 1 + d := ⟨n - i - 1, by omega⟩
    have e := congrArg (Nat.cast (R := K)) (Nat.choose_succ_right_eq (i + 1 + d) i)
    rw [show i + 1 + d - i = d + 1 by omega] at e
    push_cast at e
    simp only [pmf]
    rw [show i + 1 + d - (i + 1) = d by omega, show i + 1 + d - i = d + 1 by omega]
    push_cast
    rw [pow_succ, pow_succ]
    field_simp
    linear_combination p ^ i * p * e
  · have z1 : n.choose (i + 1) = 0 := Nat.choose_eq_zero_of_lt (by omega)
    rcases Nat.lt_or_ge n i with h' | h'
    · have z2 : n.choose i = 0 := Nat.choose_eq_zero_of_lt h'
      simp [pmf, z1, z2]
    · have : i = n := by omega
      subst this
      simp [pmf, z1]

theorem pmf_up {n : ℕ} {p : K} (h1 : p < 1) (i : ℕ) : pmf n p i * (p / (1 - p) * ((n : K) - ((i + 1 : ℕ) : K) + 1) / ((i + 1 : ℕ) : K)) = pmf n p (i + 1) := by
  rw [pmf_succ h1]; push_cast; congr 3; ring

theorem upLoop_eq {n : ℕ} {p : K} (h1 : p < 1) : ∀ fuel i, n + 1 ≤ i + fuel → ∃ r, upLoop n (p / (1 - p)) fuel (i + 1) (pmf n p i) = some r ∧ i + 1 ≤ r ∧
    ¬ 1 < pmf n p (r - 1) * 2147483648 ∧ ∀ k, i ≤ k → k < r - 1 → 1 < pmf n p k * 2147483648
  | 0, i, hi => by
    have z : pmf n p i = 0 := by
      have : n.choose i = 0 := Nat.choose_eq_zero_of_lt (by omega)
      simp [pmf, this]
    refine ⟨i + 1, by rw [upLoop, z, if_neg (by norm_num)], le_rfl, ?_, fun k h2 h3 => by omega⟩
    rw [Nat.add_sub_cancel, z]; norm_num
  | fuel + 1, i, hi => by
    rw [upLoop]
    by_cases h : 1 < pmf n p i * 2147483648
    · rw [if_pos h, pmf_up h1]
      obtain ⟨r, e, h2, h3, h4⟩ := upLoop_eq (n := n) h1 fuel (i + 1) (by omega)
      refine ⟨r, e, by omega, h3, fun k hk hk' => ?_⟩
      rcases Nat.eq_or_lt_of_le hk with rfl | hk2
      · exact h
      · exact h4 k hk2 hk'
    · rw [if_neg h]
      exact ⟨i + 1, rfl, le_rfl, by rwa [Nat.add_sub_cancel], fun k h2 h3 => by omega⟩

theorem pmf_down {n : ℕ} {p : K} (h0 : 0 < p) (h1 : p < 1) {i : ℕ} (hi : i < n) :
    pmf n p (i + 1) * (((i : K) + 1) / (p / (1 - p)) / ((n : K) - i)) = pmf n p i ∧
      pmf n p (i + 1) / (p / (1 - p) * ((n : K) - i) / ((i : K) + 1)) = pmf n p i := by
  have hq : (1 : K) - p ≠ 0 := by linarith
  have hi' : (i : K) + 1 ≠ 0 := by positivity
  have hn : (n : K) - i ≠ 0 := by
    have : (i : K) < n := by exact_mod_cast hi
    linarith
  rw [pmf_succ h1]
  constructor <;> field_simp

theorem downLoop_eq {n : ℕ} {p : K} (h0 : 0 < p) (h1 : p < 1) : ∀ i, i ≤ n →
    downLoop n (p / (1 - p)) i (pmf n p i) ≤ i ∧
      (0 < downLoop n (p / (1 - p)) i (pmf n p i) → pmf n p (downLoop n (p / (1 - p)) i (pmf n p i) - 1) * 2147483648 < 1) ∧
      ∀ k, downLoop n (p / (1 - p)) i (pmf n p i) ≤ k → k < i → ¬ pmf n p k * 2147483648 < 1
  | 0, _ => by simp [downLoop]
  | i + 1, hi => by
    simp only [downLoop]
    rw [(pmf_down (n := n) h0 h1 (show i < n by omega)).1]
    by_cases h : pmf n p i * 2147483648 < 1
    · rw [if_pos h]
      exact ⟨le_rfl, fun _ => by rwa [Nat.add_sub_cancel], fun k h2 h3 => by omega⟩
    · rw [if_neg h]
      obtain ⟨a, b, c⟩ := downLoop_eq (n := n) h0 h1 i (by omega)
      refine ⟨by omega, b, fun k hk hk' => ?_⟩
      rcases Nat.lt_or_ge k i with h2 | h2
      · exact c k hk h2
      · rwa [show k = i by omega]

variable [FloorSemiring K]

/-- The probability in units of 2^-30, rounded to the nearest integer (specification). -/
def entry (n : ℕ) (p : K) (k : ℕ) : ℕ := ⌊pmf n p k * 1073741824 + 1 / 2⌋₊

theorem upP_eq {n : ℕ} {p : K} (h1 : p < 1) : ∀ cnt i, upP n (p / (1 - p)) cnt (i + 1) (pmf n p i) = (List.range' (i + 1) cnt).map (entry n p)
  | 0, _ => rfl
  | cnt + 1, i => by
    simp only [upP]
    rw [pmf_up h1, upP_eq h1 cnt (i + 1), List.range'_succ, List.map_cons]
    rfl

theorem downP_eq {n : ℕ} {p : K} (h0 : 0 < p) (h1 : p < 1) (off : ℕ) : ∀ (i : ℕ) (acc : List ℕ), off ≤ i → i ≤ n →
    downP n (p / (1 - p)) off i (pmf n p i) acc = (List.range' off (i - off)).map (entry n p) ++ acc
  | 0, acc, ho, _ => by simp [downP]
  | i + 1, acc, ho, hi => by
    rw [downP]
    by_cases h : off ≤ i
    · simp only [if_pos h]
      rw [(pmf_down (n := n) h0 h1 (show i < n by omega)).2, downP_eq h0 h1 off i _ h (by omega), show i + 1 - off = i - off + 1 by omega, List.range'_concat]
      simp only [List.map_append, List.map_cons, List.map_nil, List.append_assoc, List.singleton_append, Nat.one_mul]
      rw [show off + (i - off) = i by omega]; rfl
    · rw [if_neg h, show i + 1 - off = 0 by omega]; simp

/-- **C223.**  For every number of trials `n` and probability `0 < p < 1` with `(n+1)p` at least 1, `BinomP` ends within `n+2` rounds of each loop, and the array holds the probabilities of successive values, from `offset` on, in units of 2^-30 and rounded to the nearest integer; the most probable value is among them, the value just below them has a probability under 2^-31, and that just above them (unless the most probable value itself is that improbable) at most 2^-31.  Missing: `(n+1)p < 1` (`C223_violated_small`); the `double` arithmetic. -/
theorem C223_entries_partial (n : ℕ) (p : K) (h0 : 0 < p) (h1 : p < 1) (hm : 1 ≤ ((n : K) + 1) * p) :
    ∃ off cnt, binomP (n + 2) n p = some ((List.range' off cnt).map (entry n p), off) ∧
      off ≤ ⌊((n : K) + 1) * p⌋₊ ∧ ⌊((n : K) + 1) * p⌋₊ < off + cnt ∧
      (0 < off → pmf n p (off - 1) * 2 ^ 31 < 1) ∧ (∀ k, off ≤ k → k < ⌊((n : K) + 1) * p⌋₊ → 1 ≤ pmf n p k * 2 ^ 31) ∧
      (1 < pmf n p ⌊((n : K) + 1) * p⌋₊ * 2 ^ 31 → pmf n p (off + cnt) * 2 ^ 31 ≤ 1 ∧
        ∀ k, ⌊((n : K) + 1) * p⌋₊ ≤ k → k < off + cnt → 1 < pmf n p k * 2 ^ 31) := by
  have e31 : (2 : K) ^ 31 = 2147483648 := by norm_num
  rw [e31]
  have hm1 : 1 ≤ ⌊((n : K) + 1) * p⌋₊ := Nat.one_le_floor_iff _ |>.2 hm
  have hmn : ⌊((n : K) + 1) * p⌋₊ ≤ n := by
    have : ((n : K) + 1) * p < (n + 1 : ℕ) := by
      push_cast
      have : (0 : K) < (n : K) + 1 := by positivity
      nlinarith
    have := (Nat.floor_lt (by positivity)).2 this
    omega
  have e1 : modeLoop n (n - ⌊((n : K) + 1) * p⌋₊) ⌊((n : K) + 1) * p⌋₊ p (1 - p) (n + 2) 0 0 1 = some (pmf n p ⌊((n : K) + 1) * p⌋₊) := by
    have := modeLoop_eq h0 h1 hm1 hmn (n + 2) 0 0 (by omega) (by omega) (by omega)
    have c1 : ((n.choose ⌊((n : K) + 1) * p⌋₊ : ℕ) : K) ≠ 0 := Nat.cast_ne_zero.2 (Nat.choose_pos hmn).ne'
    have hg : p ^ 0 * g n ⌊((n : K) + 1) * p⌋₊ (1 - p) 0 = 1 := by rw [g]; simp [c1]
    rwa [hg] at this
  simp only [binomP]
  rw [e1]
  generalize ⌊((n : K) + 1) * p⌋₊ = m at *
  obtain ⟨r, e2, h2, h3, h4⟩ := upLoop_eq (n := n) h1 (n + 2) m (by omega)
  obtain ⟨a, b, c⟩ := downLoop_eq (n := n) h0 h1 m hmn
  simp only [e2]
  generalize downLoop n (p / (1 - p)) m (pmf n p m) = off at *
  rw [upP_eq h1, downP_eq h0 h1 off m _ a hmn]
  refine ⟨off, (m - off) + 1 + (r - 2 - m), ?_, a, by omega, b, fun k hk hk' => not_lt.1 (c k hk hk'), fun hpm => ?_⟩
  · congr 2
    rw [← List.range'_append_1, ← List.range'_append_1, List.map_append, List.map_append, List.append_assoc]
    rw [show off + (m - off) = m by omega, show off + (m - off + 1) = m + 1 by omega]
    simp [entry]
  · have hr : m + 2 ≤ r := by
      rcases Nat.lt_or_ge r (m + 2) with h | h
      · exfalso
        rw [show r - 1 = m by omega] at h3
        exact h3 hpm
      · exact h
    rw [show off + (m - off + 1 + (r - 2 - m)) = r - 1 by omega]
    exact ⟨not_lt.1 h3, h4⟩

example : (1 : ℚ) ≤ (((10 : ℕ) : ℚ) + 1) * (1 / 4) := by norm_num
example : binomP 4 2 (1 / 2 : ℚ) = some ([268435456, 536870912, 268435456], 0) := by decide +kernel

theorem modeLoop_none {K : Type*} [Field K] [LinearOrder K] (n nm : ℕ) (p q : K) : ∀ (fuel i j : ℕ) (pm : K), 1 ≤ j → modeLoop n nm 0 p q fuel i j pm = none
  | 0, i, j, pm, h => by rw [modeLoop, if_neg (by omega)]
  | fuel + 1, i, j, pm, h => by
    rw [modeLoop, if_neg (by omega)]
    split_ifs
    · exact modeLoop_none n nm p q fuel _ _ _ h
    · exact modeLoop_none n nm p q fuel _ _ _ (by omega)

/-- **C223, violated.**  For every `n ≥ 1` and every probability with `(n+1)p < 1` the loop for the largest probability never ends: its first step multiplies by `p`, since the product is 1, and passes the one state at which it would stop. -/
theorem C223_violated_small (fuel n : ℕ) (p : K) (hn : 1 ≤ n) (h0 : 0 < p) (h : ((n : K) + 1) * p < 1) : binomP fuel n p = none := by
  have hm : ⌊((n : K) + 1) * p⌋₊ = 0 := Nat.floor_eq_zero.2 h
  have e : modeLoop n (n - 0) 0 p (1 - p) fuel 0 0 1 = none := by
    cases fuel with
    | zero => rw [modeLoop, if_neg (by omega)]
    | succ fuel =>
      rw [modeLoop, if_neg (by omega), if_neg (by simp)]
      exact modeLoop_none n _ p _ fuel _ _ _ le_rfl
  simp only [binomP]
  rw [hm, e]

example : (((3 : ℕ) : ℚ) + 1) * (1 / 5) < 1 := by norm_num

end Verif.MC.FiveTable
