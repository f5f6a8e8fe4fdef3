import Verif.MC.HyperTable
import Mathlib.Data.Nat.Choose.Basic
import Mathlib.Tactic.Ring
import Mathlib.Tactic.Linarith
import Mathlib.Tactic.NormNum
import Mathlib.Tactic.FieldSimp
import Mathlib.Tactic.LinearCombination

/-!
# C224: the hypergeometric probabilities of the five-table sampler
-/

namespace Verif.MC.FiveTable

variable {K : Type*} [Field K] [LinearOrder K] [IsStrictOrderedRing K]

/-- The probability of `k` good items among `s` drawn without replacement from `g` good and `b` bad ones (specification). -/
def hpmf (K : Type*) [Field K] (g b s k : ℕ) : K := if k ≤ s then (g.choose k : K) * (b.choose (s - k) : K) / ((g + b).choose s : K) else 0

theorem hyperMode_bounds {g b s : ℕ} (h1 : 1 ≤ s) : 1 ≤ hyperMode g b s ∧ hyperMode g b s ≤ s := by
  rw [hyperMode]
  rcases le_or_gt 0 ((g : ℤ) * s - b + s - 1) with h | h
  · rw [Int.tdiv_eq_ediv_of_nonneg h]
    have hd : (0 : ℤ) < (g : ℤ) + b + 2 := by positivity
    have a1 : 0 ≤ ((g : ℤ) * s - b + s - 1) / ((g : ℤ) + b + 2) := Int.ediv_nonneg h hd.le
    have a2 : ((g : ℤ) * s - b + s - 1) / ((g : ℤ) + b + 2) < s := by
      rw [Int.ediv_lt_iff_lt_mul hd]
      have : (0 : ℤ) ≤ (s : ℤ) * b := by positivity
      nlinarith
    omega
  · have : Int.tdiv ((g : ℤ) * s - b + s - 1) ((g : ℤ) + b + 2) = 0 := by
      have e : (g : ℤ) * s - b + s - 1 = -(b + 1 - g * s - s) := by ring
      rw [e, Int.neg_tdiv, Int.tdiv_eq_ediv_of_nonneg (by linarith), Int.ediv_eq_zero_of_lt (by linarith), neg_zero]
      have : (0 : ℤ) ≤ (g : ℤ) * s := by positivity
      linarith
    rw [this]; simpa using h1

/-- One more factor of a binomial coefficient. -/
theorem choose_step (N i : ℕ) : (((N + i).choose i : ℕ) : K) * (((N : K) + i + 1) / ((i : K) + 1)) = ((N + (i + 1)).choose (i + 1) : ℕ) := by
  have e := congrArg (Nat.cast (R := K)) (Nat.add_one_mul_choose_eq (N + i) i)
  push_cast at e
  have hi : (i : K) + 1 ≠ 0 := by positivity
  rw [← Nat.add_assoc]
  field_simp
  linear_combination e

/-- The product of the factors so far. -/
def hprod (K : Type*) [Field K] (g b s m i j k : ℕ) : K :=
  ((g - m + i).choose i : K) * ((b - (s - m) + j).choose j : K) / ((b + g - s + k).choose k : K)

theorem hyperLoop_eq {g b s m : ℕ} (hg : s ≤ g) (hb : s ≤ b) (hm : m ≤ s) : ∀ (fuel i j k : ℕ), i ≤ m → j ≤ s - m → k ≤ s →
    (m - i) + (s - m - j) + (s - k) ≤ fuel → hyperLoop (K := K) g b s m fuel i j k (hprod K g b s m i j k) = some (hpmf K g b s m) := by
  have fin : hprod K g b s m m (s - m) s = hpmf K g b s m := by
    rw [hprod, hpmf, if_pos hm, show g - m + m = g by omega, show b - (s - m) + (s - m) = b by omega, show b + g - s + s = g + b by omega]
  have stepK : ∀ i j k, hprod K g b s m i j k / (((b : K) + g - s + k + 1) / ((k : K) + 1)) = hprod K g b s m i j (k + 1) := by
    intro i j k
    have c := choose_step (K := K) (b + g - s) k
    rw [Nat.cast_sub (by omega), Nat.cast_add] at c
    rw [hprod, hprod, ← c, div_div]
  have stepI : ∀ i j k, hprod K g b s m i j k * (((g : K) - m + i + 1) / ((i : K) + 1)) = hprod K g b s m (i + 1) j k := by
    intro i j k
    have c := choose_step (K := K) (g - m) i
    rw [Nat.cast_sub (by omega)] at c
    rw [hprod, hprod, ← c]; ring
  have stepJ : ∀ i j k, hprod K g b s m i j k * (((b : K) - s + m + j + 1) / ((j : K) + 1)) = hprod K g b s m i (j + 1) k := by
    intro i j k
    have c := choose_step (K := K) (b - (s - m)) j
    rw [Nat.cast_sub (by omega), Nat.cast_sub hm, show (b : K) - (s - m) = b - s + m by ring] at c
    rw [hprod, hprod, ← c]; ring
  intro fuel
  induction fuel with
  | zero =>
    intro i j k hi hj hk hf
    have h1 : i = m := by omega
    have h2 : j = s - m := by omega
    have h3 : k = s := by omega
    rw [hyperLoop, if_pos ⟨h1, by omega, h3⟩, h1, h2, h3, fin]
  | succ fuel ih =>
    intro i j k hi hj hk hf
    rw [hyperLoop]
    by_cases hd : i = m ∧ (j : ℤ) = (s : ℤ) - m ∧ k = s
    · rw [if_pos hd, hd.1, hd.2.2, show j = s - m by omega, fin]
    rw [if_neg hd, stepK, stepI, stepJ]
    by_cases c1 : 1 < hprod K g b s m i j k ∧ k < s
    · rw [if_pos c1]; exact ih _ _ _ hi hj (by omega) (by omega)
    rw [if_neg c1]
    by_cases c2 : i < m
    · rw [if_pos c2]; exact ih _ _ _ (by omega) hj hk (by omega)
    rw [if_neg c2]
    by_cases c3 : (j : ℤ) < (s : ℤ) - m
    · rw [if_pos c3]; exact ih _ _ _ hi (by omega) hk (by omega)
    rw [if_neg c3]
    by_cases c4 : k < s
    · rw [if_pos c4]; exact ih _ _ _ hi hj (by omega) (by omega)
    · omega

theorem hpmf_up {g b s : ℕ} (hg : s ≤ g) (hb : s ≤ b) (k : ℕ) : hpmf K g b s k * hyperUp g b s (k + 1) = hpmf K g b s (k + 1) := by
  rcases Nat.lt_trichotomy k s with h | h | h
  · rw [hpmf, hpmf, if_pos h.le, if_pos (show k + 1 ≤ s by omega), hyperUp]
    obtain ⟨d, rfl⟩ : ∃ d, s = k + 1 + d := ⟨s - k - 1, by omega⟩
    rw [show k + 1 + d - k = d + 1 by omega, show k + 1 + d - (k + 1) = d by omega]
    have e1 := congrArg (Nat.cast (R := K)) (Nat.choose_succ_right_eq g k)
    have e2 := congrArg (Nat.cast (R := K)) (Nat.choose_succ_right_eq b d)
    push_cast [show k ≤ g by omega, show d ≤ b by omega] at e1 e2
    push_cast
    have h1 : (k : K) + 1 ≠ 0 := by positivity
    have h2 : (b : K) - d ≠ 0 := by
      have : (d : K) < b := by exact_mod_cast (show d < b by omega)
      linarith
    have h3 : (((g + b).choose (k + 1 + d) : ℕ) : K) ≠ 0 := Nat.cast_ne_zero.2 (Nat.choose_pos (by omega)).ne'
    rw [show (b : K) - (k + 1 + d) + (k + 1) = b - d by ring, show (g : K) - (k + 1) + 1 = g - k by ring, show (k : K) + 1 + d - (k + 1) + 1 = d + 1 by ring]
    field_simp
    linear_combination ((g.choose (k + 1) : ℕ) : K) * ((k : K) + 1) * e2 - ((b.choose (d + 1) : ℕ) : K) * ((d : K) + 1) * e1
  · subst h
    rw [hpmf, hpmf, if_neg (show ¬ k + 1 ≤ k by omega), hyperUp]
    push_cast
    rw [show (k : K) - (k + 1) + 1 = 0 by ring]; simp
  · rw [hpmf, hpmf, if_neg (show ¬ k ≤ s by omega), if_neg (show ¬ k + 1 ≤ s by omega)]; simp

theorem hpmf_down {g b s k : ℕ} (hg : s ≤ g) (hb : s ≤ b) (hk : k < s) : hpmf K g b s (k + 1) / hyperDown g b s k = hpmf K g b s k := by
  have e : hyperUp (K := K) g b s (k + 1) = hyperDown g b s k := by
    rw [hyperUp, hyperDown]; push_cast
    rw [show (b : K) - s + (k + 1) = b - s + k + 1 by ring, show (g : K) - (k + 1) + 1 = g - k by ring, show (s : K) - (k + 1) + 1 = s - k by ring]
  have hn : hyperDown (K := K) g b s k ≠ 0 := by
    rw [hyperDown]
    have h1 : (0 : K) < (k : K) + 1 := by positivity
    have h2 : (k : K) < g := by exact_mod_cast (show k < g by omega)
    have h3 : (k : K) < s := by exact_mod_cast hk
    have h4 : (s : K) ≤ b := by exact_mod_cast hb
    have h5 : (0 : K) < (g : K) - k := by linarith
    have h6 : (0 : K) < (s : K) - k := by linarith
    have h7 : (0 : K) < (b : K) - s + k + 1 := by linarith
    positivity
  rw [← hpmf_up hg hb k, e]
  field_simp

theorem hyperUpLoop_eq {g b s : ℕ} (hg : s ≤ g) (hb : s ≤ b) : ∀ fuel i, s + 1 ≤ i + fuel → ∃ r, hyperUpLoop g b s fuel (i + 1) (hpmf K g b s i) = some r ∧ i + 1 ≤ r ∧
    ¬ 1 < hpmf K g b s (r - 1) * 2147483648 ∧ ∀ k, i ≤ k → k < r - 1 → 1 < hpmf K g b s k * 2147483648
  | 0, i, hi => by
    have z : hpmf K g b s i = 0 := by rw [hpmf, if_neg (by omega)]
    refine ⟨i + 1, by rw [hyperUpLoop, z, if_neg (by norm_num)], le_rfl, ?_, fun k h2 h3 => by omega⟩
    rw [Nat.add_sub_cancel, z]; norm_num
  | fuel + 1, i, hi => by
    rw [hyperUpLoop]
    by_cases h : 1 < hpmf K g b s i * 2147483648
    · rw [if_pos h, hpmf_up hg hb]
      obtain ⟨r, e, h2, h3, h4⟩ := hyperUpLoop_eq hg hb fuel (i + 1) (by omega)
      refine ⟨r, e, by omega, h3, fun k hk hk' => ?_⟩
      rcases Nat.eq_or_lt_of_le hk with rfl | hk2
      · exact h
      · exact h4 k hk2 hk'
    · rw [if_neg h]
      exact ⟨i + 1, rfl, le_rfl, by rwa [Nat.add_sub_cancel], fun k h2 h3 => by omega⟩

theorem hyperDownLoop_eq {g b s : ℕ} (hg : s ≤ g) (hb : s ≤ b) : ∀ i, i ≤ s →
    hyperDownLoop g b s i (hpmf K g b s i) ≤ i ∧
      (0 < hyperDownLoop g b s i (hpmf K g b s i) → hpmf K g b s (hyperDownLoop g b s i (hpmf K g b s i) - 1) * 2147483648 < 1) ∧
      ∀ k, hyperDownLoop g b s i (hpmf K g b s i) ≤ k → k < i → ¬ hpmf K g b s k * 2147483648 < 1
  | 0, _ => by simp [hyperDownLoop]
  | i + 1, hi => by
    simp only [hyperDownLoop]
    rw [hpmf_down hg hb (show i < s by omega)]
    by_cases h : hpmf K g b s i * 2147483648 < 1
    · rw [if_pos h]
      exact ⟨le_rfl, fun _ => by rwa [Nat.add_sub_cancel], fun k h2 h3 => by omega⟩
    · rw [if_neg h]
      obtain ⟨a, b', c⟩ := hyperDownLoop_eq hg hb i (by omega)
      refine ⟨by omega, b', fun k hk hk' => ?_⟩
      rcases Nat.lt_or_ge k i with h2 | h2
      · exact c k hk h2
      · rwa [show k = i by omega]

variable [FloorSemiring K]

/-- The probability in units of 2^-30, rounded to the nearest integer (specification). -/
def hentry (K : Type*) [Field K] [LinearOrder K] [FloorSemiring K] (g b s k : ℕ) : ℕ := ⌊hpmf K g b s k * 1073741824 + 1 / 2⌋₊

theorem hyperUpP_eq {g b s : ℕ} (hg : s ≤ g) (hb : s ≤ b) : ∀ cnt i, hyperUpP g b s cnt (i + 1) (hpmf K g b s i) = (List.range' (i + 1) cnt).map (hentry K g b s)
  | 0, _ => rfl
  | cnt + 1, i => by
    rw [hyperUpP, hpmf_up hg hb, hyperUpP_eq hg hb cnt (i + 1), List.range'_succ, List.map_cons]
    rfl

theorem hyperDownP_eq {g b s : ℕ} (hg : s ≤ g) (hb : s ≤ b) (off : ℕ) : ∀ (i : ℕ) (acc : List ℕ), off ≤ i → i ≤ s →
    hyperDownP g b s off i (hpmf K g b s i) acc = (List.range' off (i - off)).map (hentry K g b s) ++ acc
  | 0, acc, ho, _ => by simp [hyperDownP]
  | i + 1, acc, ho, hi => by
    rw [hyperDownP]
    by_cases h : off ≤ i
    · rw [if_pos h, hpmf_down hg hb (show i < s by omega), hyperDownP_eq hg hb off i _ h (by omega), show i + 1 - off = i - off + 1 by omega, List.range'_concat]
      simp only [List.map_append, List.map_cons, List.map_nil, List.append_assoc, List.singleton_append, Nat.one_mul]
      rw [show off + (i - off) = i by omega]; rfl
    · rw [if_neg h, show i + 1 - off = 0 by omega]; simp

/-- **C224.**  For all populations of `g` good and `b` bad items and all sample sizes `s` from 1 to the smaller of them, `HyperGeometricP` ends within `2s+1` rounds of each loop, and writes the hypergeometric probabilities of successive values from `offset` on, in units of 2^-30 and rounded to the nearest integer; the value just below them has a probability under 2^-31.  If the probability at the computed `mode` exceeds 2^-31, the cells written are those allocated and the value just above them has a probability of at most 2^-31.  Missing: `s = 0` (`C224_violated_zero`), less probable modes (`C224_violated_write`), the `double` arithmetic. -/
theorem C224_entries_partial (g b s : ℕ) (h1 : 1 ≤ s) (hg : s ≤ g) (hb : s ≤ b) :
    ∃ off cnt size, hyperP K (2 * s + 1) g b s = some ((List.range' off cnt).map (hentry K g b s), off, size) ∧
      off ≤ hyperMode g b s ∧ hyperMode g b s < off + cnt ∧ (0 < off → hpmf K g b s (off - 1) * 2 ^ 31 < 1) ∧
      (∀ k, off ≤ k → k < hyperMode g b s → 1 ≤ hpmf K g b s k * 2 ^ 31) ∧
      (1 < hpmf K g b s (hyperMode g b s) * 2 ^ 31 → size = cnt ∧ hpmf K g b s (off + cnt) * 2 ^ 31 ≤ 1 ∧
        ∀ k, hyperMode g b s ≤ k → k < off + cnt → 1 < hpmf K g b s k * 2 ^ 31) := by
  have e31 : (2 : K) ^ 31 = 2147483648 := by norm_num
  rw [e31]
  obtain ⟨hm1, hms⟩ := hyperMode_bounds (g := g) (b := b) h1
  have e1 : hyperLoop (K := K) g b s (hyperMode g b s) (2 * s + 1) 0 0 0 1 = some (hpmf K g b s (hyperMode g b s)) := by
    have := hyperLoop_eq (K := K) hg hb hms (2 * s + 1) 0 0 0 (by omega) (by omega) (by omega) (by omega)
    have hp : hprod K g b s (hyperMode g b s) 0 0 0 = 1 := by simp [hprod]
    rwa [hp] at this
  simp only [hyperP]
  rw [e1]
  generalize hyperMode g b s = m at *
  obtain ⟨r, e2, h2, h3, h4⟩ := hyperUpLoop_eq (K := K) hg hb (2 * s + 1) m (by omega)
  obtain ⟨a, b', c⟩ := hyperDownLoop_eq (K := K) hg hb m hms
  simp only [e2]
  generalize hyperDownLoop g b s m (hpmf K g b s m) = off at *
  rw [hyperUpP_eq hg hb, hyperDownP_eq hg hb off m _ a hms]
  refine ⟨off, (m - off) + 1 + (r - 2 - m), r - 2 + 1 - off, ?_, a, by omega, b', fun k hk hk' => not_lt.1 (c k hk hk'), fun hpm => ?_⟩
  · congr 2
    rw [← List.range'_append_1, ← List.range'_append_1, List.map_append, List.map_append, List.append_assoc]
    rw [show off + (m - off) = m by omega, show off + (m - off + 1) = m + 1 by omega]
    simp [hentry]
  · have hr : m + 2 ≤ r := by
      rcases Nat.lt_or_ge r (m + 2) with h | h
      · exfalso
        rw [show r - 1 = m by omega] at h3
        exact h3 hpm
      · exact h
    rw [show off + (m - off + 1 + (r - 2 - m)) = r - 1 by omega]
    exact ⟨by omega, not_lt.1 h3, h4⟩

example : hyperP ℚ 5 3 5 2 = some ([383479223, 575218834, 115043767], 0, 3) := by decide +kernel

theorem hyperLoop_none {K : Type*} [Field K] [LinearOrder K] (g b m : ℕ) (hm : 1 ≤ m) : ∀ (fuel i j k : ℕ) (pm : K), hyperLoop g b 0 m fuel i j k pm = none
  | 0, i, j, k, pm => by rw [hyperLoop, if_neg (by omega)]
  | fuel + 1, i, j, k, pm => by
    rw [hyperLoop, if_neg (by omega)]
    split_ifs <;> exact hyperLoop_none g b m hm fuel _ _ _ _

omit [IsStrictOrderedRing K] in
/-- **C224, violated.**  For samples of no items, which the program accepts, `HyperGeometricP` never ends, whatever the population: the conversion to `long int` cuts towards zero, so that `mode` is 1, above the sample size. -/
theorem C224_violated_zero (fuel g b : ℕ) : hyperP K fuel g b 0 = none := by
  have hm : hyperMode g b 0 = 1 := by
    rw [hyperMode]
    have : Int.tdiv ((g : ℤ) * (0 : ℕ) - b + (0 : ℕ) - 1) ((g : ℤ) + b + 2) = 0 := by
      have e : (g : ℤ) * (0 : ℕ) - b + (0 : ℕ) - 1 = -(b + 1) := by push_cast; ring
      rw [e, Int.neg_tdiv, Int.tdiv_eq_ediv_of_nonneg (by positivity), Int.ediv_eq_zero_of_lt (by positivity) (by omega), neg_zero]
    rw [this]; rfl
  simp only [hyperP]
  rw [hm, hyperLoop_none g b 1 le_rfl]

/-- **C224, violated.**  One draw from one good and 2147483647 bad items: 0 is far more probable than 1, yet `mode` is 1, the loop up stops at once, and two cells are written to an array of one. -/
theorem C224_violated_write : hyperMode 1 2147483647 1 = 1 ∧ hyperP ℚ 3 1 2147483647 1 = some ([1073741824, 1], 0, 1) := by
  constructor <;> decide +kernel

end Verif.MC.FiveTable
