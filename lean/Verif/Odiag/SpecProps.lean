import Verif.Odiag.Spec
import Verif.Odiag.BurgProps
import Mathlib.RingTheory.RootsOfUnity.Complex
import Mathlib.Analysis.SpecialFunctions.Log.Base

/-!
# Property C174: variance of the mean from the spectrum
-/

set_option linter.unusedSectionVars false

noncomputable section

namespace Verif.Odiag

open Finset

theorem nftOf_eq {n : ℕ} (hn : 0 < n) : nftOf n = if 2 ^ Nat.log 2 n < n then 2 * 2 ^ Nat.log 2 n else 2 ^ Nat.log 2 n := by
  have : ⌊Real.log n / Real.log 2⌋₊ = Nat.log 2 n := by
    have := Real.floor_logb_natCast (b := 2) (r := (n : ℝ)) (Nat.cast_nonneg n)
    rw [Real.logb, Int.log_natCast] at this
    have h2 : (⌊Real.log n / Real.log (2 : ℕ)⌋ : ℤ).toNat = Nat.log 2 n := by rw [this]; simp
    rw [← h2, Int.floor_toNat]
    norm_num
  simp only [nftOf, this]

/-- C174: the transform has the least power of two as length that holds the series. -/
theorem C174_length {n : ℕ} (hn : 0 < n) : n ≤ nftOf n ∧ (∃ p, nftOf n = 2 ^ p) ∧ ∀ p, n ≤ 2 ^ p → nftOf n ≤ 2 ^ p := by
  rw [nftOf_eq hn]
  have h1 : 2 ^ Nat.log 2 n ≤ n := Nat.pow_log_le_self 2 hn.ne'
  have h2 : n < 2 ^ (Nat.log 2 n + 1) := Nat.lt_pow_succ_log_self (by norm_num) n
  rw [pow_succ] at h2
  split_ifs with h
  · refine ⟨by omega, ⟨Nat.log 2 n + 1, by rw [pow_succ]; ring⟩, fun p hp => ?_⟩
    have : Nat.log 2 n < p := (Nat.pow_lt_pow_iff_right (by norm_num : 1 < 2)).1 (lt_of_lt_of_le h hp)
    calc 2 * 2 ^ Nat.log 2 n = 2 ^ (Nat.log 2 n + 1) := by rw [pow_succ]; ring
      _ ≤ 2 ^ p := Nat.pow_le_pow_right (by norm_num) this
  · exact ⟨by omega, ⟨_, rfl⟩, fun p hp => by omega⟩

/-- The sum of all powers of a root of unity of order `n` vanishes. -/
theorem root_sum {n k : ℕ} (h1 : 0 < k) (h2 : k < n) : ∑ t ∈ range n, Complex.exp (2 * Real.pi * Complex.I * k * t / n) = 0 := by
  have hn : (n : ℂ) ≠ 0 := by exact_mod_cast (by omega : n ≠ 0)
  set w := Complex.exp (2 * Real.pi * Complex.I * k / n) with hw
  have hterm : ∀ t ∈ range n, Complex.exp (2 * Real.pi * Complex.I * k * t / n) = w ^ t := by
    intro t _
    rw [hw, ← Complex.exp_nat_mul]
    congr 1
    ring
  rw [sum_congr rfl hterm]
  have hne : w ≠ 1 := by
    rw [hw, Ne, Complex.exp_eq_one_iff]
    rintro ⟨m, hm⟩
    have hI : (2 * Real.pi * Complex.I : ℂ) ≠ 0 := Complex.two_pi_I_ne_zero
    have h3 : (k : ℂ) / n = m := by
      have : (2 * Real.pi * Complex.I : ℂ) * (k / n) = (2 * Real.pi * Complex.I) * m := by rw [mul_comm _ (m : ℂ), ← hm]; ring
      exact mul_left_cancel₀ hI this
    rw [div_eq_iff hn] at h3
    have h4 : (k : ℤ) = m * n := by exact_mod_cast h3
    have hm1 : 0 < m := by
      by_contra h
      push Not at h
      have : m * (n : ℤ) ≤ 0 := mul_nonpos_of_nonpos_of_nonneg h (Int.natCast_nonneg n)
      omega
    have : (n : ℤ) ≤ m * n := by nlinarith [Int.natCast_nonneg n]
    omega
  rw [geom_sum_eq hne]
  have : w ^ n = 1 := by
    rw [hw, ← Complex.exp_nat_mul, mul_div_cancel₀ _ hn]
    rw [show (2 * Real.pi * Complex.I * k : ℂ) = k * (2 * Real.pi * Complex.I) by ring]
    exact Complex.exp_nat_mul_two_pi_mul_I k
  rw [this, sub_self, zero_div]

/-- C174: at the frequencies used the transform of the padded series is that of the deviations from the mean, followed by zeros. -/
theorem C174_padding {n : ℕ} (x : ℕ → ℝ) {nft k : ℕ} (hn : n ≤ nft) (h1 : 0 < k) (h2 : k < nft) :
    dft nft (padded n x) k = ∑ t ∈ range n, ((x t - (∑ s ∈ range n, x s) / n : ℝ) : ℂ) * Complex.exp (2 * Real.pi * Complex.I * k * t / nft) := by
  have hz := root_sum h1 h2
  have e : dft nft (padded n x) k = ∑ t ∈ range nft, ((padded n x t - (∑ s ∈ range n, x s) / n : ℝ) : ℂ) * Complex.exp (2 * Real.pi * Complex.I * k * t / nft) := by
    have : ∀ t ∈ range nft, ((padded n x t - (∑ s ∈ range n, x s) / n : ℝ) : ℂ) * Complex.exp (2 * Real.pi * Complex.I * k * t / nft)
        = (padded n x t : ℂ) * Complex.exp (2 * Real.pi * Complex.I * k * t / nft) - (((∑ s ∈ range n, x s) / n : ℝ) : ℂ) * Complex.exp (2 * Real.pi * Complex.I * k * t / nft) := by
      intro t _; push_cast; ring
    rw [sum_congr rfl this, sum_sub_distrib, ← mul_sum, hz, mul_zero, sub_zero, dft]
  rw [e, ← sum_subset (range_subset_range.2 hn)]
  · refine sum_congr rfl fun t ht => ?_
    rw [padded, if_pos (mem_range.1 ht)]
  · intro t _ ht
    rw [mem_range, not_lt] at ht
    rw [padded, if_neg (not_lt.2 ht), loopSum_eq, sub_self]
    simp

/-- C174: the `n`th value fitted is the mean of the squared moduli of the transform at the frequencies 2n-1 and 2n, divided by the length of the series. -/
theorem C174_power {ndat nft n : ℕ} (w : ℕ → ℝ) (hn : 0 < n) :
    power ndat nft w n = (Complex.normSq (dft nft w (2 * n - 1)) + Complex.normSq (dft nft w (2 * n))) / 2 / ndat := by
  obtain ⟨m, rfl⟩ : ∃ m, n = m + 1 := ⟨n - 1, by omega⟩
  simp only [power, packed, Nat.add_sub_cancel]
  rw [if_pos (by omega), if_neg (by omega), if_pos (by omega), if_neg (by omega),
    show (4 * m + 3 - 1) / 2 = 2 * (m + 1) - 1 by omega, show (4 * m + 3 + 1 - 2) / 2 = 2 * (m + 1) - 1 by omega,
    show (4 * m + 3 + 2 - 1) / 2 = 2 * (m + 1) by omega, show (4 * m + 3 + 3 - 2) / 2 = 2 * (m + 1) by omega, Complex.normSq_apply, Complex.normSq_apply]
  norm_num
  ring

theorem nft_big {n : ℕ} (h : 100 ≤ n) : 100 < nftOf n := by
  obtain ⟨h1, ⟨p, hp⟩, -⟩ := C174_length (by omega : 0 < n)
  have : 2 ^ 6 < 2 ^ p := by rw [← hp]; omega
  have := (Nat.pow_lt_pow_iff_right (by norm_num : 1 < 2)).1 this
  have : 2 ^ 7 ≤ 2 ^ p := Nat.pow_le_pow_right (by norm_num) this
  omega

/-- C174: all frequencies used are below the highest one of the transform, so no element outside the workspace is used. -/
theorem C174_inside {ndat n : ℕ} (h : 100 ≤ ndat) (hn : n ≤ 25) : 2 * (2 * n) < nftOf ndat ∧ 4 * (n - 1) + 3 + 3 ≤ nftOf ndat := by
  have := nft_big h
  obtain ⟨h1, ⟨p, hp⟩, -⟩ := C174_length (by omega : 0 < ndat)
  have h6 : 2 ^ 6 < 2 ^ p := by rw [← hp]; omega
  have := (Nat.pow_lt_pow_iff_right (by norm_num : 1 < 2)).1 h6
  have : 2 ^ 7 ≤ 2 ^ p := Nat.pow_le_pow_right (by norm_num) this
  constructor <;> omega

theorem power_units {ndat : ℕ} (h : 100 ≤ ndat) (x : ℕ → ℝ) (a c : ℝ) {n : ℕ} (h1 : 1 ≤ n) (h2 : n ≤ 25) :
    power ndat (nftOf ndat) (padded ndat fun t => c * x t + a) n = c ^ 2 * power ndat (nftOf ndat) (padded ndat x) n := by
  have hb := nft_big h
  have hin := (C174_inside h h2).1
  have hle := (C174_length (by omega : 0 < ndat)).1
  have hd : ∀ k, 0 < k → k < nftOf ndat → dft (nftOf ndat) (padded ndat fun t => c * x t + a) k = (c : ℂ) * dft (nftOf ndat) (padded ndat x) k := by
    intro k k1 k2
    rw [C174_padding _ hle k1 k2, C174_padding _ hle k1 k2, mul_sum]
    refine sum_congr rfl fun t _ => ?_
    have hn0 : (ndat : ℝ) ≠ 0 := by exact_mod_cast (by omega : ndat ≠ 0)
    have e : c * x t + a - (∑ s ∈ range ndat, (c * x s + a)) / ndat = c * (x t - (∑ s ∈ range ndat, x s) / ndat) := by
      rw [sum_add_distrib, ← mul_sum, sum_const, card_range, nsmul_eq_mul]
      field_simp
      ring
    rw [e]
    push_cast
    ring
  rw [C174_power _ h1, C174_power _ h1, hd _ (by omega) (by omega), hd _ (by omega) (by omega), Complex.normSq_mul, Complex.normSq_mul, Complex.normSq_ofReal]
  ring

/-- C174: the variance has the units of the series squared and does not depend on its origin, if `lfit` adds to the first coefficient what is added to all values. -/
theorem C174_units {lfit : List (ℝ × ℝ) → ℝ × ℝ} (hfit : ∀ (l : List (ℝ × ℝ)) (d : ℝ), lfit (l.map fun q => (q.1, q.2 + d)) = ((lfit l).1 + d, (lfit l).2))
    {a c : ℝ} (hc : c ≠ 0) (ndat : ℕ) (x : ℕ → ℝ) :
    (specvar lfit ndat fun t => c * x t + a).1 = c ^ 2 * (specvar lfit ndat x).1 ∧ (specvar lfit ndat fun t => c * x t + a).2 = (specvar lfit ndat x).2 := by
  have hc2 : 0 < c ^ 2 := by positivity
  by_cases h : ndat < 4 * 25
  · simp only [specvar, if_pos h, mul_zero, and_self]
  · have hp : ∀ n ∈ List.range' 1 25, power ndat (nftOf ndat) (padded ndat fun t => c * x t + a) n = c ^ 2 * power ndat (nftOf ndat) (padded ndat x) n := by
      intro n hn
      rw [List.mem_range'_1] at hn
      exact power_units (by omega) x a c hn.1 (by omega)
    have hle : (∃ n ∈ List.range' 1 25, power ndat (nftOf ndat) (padded ndat fun t => c * x t + a) n ≤ 0) ↔ ∃ n ∈ List.range' 1 25, power ndat (nftOf ndat) (padded ndat x) n ≤ 0 := by
      refine exists_congr fun n => and_congr_right fun hn => ?_
      rw [hp n hn]
      constructor
      · intro h; by_contra h0; push Not at h0; nlinarith [mul_pos hc2 h0]
      · intro h; exact mul_nonpos_of_nonneg_of_nonpos hc2.le h
    simp only [specvar, if_neg h, hle]
    split_ifs with h0
    · simp
    · push Not at h0
      have hl : ((List.range' 1 25).map fun n => (freq ndat n, Real.log (power ndat (nftOf ndat) (padded ndat fun t => c * x t + a) n) + 0.270))
          = ((List.range' 1 25).map fun n => (freq ndat n, Real.log (power ndat (nftOf ndat) (padded ndat x) n) + 0.270)).map fun q => (q.1, q.2 + Real.log (c ^ 2)) := by
        rw [List.map_map]
        refine List.map_congr_left fun n hn => ?_
        simp only [Function.comp]
        rw [hp n hn, Real.log_mul hc2.ne' (h0 n hn).ne']
        congr 1
        ring
      rw [hl, hfit]
      simp only [Real.exp_add, Real.exp_log hc2, and_true]
      ring

/-- C174: a variance that is computed is positive.

Missing: the zero for series shorter than 200 (`C174_violated_short`). -/
theorem C174_positive_partial {lfit : List (ℝ × ℝ) → ℝ × ℝ} {ndat : ℕ} {x : ℕ → ℝ} (h : 100 ≤ ndat)
    (hp : ∀ n, 1 ≤ n → n ≤ 25 → 0 < power ndat (nftOf ndat) (padded ndat x) n) : 0 < (specvar lfit ndat x).1 := by
  have hn : ¬ ∃ n ∈ List.range' 1 25, power ndat (nftOf ndat) (padded ndat x) n ≤ 0 := by
    push Not
    intro n hn
    rw [List.mem_range'_1] at hn
    exact hp n hn.1 (by omega)
  have : (0 : ℝ) < ndat := by exact_mod_cast (by omega : 0 < ndat)
  simp only [specvar, if_neg (by omega : ¬ ndat < 4 * 25), if_neg hn]
  positivity

/-- C174: least squares coefficients of a quadratic keep their first element when all frequencies are multiplied by the same number, so it does not matter that the frequencies are given in units of the series and not of the padded series. -/
theorem C174_intercept {l : List (ℝ × ℝ)} {s : ℝ} (hs : s ≠ 0) {c0 c1 c2 : ℝ}
    (h : ∀ d0 d1 d2, (l.map fun q => (q.2 - (c0 + c1 * q.1 + c2 * q.1 ^ 2)) ^ 2).sum ≤ (l.map fun q => (q.2 - (d0 + d1 * q.1 + d2 * q.1 ^ 2)) ^ 2).sum) (d0 d1 d2 : ℝ) :
    ((l.map fun q => (s * q.1, q.2)).map fun q => (q.2 - (c0 + c1 / s * q.1 + c2 / s ^ 2 * q.1 ^ 2)) ^ 2).sum
      ≤ ((l.map fun q => (s * q.1, q.2)).map fun q => (q.2 - (d0 + d1 * q.1 + d2 * q.1 ^ 2)) ^ 2).sum := by
  have e : ∀ a0 a1 a2 : ℝ, ((l.map fun q => (s * q.1, q.2)).map fun q => (q.2 - (a0 + a1 * q.1 + a2 * q.1 ^ 2)) ^ 2) = l.map fun q => (q.2 - (a0 + (a1 * s) * q.1 + (a2 * s ^ 2) * q.1 ^ 2)) ^ 2 := by
    intro a0 a1 a2
    rw [List.map_map]
    refine List.map_congr_left fun q _ => ?_
    simp only [Function.comp]
    ring
  rw [e, e, div_mul_cancel₀ _ hs, div_mul_cancel₀ _ (pow_ne_zero 2 hs)]
  exact h _ _ _

/-- C174 fails for series shorter than 200: the description says that zero is returned, but from 100 on a variance is computed. -/
theorem C174_violated_short {lfit : List (ℝ × ℝ) → ℝ × ℝ} {ndat : ℕ} (h : 100 ≤ ndat) (h' : ndat < 200) {x : ℕ → ℝ}
    (hp : ∀ n, 1 ≤ n → n ≤ 25 → 0 < power ndat (nftOf ndat) (padded ndat x) n) : ndat < 200 ∧ (specvar lfit ndat x).1 ≠ 0 :=
  ⟨h', (C174_positive_partial h hp).ne'⟩

/-- A single one followed by zeros has power at every frequency. -/
theorem pulse_power {ndat : ℕ} (h : 100 ≤ ndat) (hpow : nftOf ndat = ndat) {n : ℕ} (h1 : 1 ≤ n) (h2 : n ≤ 25) :
    0 < power ndat (nftOf ndat) (padded ndat fun t => if t = 0 then 1 else 0) n := by
  have hin := (C174_inside h h2).1
  have hd : ∀ k, dft (nftOf ndat) (padded ndat fun t => if t = 0 then 1 else 0) k = 1 := by
    intro k
    rw [dft, sum_eq_single 0]
    · simp [padded, show 0 < ndat by omega]
    · intro t ht h0
      rw [mem_range, hpow] at ht
      simp [padded, ht, h0]
    · intro h0; simp at h0; omega
  rw [C174_power _ h1, hd, hd]
  have : (0 : ℝ) < ndat := by exact_mod_cast (by omega : 0 < ndat)
  simp
  omega

/-- The hypotheses are met by a series of length 128. -/
example : 100 ≤ 128 ∧ 128 < 200 ∧ nftOf 128 = 128 := by
  refine ⟨by norm_num, by norm_num, ?_⟩
  rw [nftOf_eq (by norm_num), show Nat.log 2 128 = 7 by decide +kernel]
  norm_num

end Verif.Odiag
