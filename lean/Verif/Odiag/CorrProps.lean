import Verif.Odiag.Moments
import Verif.Odiag.BurgProps
import Mathlib.Algebra.Order.Chebyshev
import Mathlib.Algebra.BigOperators.Field
import Mathlib.Algebra.BigOperators.Group.List.Lemmas

/-!
# Properties C177-C179: autocorrelations, bins and deletions
-/

set_option linter.unusedSectionVars false

noncomputable section

namespace Verif.Odiag

open Finset

variable {K : Type} [Field K] [LinearOrder K] [IsStrictOrderedRing K]

/-- The deviations from the mean, zero outside the series. -/
def dev (n : ℕ) (x : ℕ → K) (i : ℕ) : K := if i < n then x i - (∑ j ∈ range n, x j) / n else 0

theorem runMean_eq (n : ℕ) (x : ℕ → K) : runMean n x = (∑ j ∈ range n, x j) / n := by rw [runMean, loopSum_eq]

theorem cov_eq (n : ℕ) (x : ℕ → K) (lag : ℕ) : cov n x lag = (∑ i ∈ range (n - lag), dev n x i * dev n x (i + lag)) / (n - lag : ℕ) := by
  rw [cov, loopSum_eq, runMean_eq]
  congr 1
  refine sum_congr rfl fun i hi => ?_
  rw [mem_range] at hi
  rw [dev, dev, if_pos (by omega), if_pos (by omega)]

theorem cov0_eq (n : ℕ) (x : ℕ → K) {lag : ℕ} (hl : lag < n) : cov0 n x lag = (∑ i ∈ range n, dev n x i * dev n x (i + lag)) / n := by
  simp only [cov0, loopSum_eq]
  congr 1
  refine sum_congr rfl fun i hi => ?_
  rw [mem_range] at hi
  rw [if_neg (by omega), padMean, if_pos hi, dev, if_pos hi, ← runMean_eq, padMean, dev, ← runMean_eq]
  split_ifs
  · rfl
  · simp

/-- C177: the autocorrelation at lag zero is one. -/
theorem C177_zero {n : ℕ} {x : ℕ → K} {c : K} : (corr n x 0 = some c → c = 1) ∧ (corr0 n x 0 = some c → c = 1) := by
  constructor
  · intro h
    simp only [corr] at h
    split_ifs at h with h0
    rw [← Option.some.inj h, div_self h0]
  · intro h
    simp only [corr0] at h
    split_ifs at h with h0
    rw [← Option.some.inj h, div_self h0]

/-- C177: the autocorrelation is undefined only for a series that does not move. -/
theorem C177_defined {n : ℕ} (hn : 0 < n) (x : ℕ → K) (lag : ℕ) : corr n x lag = none ↔ ∀ i < n, x i = (∑ j ∈ range n, x j) / n := by
  have hn' : (n : K) ≠ 0 := by exact_mod_cast hn.ne'
  have h : cov n x 0 = 0 ↔ ∀ i < n, x i = (∑ j ∈ range n, x j) / n := by
    rw [cov_eq, Nat.sub_zero, div_eq_zero_iff, or_iff_left hn']
    simp only [add_zero]
    rw [sum_eq_zero_iff_of_nonneg fun i _ => mul_self_nonneg _]
    refine ⟨fun h i hi => ?_, fun h i hi => ?_⟩
    · have := mul_self_eq_zero.1 (h i (mem_range.2 hi))
      rw [dev, if_pos hi] at this
      exact sub_eq_zero.1 this
    · rw [mem_range] at hi
      rw [dev, if_pos hi, h i hi, ← h i hi]
      simp [h i hi]
  rw [← h, corr]
  split_ifs with h0 <;> simp [h0]

theorem dev_units {n : ℕ} (hn : 0 < n) (x : ℕ → K) (a c : K) (i : ℕ) : dev n (fun t => c * x t + a) i = c * dev n x i := by
  have hn' : (n : K) ≠ 0 := by exact_mod_cast hn.ne'
  rw [dev, dev]
  split_ifs
  · rw [sum_add_distrib, ← mul_sum, sum_const, card_range, nsmul_eq_mul]
    field_simp
    ring
  · ring

/-- C177: the autocorrelation does not depend on the units or the origin of the parameter. -/
theorem C177_units {n : ℕ} (hn : 0 < n) (x : ℕ → K) {a c : K} (hc : c ≠ 0) (lag : ℕ) : corr n (fun t => c * x t + a) lag = corr n x lag := by
  have e : ∀ l, cov n (fun t => c * x t + a) l = c ^ 2 * cov n x l := by
    intro l
    rw [cov_eq, cov_eq, ← mul_div_assoc, mul_sum]
    congr 1
    refine sum_congr rfl fun i _ => ?_
    rw [dev_units hn, dev_units hn]; ring
  have hc2 : c ^ 2 ≠ 0 := pow_ne_zero 2 hc
  simp only [corr, e, mul_eq_zero, hc2, false_or]
  split_ifs with h
  · rfl
  · rw [mul_div_mul_left _ _ hc2]

/-- C177: with the series padded (`corr0`) no autocorrelation exceeds one in magnitude.

Missing: `corr` and `acorr`, which divide by the number of pairs (`C177_violated_bound`). -/
theorem C177_bound_partial {n : ℕ} {x : ℕ → K} {lag : ℕ} (hl : lag < n) {c : K} (h : corr0 n x lag = some c) : |c| ≤ 1 := by
  simp only [corr0] at h
  split_ifs at h with h0
  rw [← Option.some.inj h]
  have hn : (0 : K) < n := by exact_mod_cast (by omega : 0 < n)
  rw [cov0_eq n x hl] at *
  rw [cov0_eq n x (by omega : 0 < n)] at *
  have hS : ∑ i ∈ range n, dev n x i * dev n x (i + 0) ≠ 0 := fun h => h0 (by rw [h, zero_div])
  rw [div_div_div_cancel_right₀ hn.ne']
  simp only [add_zero] at *
  have hpos : 0 < ∑ i ∈ range n, dev n x i * dev n x i := lt_of_le_of_ne (sum_nonneg fun i _ => mul_self_nonneg _) hS.symm
  have hsh : ∑ i ∈ range n, dev n x (i + lag) * dev n x (i + lag) ≤ ∑ i ∈ range n, dev n x i * dev n x i := by
    have e : ∑ i ∈ range n, dev n x (i + lag) * dev n x (i + lag) = ∑ i ∈ Ico lag (n + lag), dev n x i * dev n x i := by
      rw [sum_Ico_eq_sum_range, Nat.add_sub_cancel]
      exact sum_congr rfl fun i _ => by rw [add_comm]
    rw [e]
    have e2 : ∑ i ∈ Ico lag (n + lag), dev n x i * dev n x i = ∑ i ∈ Ico lag n, dev n x i * dev n x i := by
      rw [← sum_Ico_consecutive _ hl.le (by omega : n ≤ n + lag)]
      rw [sum_eq_zero (s := Ico n (n + lag)), add_zero]
      intro i hi
      rw [mem_Ico] at hi
      rw [dev, if_neg (by omega), mul_zero]
    rw [e2]
    refine sum_le_sum_of_subset_of_nonneg (fun i hi => ?_) fun i _ _ => mul_self_nonneg _
    rw [mem_Ico] at hi
    exact mem_range.2 hi.2
  rw [abs_div, abs_of_pos hpos, div_le_one hpos, abs_le]
  constructor
  · have : 0 ≤ ∑ i ∈ range n, (dev n x i + dev n x (i + lag)) ^ 2 := sum_nonneg fun i _ => sq_nonneg _
    have e : ∑ i ∈ range n, (dev n x i + dev n x (i + lag)) ^ 2 = ∑ i ∈ range n, dev n x i * dev n x i + ∑ i ∈ range n, dev n x (i + lag) * dev n x (i + lag) + 2 * ∑ i ∈ range n, dev n x i * dev n x (i + lag) := by
      rw [mul_sum, ← sum_add_distrib, ← sum_add_distrib]
      exact sum_congr rfl fun i _ => by ring
    linarith
  · have : 0 ≤ ∑ i ∈ range n, (dev n x i - dev n x (i + lag)) ^ 2 := sum_nonneg fun i _ => sq_nonneg _
    have e : ∑ i ∈ range n, (dev n x i - dev n x (i + lag)) ^ 2 = ∑ i ∈ range n, dev n x i * dev n x i + ∑ i ∈ range n, dev n x (i + lag) * dev n x (i + lag) - 2 * ∑ i ∈ range n, dev n x i * dev n x (i + lag) := by
      rw [mul_sum, ← sum_add_distrib, ← sum_sub_distrib]
      exact sum_congr rfl fun i _ => by ring
    linarith

/-- C177 fails for `corr` and `acorr`: the series 1, 0, -1 has an "autocorrelation" of -3/2 at lag 2. -/
theorem C177_violated_bound : corr 3 (fun t => if t = 0 then (1 : ℚ) else if t = 1 then 0 else -1) 2 = some (-3 / 2) := by decide +kernel

/-- C177: the relation between the two: `corr` is `corr0` times n/(n-lag). -/
theorem C177_ratio {n : ℕ} {x : ℕ → K} {lag : ℕ} (hl : lag < n) : corr n x lag = (corr0 n x lag).map fun c : K => c * (n : K) / ((n - lag : ℕ) : K) := by
  have hn : (n : K) ≠ 0 := by exact_mod_cast (by omega : n ≠ 0)
  have e0 : cov0 n x 0 = cov n x 0 := by rw [cov0_eq n x (by omega), cov_eq]; rfl
  have e : cov0 n x lag * n = cov n x lag * (n - lag : ℕ) := by
    have hnl : ((n - lag : ℕ) : K) ≠ 0 := by exact_mod_cast (by omega : n - lag ≠ 0)
    rw [cov0_eq n x hl, cov_eq, div_mul_cancel₀ _ hn, div_mul_cancel₀ _ hnl]
    have : range (n - lag) ⊆ range n := range_subset_range.2 (by omega)
    rw [← sum_subset this]
    intro i hi hi'
    rw [mem_range] at hi hi'
    rw [show dev n x (i + lag) = 0 by rw [dev, if_neg (by omega)], mul_zero]
  have hnl : ((n - lag : ℕ) : K) ≠ 0 := by exact_mod_cast (by omega : n - lag ≠ 0)
  simp only [corr, corr0, e0]
  split_ifs with h
  · rfl
  · simp only [Option.map_some]
    congr 1
    rw [div_mul_eq_mul_div, e]
    field_simp

theorem covVar_nonneg {n : ℕ} {x : ℕ → K} {lag : ℕ} (hl : lag < n) : 0 ≤ covVar n x lag := by
  have hnl : (0 : K) < ((n - lag : ℕ) : K) := by exact_mod_cast (by omega : 0 < n - lag)
  rw [covVar, cov, loopSum_eq, loopSum_eq, sub_nonneg, div_pow, div_le_div_iff₀ (by positivity) hnl]
  have := sq_sum_le_card_mul_sum_sq (s := range (n - lag)) (f := fun i => (x i - runMean n x) * (x (i + lag) - runMean n x))
  rw [card_range] at this
  nlinarith

/-- C177: the variance of which `corr` writes the root is not negative. -/
theorem C177_variance {n : ℕ} {x : ℕ → K} {lag : ℕ} (hl : lag < n) : 0 ≤ corrVar n x lag := by
  have h1 := covVar_nonneg (x := x) hl
  have h2 := covVar_nonneg (x := x) (show 0 < n by omega)
  simp only [corrVar]
  positivity

/-- C177: `fcorr` agrees with `corr0` where the lag and the length of the series fit into the transform.

Missing: larger lags (`C177_violated_wrap`). -/
theorem C177_transform_partial {n : ℕ} {x : ℕ → K} {sig : K} (hs : sig ≠ 0) {lag : ℕ} (hl : lag < n) (h : n + lag ≤ lenOf n) : fcorr n x sig lag = corr0 n x lag := by
  have hn : (n : K) ≠ 0 := by exact_mod_cast (by omega : n ≠ 0)
  have key : ∀ l, l < n → n + l ≤ lenOf n →
      circ (lenOf n) (fun i => if i < n then (x i - runMean n x) / sig else 0) l = (n / sig ^ 2) * cov0 n x l := by
    intro l hl' h'
    have e : cov0 n x l = (∑ i ∈ range n, dev n x i * dev n x (i + l)) / n := cov0_eq n x hl'
    rw [e, circ, ← sum_subset (range_subset_range.2 (by omega : n ≤ lenOf n))]
    · rw [div_mul_div_comm, mul_comm (n : K), mul_div_mul_right _ _ hn, Finset.sum_div]
      refine sum_congr rfl fun i hi => ?_
      rw [mem_range] at hi
      rw [Nat.mod_eq_of_lt (by omega), dev, if_pos hi, dev, ← runMean_eq]
      simp only [if_pos hi]
      split_ifs
      · field_simp
      · simp
    · intro i _ hi
      rw [mem_range] at hi
      simp [hi]
  simp only [fcorr, corr0]
  rw [key lag hl h, key 0 (by omega) (by omega)]
  have hf : (n / sig ^ 2 : K) ≠ 0 := div_ne_zero hn (pow_ne_zero 2 hs)
  simp only [mul_eq_zero, hf, false_or]
  split_ifs with h0
  · rfl
  · rw [mul_div_mul_left _ _ hf]

/-- A series of 512 samples, 1 at the start and -1 at the end. -/
def ends : ℕ → ℚ := fun t => if t = 0 then 1 else if t = 511 then -1 else 0

theorem ends_mean : runMean 512 ends = 0 := by
  rw [runMean_eq]
  have : ∑ j ∈ range 512, ends j = 0 := by decide +kernel
  rw [this, zero_div]

/-- C177 fails for `fcorr` with a full transform: for the series of 512 samples that starts with 1 and ends with -1 the end is correlated with the start, giving -1/2 at lag 1 where there is no correlation. -/
theorem C177_violated_wrap : fcorr 512 ends 1 1 = some (-1 / 2) ∧ corr0 512 ends 1 = some 0 := by
  constructor
  · have c1 : circ 512 (fun i => if i < 512 then (ends i - 0) / 1 else 0) 1 = -1 := by decide +kernel
    have c0 : circ 512 (fun i => if i < 512 then (ends i - 0) / 1 else 0) 0 = 2 := by decide +kernel
    simp only [fcorr, lenOf, ends_mean]
    norm_num only [if_true]
    rw [c1, c0]
    norm_num
  · have e0 : cov0 512 ends 0 = 2 / 512 := by
      rw [cov0_eq 512 ends (by norm_num)]
      have hz : ∀ i, dev 512 ends i = ends i := by
        intro i
        rw [dev, ← runMean_eq, ends_mean]
        split_ifs with h
        · ring
        · rw [ends, if_neg (by omega), if_neg (by omega)]
      simp only [hz]
      have : ∑ i ∈ range 512, ends i * ends (i + 0) = 2 := by decide +kernel
      rw [this]; norm_num
    have e1 : cov0 512 ends 1 = 0 := by
      rw [cov0_eq 512 ends (by norm_num)]
      have hz : ∀ i, dev 512 ends i = ends i := by
        intro i
        rw [dev, ← runMean_eq, ends_mean]
        split_ifs with h
        · ring
        · rw [ends, if_neg (by omega), if_neg (by omega)]
      simp only [hz]
      have : ∑ i ∈ range 512, ends i * ends (i + 1) = 0 := by decide +kernel
      rw [this]; norm_num
    rw [corr0, e0, e1, if_neg (by norm_num)]
    norm_num

/-- C177: `acorr` writes the mean over runs, and the square of its uncertainty is not negative. -/
theorem C177_average {cs : List K} : (acorrAvg cs).1 = cs.sum / cs.length ∧ 0 ≤ (acorrAvg cs).2 := by
  have hf : ∀ (l : List K) (s : K × K), l.foldl (fun (s : K × K) c => (s.1 + c, s.2 + c * c)) s = (s.1 + l.sum, s.2 + (l.map fun c => c * c).sum) := by
    intro l
    induction l with
    | nil => intro s; simp
    | cons c l ih => intro s; rw [List.foldl_cons, ih]; simp [add_assoc]
  simp only [acorrAvg, hf, zero_add]
  refine ⟨trivial, ?_⟩
  rcases Nat.eq_zero_or_pos cs.length with h | h
  · rw [h]; simp
  · have hp : (0 : K) < cs.length := by exact_mod_cast h
    refine div_nonneg ?_ hp.le
    rw [sub_nonneg, div_pow, div_le_div_iff₀ (by positivity) hp]
    have e1 : cs.sum = ∑ i : Fin cs.length, cs[i] := (Fin.sum_univ_getElem cs).symm
    have e2 : (cs.map fun c => c * c).sum = ∑ i : Fin cs.length, cs[i] ^ 2 := by
      rw [← Fin.sum_univ_fun_getElem cs (fun c => c * c)]
      exact sum_congr rfl fun i _ => by rw [pow_two]; rfl
    have := sq_sum_le_card_mul_sum_sq (s := (univ : Finset (Fin cs.length))) (f := fun i => cs[i])
    rw [card_univ, Fintype.card_fin, ← e1, ← e2] at this
    nlinarith

/-! ## C178: bins -/

/-- C178: a sample in the range, its upper limit excluded, is counted in the bin that contains it.

Missing: the upper limit and samples outside the range (`C178_violated_upper`, `C178_violated_below`). -/
theorem C178_bin_partial {lo hi p : ℚ} {nb : ℕ} (hn : 0 < nb) (h1 : lo ≤ p) (h2 : p < hi) :
    1 ≤ binOf lo hi nb p ∧ binOf lo hi nb p ≤ nb ∧ lo + (binOf lo hi nb p - 1) * ((hi - lo) / nb) ≤ p ∧ p < lo + binOf lo hi nb p * ((hi - lo) / nb) := by
  have hn' : (0 : ℚ) < nb := by exact_mod_cast hn
  have hbw : 0 < (hi - lo) / nb := div_pos (by linarith) hn'
  set bw := (hi - lo) / nb with hbwd
  have hq : 0 ≤ (p - lo) / bw := div_nonneg (by linarith) hbw.le
  have hb : binOf lo hi nb p = ⌊(p - lo) / bw + 1⌋ := by
    simp only [binOf, fint]
    rw [if_pos (by rw [← hbwd]; linarith)]
  have f1 := Int.floor_le ((p - lo) / bw + 1)
  have f2 := Int.lt_floor_add_one ((p - lo) / bw + 1)
  rw [← hb] at f1 f2
  have hlt : (p - lo) / bw < nb := by
    rw [div_lt_iff₀ hbw, hbwd, mul_div_cancel₀ _ hn'.ne']; linarith
  have hp : p - lo = (p - lo) / bw * bw := by field_simp
  refine ⟨?_, ?_, ?_, ?_⟩
  · rw [hb, Int.le_floor]; push_cast; linarith
  · rw [hb, ← Int.lt_add_one_iff, Int.floor_lt]; push_cast; linarith
  · have : ((binOf lo hi nb p : ℚ) - 1) * bw ≤ (p - lo) / bw * bw := mul_le_mul_of_nonneg_right (by linarith) hbw.le
    linarith
  · have : (p - lo) / bw * bw < (binOf lo hi nb p : ℚ) * bw := mul_lt_mul_of_pos_right (by linarith) hbw
    linarith

theorem binCount_eq (lo hi : ℚ) (nb : ℕ) (ps : List ℚ) (n : ℤ) : binCount lo hi nb ps n = ps.countP fun p => binOf lo hi nb p = n := by
  have : ∀ (l : List ℚ) (c : ℕ), l.foldl (fun c p => if binOf lo hi nb p = n then c + 1 else c) c = c + l.countP fun p => binOf lo hi nb p = n := by
    intro l
    induction l with
    | nil => intro c; simp
    | cons p l ih =>
        intro c
        rw [List.foldl_cons, ih, List.countP_cons]
        by_cases h : binOf lo hi nb p = n
        · simp only [h, if_true, decide_true]; ring
        · simp [h]
  rw [binCount, this, zero_add]

/-- C178: if all samples are in the range the bins together contain all of them. -/
theorem C178_total {lo hi : ℚ} {nb : ℕ} (hn : 0 < nb) {ps : List ℚ} (h : ∀ p ∈ ps, lo ≤ p ∧ p < hi) :
    ∑ n ∈ Icc (1 : ℤ) nb, binCount lo hi nb ps n = ps.length := by
  simp only [binCount_eq]
  induction ps with
  | nil => simp
  | cons p ps ih =>
      have hp := h p (by simp)
      have hb := C178_bin_partial hn hp.1 hp.2
      simp only [List.countP_cons, sum_add_distrib, List.length_cons]
      rw [ih fun q hq => h q (by simp [hq])]
      simp only [decide_eq_true_eq]
      rw [sum_ite_eq]
      simp [hb.1, hb.2.1]

/-- C178 fails for a sample at the upper limit: it is counted in an element after the last bin. -/
theorem C178_violated_upper {lo hi : ℚ} {nb : ℕ} (hn : 0 < nb) (h : lo < hi) : binOf lo hi nb hi = nb + 1 := by
  have hn' : (nb : ℚ) ≠ 0 := by exact_mod_cast hn.ne'
  have hd : hi - lo ≠ 0 := by linarith
  have e : (hi - lo) / ((hi - lo) / nb) + 1 = ((nb + 1 : ℤ) : ℚ) := by push_cast; field_simp
  simp only [binOf, fint]
  rw [e, Int.floor_intCast, if_pos]
  exact_mod_cast (by omega : (0 : ℤ) ≤ nb + 1)

/-- C178 fails for a sample below the range by less than a bin: it is counted in the element before the first bin. -/
theorem C178_violated_below {lo hi p : ℚ} {nb : ℕ} (hn : 0 < nb) (h : lo < hi) (h1 : lo - (hi - lo) / nb < p) (h2 : p < lo) : binOf lo hi nb p = 0 := by
  have hn' : (0 : ℚ) < nb := by exact_mod_cast hn
  have hbw : 0 < (hi - lo) / nb := div_pos (by linarith) hn'
  simp only [binOf, fint]
  set bw := (hi - lo) / nb
  have a : -1 < (p - lo) / bw := by rw [lt_div_iff₀ hbw]; linarith
  have b : (p - lo) / bw < 0 := div_neg_of_neg_of_pos (by linarith) hbw
  rw [if_pos (by linarith), Int.floor_eq_iff]
  push_cast
  constructor <;> linarith

/-! ## C179: deletions -/

/-- C179: when a parameter is found stationary the time recorded is that of the last of the samples deleted, the `t0 - 1` first ones and those that `odiag` deletes from the rest.

Missing: no sample deleted at all (`C179_violated_first`). -/
theorem C179_recorded_partial {intvl nt : ℕ} {clen : ℝ} {diagn : ℕ → Option ℕ} {del : ℕ} (h0 : t0Of clen ≤ nt) (hd : diagn (t0Of clen) = some del)
    (h1 : 1 ≤ del + t0Of clen - 1) (h2 : del + t0Of clen - 1 ≤ nt) : rdel intvl nt clen diagn = some (true, (del + t0Of clen - 1 - 1) * intvl) := by
  simp only [rdel]
  rw [if_neg (by omega), hd]
  simp only
  rw [timeAt, if_pos ⟨h1, h2⟩]
  rfl

/-- C179 fails when nothing is to be deleted: with a correlation length below half a step and a series stationary from the start the time is taken from an element before the first. -/
theorem C179_violated_first {intvl nt : ℕ} {clen : ℝ} {diagn : ℕ → Option ℕ} (hn : 1 ≤ nt) (hc : clen < 1 / 2) (hc0 : 0 ≤ clen) (hd : diagn 1 = some 0) : rdel intvl nt clen diagn = none := by
  have h0 : t0Of clen = 1 := by
    rw [t0Of, Nat.floor_eq_iff (by linarith)]
    constructor <;> push_cast <;> linarith
  simp only [rdel, h0]
  rw [if_neg (by omega), hd]
  simp [timeAt]

/-- C179: a parameter that is not stationary, or has too long a correlation length, deletes the whole run. -/
theorem C179_failed {intvl nt : ℕ} {clen : ℝ} {diagn : ℕ → Option ℕ} (hn : 1 ≤ nt) (h : nt < t0Of clen ∨ diagn (t0Of clen) = none) :
    rdel intvl nt clen diagn = some (false, (nt - 1) * intvl) := by
  simp only [rdel]
  have ht : timeAt intvl nt nt = some ((nt - 1) * intvl) := by rw [timeAt, if_pos ⟨hn, le_rfl⟩]
  by_cases h1 : nt + 1 - t0Of clen < 1
  · rw [if_pos h1, ht]; rfl
  · rw [if_neg h1]
    rcases h with h | h
    · omega
    · rw [h]; simp only; rw [ht]; rfl

/-- C179: `moments` gets back from the recorded times how many samples to delete: for each parameter the number that `diag` found, and the largest of them. -/
theorem C179_readback {intvl : ℕ} (hi : 0 < intvl) {js : List ℕ} (hne : js ≠ []) (hj : ∀ j ∈ js, 1 ≤ j) :
    (∀ j ∈ js, j ≤ delOf intvl (js.map fun j => (j - 1) * intvl)) ∧ delOf intvl (js.map fun j => (j - 1) * intvl) ∈ js := by
  have hf : ∀ (l : List ℕ) (d : ℕ), (∀ j ∈ l, 1 ≤ j) → (l.map fun j => (j - 1) * intvl).foldl (fun d v => max d (v / intvl + 1)) d = l.foldl max d := by
    intro l
    induction l with
    | nil => intro d _; rfl
    | cons j l ih =>
        intro d h
        have := h j (by simp)
        rw [List.map_cons, List.foldl_cons, List.foldl_cons, Nat.mul_div_cancel _ hi, Nat.sub_add_cancel this]
        exact ih _ fun k hk => h k (by simp [hk])
  have hm : ∀ (l : List ℕ) (d : ℕ), (∀ j ∈ l, j ≤ l.foldl max d) ∧ d ≤ l.foldl max d ∧ (l.foldl max d = d ∨ l.foldl max d ∈ l) := by
    intro l
    induction l with
    | nil => intro d; simp
    | cons j l ih =>
        intro d
        obtain ⟨a, b, c⟩ := ih (max d j)
        rw [List.foldl_cons]
        refine ⟨fun k hk => ?_, le_trans (le_max_left _ _) b, ?_⟩
        · rcases List.mem_cons.1 hk with rfl | hk
          · exact le_trans (le_max_right _ _) b
          · exact a k hk
        · rcases c with c | c
          · rw [c]
            rcases max_choice d j with h | h
            · exact Or.inl h
            · rw [h]; exact Or.inr (by simp)
          · exact Or.inr (by simp [c])
  cases js with
  | nil => exact absurd rfl hne
  | cons j js =>
      have h1 := hj j (by simp)
      rw [List.map_cons, delOf, Nat.mul_div_cancel _ hi, Nat.sub_add_cancel h1, hf js j fun k hk => hj k (by simp [hk])]
      obtain ⟨a, b, c⟩ := hm js j
      refine ⟨fun k hk => ?_, ?_⟩
      · rcases List.mem_cons.1 hk with rfl | hk
        · exact b
        · exact a k hk
      · rcases c with c | c
        · rw [c]; simp
        · simp [c]

/-- Three parameters with 5, 12 and 1 samples to delete at intervals of 10; a correlation length of two steps. -/
example : delOf 10 [40, 110, 0] = 12 ∧ t0Of 2 = 5 := by
  refine ⟨by decide, ?_⟩
  rw [t0Of]; norm_num

end Verif.Odiag
