import Verif.Tno.Tno
import Mathlib.Analysis.SpecialFunctions.Gaussian.PoissonSummation
import Mathlib.Analysis.SpecificLimits.Normed
import Mathlib.Analysis.Complex.ExponentialBounds
import Mathlib.Analysis.Real.Pi.Bounds

/-!
# Lemmas for C167: the distribution of the Kolmogorov-Smirnov distance
-/

set_option linter.unusedSectionVars false

noncomputable section

namespace Verif.Tno

open Real Filter Topology

/-- The asymptotic probability that the scaled Kolmogorov-Smirnov distance exceeds `lam`: 2 Σ (-1)^(j-1) exp(-2 j² lam²), j = 1, 2, ... -/
def ksTail (lam : ℝ) : ℝ := 2 * ∑' i : ℕ, (-1) ^ i * exp (-2 * lam ^ 2 * ((i : ℝ) + 1) ^ 2)

/-- The terms of the series without their signs. -/
def kst (lam : ℝ) (i : ℕ) : ℝ := 2 * exp (-2 * lam ^ 2 * ((i : ℝ) + 1) ^ 2)

theorem kst_pos (lam : ℝ) (i : ℕ) : 0 < kst lam i := mul_pos two_pos (exp_pos _)

theorem kst_anti (lam : ℝ) : Antitone (kst lam) := by
  intro i j h
  refine mul_le_mul_of_nonneg_left (exp_le_exp.2 ?_) two_pos.le
  have hij : ((i : ℝ) + 1) ^ 2 ≤ ((j : ℝ) + 1) ^ 2 := by
    have : (i : ℝ) ≤ j := by exact_mod_cast h
    gcongr
  nlinarith [sq_nonneg lam]

theorem summable_sq {c : ℝ} (hc : 0 < c) : Summable fun i : ℕ => exp (-c * ((i : ℝ) + 1) ^ 2) := by
  have hg : Summable fun i : ℕ => exp (-c) ^ i := summable_geometric_of_lt_one (exp_pos _).le (by rw [exp_lt_one_iff]; linarith)
  refine Summable.of_nonneg_of_le (fun i => (exp_pos _).le) (fun i => ?_) hg
  rw [← exp_nat_mul]
  refine exp_le_exp.2 ?_
  have h0 : (0 : ℝ) ≤ i := Nat.cast_nonneg i
  nlinarith [mul_nonneg hc.le h0, mul_nonneg hc.le (mul_nonneg h0 h0)]

theorem summable_alt {c : ℝ} (hc : 0 < c) : Summable fun i : ℕ => (-1 : ℝ) ^ i * exp (-c * ((i : ℝ) + 1) ^ 2) := by
  refine Summable.of_norm ?_
  refine (summable_sq hc).congr fun i => ?_
  rw [norm_mul, norm_pow, norm_neg, norm_one, one_pow, one_mul, norm_of_nonneg (exp_pos _).le]

/-- The partial sums tend to the tail probability. -/
theorem kst_tendsto {lam : ℝ} (h : 0 < lam) : Tendsto (fun n => ∑ i ∈ Finset.range n, (-1) ^ i * kst lam i) atTop (𝓝 (ksTail lam)) := by
  have hc : 0 < 2 * lam ^ 2 := by positivity
  have hs := ((summable_alt hc).hasSum.mul_left 2).tendsto_sum_nat
  have e : ksTail lam = 2 * ∑' i : ℕ, (-1 : ℝ) ^ i * exp (-(2 * lam ^ 2) * ((i : ℝ) + 1) ^ 2) := by
    rw [ksTail]; simp only [neg_mul]
  rw [e]
  refine hs.congr fun n => Finset.sum_congr rfl fun i _ => ?_
  simp only [kst, neg_mul]
  ring

/-- A partial sum differs from the limit by no more than the first term left out. -/
theorem kst_error {lam : ℝ} (h : 0 < lam) (n : ℕ) : |∑ i ∈ Finset.range n, (-1) ^ i * kst lam i - ksTail lam| ≤ kst lam n := by
  have ht := kst_tendsto h
  rcases Nat.even_or_odd' n with ⟨k, rfl | rfl⟩
  · have a := (kst_anti lam).alternating_series_le_tendsto ht k
    have b := (kst_anti lam).tendsto_le_alternating_series ht k
    rw [Finset.sum_range_succ, pow_mul, neg_one_sq, one_pow, one_mul] at b
    rw [abs_le]; constructor <;> linarith [kst_pos lam (2 * k)]
  · have a := (kst_anti lam).alternating_series_le_tendsto ht (k + 1)
    have b := (kst_anti lam).tendsto_le_alternating_series ht k
    rw [show 2 * (k + 1) = 2 * k + 1 + 1 by ring, Finset.sum_range_succ, pow_succ, pow_mul, neg_one_sq, one_pow, one_mul] at a
    rw [abs_le]; constructor <;> linarith [kst_pos lam (2 * k + 1)]

theorem ksTail_pos {lam : ℝ} (h : 0 < lam) : 0 < ksTail lam := by
  have a := (kst_anti lam).alternating_series_le_tendsto (kst_tendsto h) 1
  rw [show 2 * 1 = 2 from rfl, Finset.sum_range_succ, Finset.sum_range_one] at a
  have : kst lam 1 < kst lam 0 := by
    refine mul_lt_mul_of_pos_left (exp_lt_exp.2 ?_) two_pos
    have : 0 < lam ^ 2 := by positivity
    push_cast
    nlinarith
  simp at a
  linarith

theorem summable_half {c : ℝ} (hc : 0 < c) : Summable fun i : ℕ => exp (-c * ((i : ℝ) + 1 / 2) ^ 2) := by
  have hg : Summable fun i : ℕ => exp (-c) ^ i := summable_geometric_of_lt_one (exp_pos _).le (by rw [exp_lt_one_iff]; linarith)
  refine Summable.of_nonneg_of_le (fun i => (exp_pos _).le) (fun i => ?_) hg
  rw [← exp_nat_mul]
  refine exp_le_exp.2 ?_
  have h0 : (0 : ℝ) ≤ i := Nat.cast_nonneg i
  nlinarith [mul_nonneg hc.le (mul_nonneg h0 h0)]

/-- The same probability by the other series: 1 - √(2π)/lam Σ exp(-π² (2i+1)²/(8 lam²)). -/
theorem ksTail_theta {lam : ℝ} (h : 0 < lam) :
    1 - ksTail lam = √(π / (2 * lam ^ 2)) * (2 * ∑' i : ℕ, exp (-(π ^ 2 / (2 * lam ^ 2)) * ((i : ℝ) + 1 / 2) ^ 2)) := by
  set a : ℝ := 2 * lam ^ 2 / π with ha
  have hl2 : 0 < lam ^ 2 := by positivity
  have ha0 : 0 < a := div_pos (by positivity) pi_pos
  have hc : 0 < 2 * lam ^ 2 := by positivity
  have hc' : 0 < π ^ 2 / (2 * lam ^ 2) := by positivity
  have key := Complex.tsum_exp_neg_quadratic (a := (a : ℂ)) (by simpa using ha0) (-Complex.I / 2)
  -- the left side
  have hL : HasSum (fun n : ℤ => Complex.exp (-π * a * n ^ 2 + 2 * π * (-Complex.I / 2) * n)) (((1 - ksTail lam : ℝ)) : ℂ) := by
    have term : ∀ n : ℤ, Complex.exp (-π * a * n ^ 2 + 2 * π * (-Complex.I / 2) * n) = (((-1 : ℝ) ^ n.natAbs * exp (-(2 * lam ^ 2) * (n : ℝ) ^ 2) : ℝ) : ℂ) := by
      intro n
      rw [Complex.exp_add]
      have e1 : Complex.exp (2 * π * (-Complex.I / 2) * n) = (((-1 : ℝ) ^ n.natAbs : ℝ) : ℂ) := by
        have : (2 * π * (-Complex.I / 2) * n : ℂ) = ((-n : ℤ) : ℂ) * (π * Complex.I) := by push_cast; ring
        rw [this, Complex.exp_int_mul, Complex.exp_pi_mul_I]
        push_cast
        rcases Int.natAbs_eq n with hn | hn
        · rw [hn, Int.natAbs_natCast, zpow_neg, zpow_natCast]
          rcases Nat.even_or_odd n.natAbs with he | he
          · rw [he.neg_one_pow]; norm_num
          · rw [he.neg_one_pow]; norm_num
        · rw [hn, Int.natAbs_neg, Int.natAbs_natCast, neg_neg, zpow_natCast]
      have e2 : Complex.exp (-π * a * n ^ 2) = ((exp (-(2 * lam ^ 2) * (n : ℝ) ^ 2) : ℝ) : ℂ) := by
        rw [Complex.ofReal_exp]
        congr 1
        have : (-(2 * lam ^ 2) * (n : ℝ) ^ 2) = -π * a * (n : ℝ) ^ 2 := by rw [ha]; field_simp
        rw [this]
        push_cast
        ring
      rw [e1, e2, mul_comm]
      push_cast
      ring
    have hq : HasSum (fun i : ℕ => (-1 : ℝ) ^ (i + 1) * exp (-(2 * lam ^ 2) * ((i : ℝ) + 1) ^ 2)) (-(ksTail lam / 2)) := by
      have e : -(ksTail lam / 2) = -1 * ∑' i : ℕ, (-1 : ℝ) ^ i * exp (-(2 * lam ^ 2) * ((i : ℝ) + 1) ^ 2) := by
        rw [ksTail]; simp only [neg_mul]; ring
      rw [e]
      refine ((summable_alt hc).hasSum.mul_left (-1)).congr_fun ?_ |> id
      intro i
      ring
    have h1 : HasSum (fun n : ℕ => (-1 : ℝ) ^ n * exp (-(2 * lam ^ 2) * (n : ℝ) ^ 2)) (1 - ksTail lam / 2) := by
      rw [← hasSum_nat_add_iff' 1]
      simp only [Finset.sum_range_one]
      have : (1 - ksTail lam / 2 - (-1 : ℝ) ^ 0 * exp (-(2 * lam ^ 2) * ((0 : ℕ) : ℝ) ^ 2)) = -(ksTail lam / 2) := by simp
      rw [this]
      refine hq.congr_fun ?_ |> id
      intro i
      push_cast
      ring
    have hr : HasSum (fun n : ℤ => (-1 : ℝ) ^ n.natAbs * exp (-(2 * lam ^ 2) * (n : ℝ) ^ 2)) (1 - ksTail lam) := by
      have := HasSum.of_nat_of_neg_add_one (f := fun n : ℤ => (-1 : ℝ) ^ n.natAbs * exp (-(2 * lam ^ 2) * (n : ℝ) ^ 2)) (m := 1 - ksTail lam / 2) (m' := -(ksTail lam / 2)) ?_ ?_
      · convert this using 1; ring
      · simpa using h1
      · refine hq.congr_fun ?_ |> id
        intro i
        have : (-((i : ℤ) + 1)).natAbs = i + 1 := by omega
        rw [this]
        push_cast
        ring_nf
    simp_rw [term]
    exact_mod_cast hr
  -- the right side
  set S : ℝ := ∑' i : ℕ, exp (-(π ^ 2 / (2 * lam ^ 2)) * ((i : ℝ) + 1 / 2) ^ 2) with hS
  have hR : HasSum (fun n : ℤ => Complex.exp (-π / a * (n + Complex.I * (-Complex.I / 2)) ^ 2)) ((2 * S : ℝ) : ℂ) := by
    have term : ∀ n : ℤ, Complex.exp (-π / a * (n + Complex.I * (-Complex.I / 2)) ^ 2) = ((exp (-(π ^ 2 / (2 * lam ^ 2)) * ((n : ℝ) + 1 / 2) ^ 2) : ℝ) : ℂ) := by
      intro n
      rw [Complex.ofReal_exp]
      congr 1
      have e1 : Complex.I * (-Complex.I / 2) = 1 / 2 := by
        rw [mul_div_assoc', mul_neg, Complex.I_mul_I, neg_neg]
      have e2 : -(π ^ 2 / (2 * lam ^ 2)) = -π / a := by rw [ha]; field_simp
      rw [e1, e2]
      push_cast
      ring
    have h1 : HasSum (fun i : ℕ => exp (-(π ^ 2 / (2 * lam ^ 2)) * ((i : ℝ) + 1 / 2) ^ 2)) S := (summable_half hc').hasSum
    have hr : HasSum (fun n : ℤ => exp (-(π ^ 2 / (2 * lam ^ 2)) * ((n : ℝ) + 1 / 2) ^ 2)) (2 * S) := by
      rw [show 2 * S = S + S by ring]
      refine HasSum.of_nat_of_neg_add_one (f := fun n : ℤ => exp (-(π ^ 2 / (2 * lam ^ 2)) * ((n : ℝ) + 1 / 2) ^ 2)) ?_ ?_
      · simpa using h1
      · refine h1.congr_fun ?_ |> id
        intro i
        push_cast
        congr 1
        ring
    simp_rw [term]
    exact_mod_cast hr
  rw [hL.tsum_eq, hR.tsum_eq] at key
  have hroot : (1 / (a : ℂ) ^ (1 / 2 : ℂ)) = ((√(π / (2 * lam ^ 2)) : ℝ) : ℂ) := by
    have e1 : ((a : ℂ) ^ (1 / 2 : ℂ)) = ((a ^ (1 / 2 : ℝ) : ℝ) : ℂ) := by
      rw [Complex.ofReal_cpow ha0.le]; norm_num
    rw [e1, ← Real.sqrt_eq_rpow]
    have e2 : π / (2 * lam ^ 2) = a⁻¹ := by rw [ha, inv_div]
    rw [e2, Real.sqrt_inv]
    push_cast
    ring
  rw [hroot] at key
  exact_mod_cast key

theorem ksTail_lt_one {lam : ℝ} (h : 0 < lam) : ksTail lam < 1 := by
  have := ksTail_theta h
  have hp : 0 < ∑' i : ℕ, exp (-(π ^ 2 / (2 * lam ^ 2)) * ((i : ℝ) + 1 / 2) ^ 2) :=
    (summable_half (by positivity)).tsum_pos (fun i => (exp_pos _).le) 0 (exp_pos _)
  have hr : 0 < √(π / (2 * lam ^ 2)) := Real.sqrt_pos.2 (by positivity)
  nlinarith [mul_pos hr hp]

/-- For small distances the probability is one to high accuracy. -/
theorem ksTail_small {lam : ℝ} (h : 0 < lam) (hs : lam ^ 2 ≤ 7 / 398) : 1 - ksTail lam ≤ 1 / 1000000 := by
  rw [ksTail_theta h]
  set c := π ^ 2 / (2 * lam ^ 2) with hcdef
  have hl2 : 0 < lam ^ 2 := by positivity
  have hc : 200 ≤ c := by
    rw [hcdef, le_div_iff₀ (by positivity)]
    nlinarith [pi_gt_three]
  have hsum : ∑' i : ℕ, exp (-c * ((i : ℝ) + 1 / 2) ^ 2) ≤ exp (-c / 4) * 2 := by
    have hx1 : exp (-c) ≤ 1 / 2 := by
      have : exp (-c) ≤ exp (-1) := exp_le_exp.2 (by linarith)
      have := exp_neg_one_lt_d9
      linarith
    have hgeo : HasSum (fun i : ℕ => exp (-c / 4) * exp (-c) ^ i) (exp (-c / 4) * (1 - exp (-c))⁻¹) :=
      (hasSum_geometric_of_lt_one (exp_pos _).le (by linarith)).mul_left _
    calc ∑' i : ℕ, exp (-c * ((i : ℝ) + 1 / 2) ^ 2) ≤ ∑' i : ℕ, exp (-c / 4) * exp (-c) ^ i := by
          refine (summable_half (by linarith)).tsum_le_tsum (fun i => ?_) hgeo.summable
          rw [← exp_nat_mul, ← exp_add]
          refine exp_le_exp.2 ?_
          have h0 : (0 : ℝ) ≤ i := Nat.cast_nonneg i
          nlinarith [mul_nonneg (by linarith : (0 : ℝ) ≤ c) (mul_nonneg h0 h0)]
      _ = exp (-c / 4) * (1 - exp (-c))⁻¹ := hgeo.tsum_eq
      _ ≤ exp (-c / 4) * 2 := by
          refine mul_le_mul_of_nonneg_left ?_ (exp_pos _).le
          rw [inv_le_comm₀ (by linarith) (by norm_num)]
          linarith
  have hroot : √(π / (2 * lam ^ 2)) ≤ c := by
    have : π / (2 * lam ^ 2) ≤ c := by
      rw [hcdef]
      gcongr
      nlinarith [pi_gt_three]
    refine (Real.sqrt_le_sqrt this).trans ?_
    rw [Real.sqrt_le_left (by linarith)]
    nlinarith
  have h8 : c ≤ 8 * exp (c / 8) := by
    have := add_one_le_exp (c / 8)
    linarith
  have h25 : exp (-c / 8) ≤ 1 / 2 ^ 25 := by
    have h1 : exp (-c / 8) ≤ exp (-25) := exp_le_exp.2 (by linarith)
    have h2 : exp (-25) = exp (-1) ^ 25 := by rw [← exp_nat_mul]; norm_num
    have h3 : exp (-1) ^ 25 ≤ (1 / 2) ^ 25 := by
      have := exp_neg_one_lt_d9
      exact pow_le_pow_left₀ (exp_pos _).le (by linarith) 25
    rw [h2] at h1
    calc exp (-c / 8) ≤ (1 / 2) ^ 25 := h1.trans h3
      _ = 1 / 2 ^ 25 := by norm_num
  have hprod : exp (c / 8) * exp (-c / 4) = exp (-c / 8) := by rw [← exp_add]; ring_nf
  calc √(π / (2 * lam ^ 2)) * (2 * ∑' i : ℕ, exp (-c * ((i : ℝ) + 1 / 2) ^ 2)) ≤ c * (2 * (exp (-c / 4) * 2)) := by
        refine mul_le_mul hroot (mul_le_mul_of_nonneg_left hsum two_pos.le) ?_ (by linarith)
        exact mul_nonneg two_pos.le (tsum_nonneg fun i => (exp_pos _).le)
    _ ≤ 8 * exp (c / 8) * (2 * (exp (-c / 4) * 2)) := by
        refine mul_le_mul_of_nonneg_right h8 (by positivity)
    _ = 32 * exp (-c / 8) := by rw [← hprod]; ring
    _ ≤ 32 * (1 / 2 ^ 25) := by linarith
    _ ≤ 1 / 1000000 := by norm_num

end Verif.Tno
