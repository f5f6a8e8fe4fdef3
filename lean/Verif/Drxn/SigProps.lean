import Verif.Drxn.DrxnLemmas
import Mathlib.Analysis.Real.Pi.Bounds
import Mathlib.Analysis.SpecialFunctions.Integrals.Basic

/-!
# Theorems on the concentration of an uncertainty (C131)
-/

set_option linter.unusedSectionVars false

namespace Verif.Drxn

open Verif Real

/-! ### The probability within an angle -/

theorem cap_integral (κ σ : ℝ) (hk : κ ≠ 0) : ∫ t in (0)..σ, exp (κ * cos t) * sin t = (exp κ - exp (κ * cos σ)) / κ := by
  have hd : ∀ t, HasDerivAt (fun t => -exp (κ * cos t) / κ) (exp (κ * cos t) * sin t) t := by
    intro t
    have h1 := ((((hasDerivAt_cos t).const_mul κ).exp).neg).div_const κ
    refine h1.congr_deriv ?_
    field_simp
  rw [intervalIntegral.integral_eq_sub_of_hasDerivAt (fun t _ => hd t) (by
    refine Continuous.intervalIntegrable ?_ _ _
    fun_prop)]
  rw [cos_zero, mul_one]
  ring

theorem exp_two_lt (κ : ℝ) (hk : 0 < κ) : exp (-2 * κ) < 1 := by rw [exp_lt_one_iff]; linarith

theorem capProb_eq (κ σ : ℝ) (hk : 0 < κ) : capProb κ σ = (1 - exp (κ * (cos σ - 1))) / (1 - exp (-2 * κ)) := by
  have h1 := exp_two_lt κ hk
  unfold capProb
  rw [cap_integral _ _ hk.ne', cap_integral _ _ hk.ne', cos_pi]
  have e1 : exp (κ * cos σ) = exp κ * exp (κ * (cos σ - 1)) := by rw [← exp_add]; ring_nf
  have e2 : exp (κ * -1) = exp κ * exp (-2 * κ) := by rw [← exp_add]; ring_nf
  rw [e1, e2]
  have h2 : 1 - exp (-2 * κ) ≠ 0 := by linarith
  have h3 : exp κ - exp κ * exp (-2 * κ) ≠ 0 := by
    rw [show exp κ - exp κ * exp (-2 * κ) = exp κ * (1 - exp (-2 * κ)) by ring]
    exact mul_ne_zero (exp_pos _).ne' h2
  rw [div_div_div_cancel_right₀ hk.ne', div_eq_div_iff h3 h2]
  ring

/-! ### What a value returned satisfies -/

theorem loop_val (csig : ℝ) (n : ℕ) (k κ : ℝ) (hk : 0 ≤ k) (h : sigLoop csig n k = .val κ) :
    ∃ k0, 0 < k0 ∧ slope csig k0 ≠ 0 ∧ κ = stepK csig k0 ∧ ¬ epsS < |κ - k0| / κ ∧ κ ≠ 0 := by
  induction n generalizing k with
  | zero => cases h
  | succ n ih =>
    unfold sigLoop at h
    split_ifs at h with h1 h2 h3 h4
    · exact ih 0 le_rfl h
    · have hp : 0 < stepK csig k := by
        by_contra hc
        have : |stepK csig k - k| / stepK csig k ≤ 0 := div_nonpos_of_nonneg_of_nonpos (abs_nonneg _) (not_lt.1 hc)
        have h0 : (0 : ℝ) < epsS := by unfold epsS; norm_num
        linarith
      exact ih _ hp.le h
    · cases h
      exact ⟨k, lt_of_le_of_ne hk (Ne.symm h1), h2, rfl, h4, h3⟩

theorem xexp (x : ℝ) : x * exp (-x) ≤ 1 - exp (-x) := by
  have h := add_one_le_exp x
  have h1 : exp x * exp (-x) = 1 := by rw [← exp_add]; simp
  nlinarith [exp_pos (-x)]

theorem denom_pos (k : ℝ) (hk : 0 < k) : 0 < denom k := by
  unfold denom ekk
  split
  · have := exp_two_lt k hk; linarith
  · norm_num

theorem numer_le (c k : ℝ) (hk : 0 < k) (hc : -1 ≤ c) : numer c k ≤ 1 - exp (-2 * k) := by
  unfold numer
  have : exp (-2 * k) ≤ exp (k * (c - 1)) := exp_le_exp.2 (by nlinarith)
  linarith

theorem numer_nonneg (c k : ℝ) (hk : 0 < k) (hc : c ≤ 1) : 0 ≤ numer c k := by
  unfold numer
  have : exp (k * (c - 1)) ≤ 1 := by rw [exp_le_one_iff]; nlinarith
  linarith

/-- The probability's relative rate of change, as the code has it, is at most two. -/
theorem slope_le (c k : ℝ) (hk : 0 < k) (h1 : -1 ≤ c) (h2 : c ≤ 1) : k * slope c k / denom k ≤ 2 := by
  have hd := denom_pos k hk
  have hy := xexp (k * (1 - c))
  rw [show -(k * (1 - c)) = k * (c - 1) by ring] at hy
  rw [div_le_iff₀ hd]
  unfold slope
  by_cases h : k < 250
  · have e1 : ekk k = exp (-2 * k) := if_pos h
    have e2 : denom k = 1 - exp (-2 * k) := by unfold denom; rw [e1]
    have hx := xexp (2 * k)
    rw [show -(2 * k) = -2 * k by ring, ← e2] at hx
    have hP : numer c k / denom k ≤ 1 := by rw [div_le_one hd, e2]; exact numer_le c k hk h1
    have hP0 : 0 ≤ numer c k / denom k := div_nonneg (numer_nonneg c k hk h2) hd.le
    have hn := numer_le c k hk h1
    rw [← e2] at hn
    have hn' : numer c k = 1 - exp (k * (c - 1)) := rfl
    rw [e1]
    have a1 : 2 * k * exp (-2 * k) * (numer c k / denom k) ≤ denom k := by
      calc _ ≤ denom k * (numer c k / denom k) := mul_le_mul_of_nonneg_right hx hP0
        _ ≤ denom k * 1 := mul_le_mul_of_nonneg_left hP hd.le
        _ = denom k := mul_one _
    have a2 : k * (2 * numer c k * exp (-2 * k) / denom k - (c - 1) * exp (k * (c - 1))) =
        2 * k * exp (-2 * k) * (numer c k / denom k) + k * (1 - c) * exp (k * (c - 1)) := by ring
    rw [a2]
    linarith
  · have e1 : ekk k = 0 := if_neg h
    have e2 : denom k = 1 := by unfold denom; rw [e1]; ring
    rw [e1, e2]
    have := exp_pos (k * (c - 1))
    nlinarith

/-- What the code takes for the probability is that probability, to ten places. -/
theorem cap_near (σ k : ℝ) (hk : 0 < k) : |capProb k σ - numer (cos σ) k / denom k| ≤ 1 / 10 ^ 8 := by
  rw [capProb_eq _ _ hk]
  by_cases h : k < 250
  · have e1 : ekk k = exp (-2 * k) := if_pos h
    unfold denom numer
    rw [e1, sub_self, abs_zero]; positivity
  · have e1 : ekk k = 0 := if_neg h
    have hn0 := numer_nonneg (cos σ) k hk (cos_le_one σ)
    have hn1 : numer (cos σ) k ≤ 1 := by unfold numer; have := exp_pos (k * (cos σ - 1)); linarith
    have hq : exp (-2 * k) ≤ 1 / 2 ^ 30 := by
      calc exp (-2 * k) ≤ exp (-30) := exp_le_exp.2 (by linarith)
        _ = (exp 1 ^ 30)⁻¹ := by rw [exp_neg, ← exp_nat_mul]; norm_num
        _ ≤ 1 / 2 ^ 30 := by
          rw [one_div]
          exact inv_anti₀ (by norm_num) (pow_le_pow_left₀ (by norm_num) (by have := add_one_le_exp (1 : ℝ); linarith) 30)
    have hq0 := exp_pos (-2 * k)
    unfold denom
    rw [e1, show (1 : ℝ) - 0 = 1 by ring, div_one]
    change |numer (cos σ) k / (1 - exp (-2 * k)) - numer (cos σ) k| ≤ _
    generalize exp (-2 * k) = q at *
    have hd : 0 < 1 - q := by norm_num at hq; linarith
    have : numer (cos σ) k / (1 - q) - numer (cos σ) k = numer (cos σ) k * q / (1 - q) := by field_simp; ring
    rw [this, abs_of_nonneg (by positivity), div_le_iff₀ hd]
    norm_num at hq ⊢
    nlinarith

/-- When a positive concentration is returned, a concentration within a part in 10^5 of it puts 68.3%, within 0.003%, inside the angle
given.  Missing: that one is returned at all; it is for angles up to 0.09 radians (`C131_small`), and it is not for a quarter turn
(`C131_violated_quarter`). -/
theorem C131_concentration_partial (σ κ : ℝ) (h : sigToKappa σ = .val κ) (hk : 0 < κ) :
    ∃ κ', 0 < κ' ∧ |κ - κ'| ≤ κ / 10 ^ 5 ∧ |capProb κ' σ - 683 / 1000| ≤ 3 / 10 ^ 5 := by
  unfold sigToKappa at h
  split_ifs at h with h0
  obtain ⟨k0, hk0, hs, hκ, he, -⟩ := loop_val _ _ _ _ (by unfold guessS; positivity) h
  have he' : |κ - k0| ≤ epsS * κ := by rwa [not_lt, div_le_iff₀ hk] at he
  have hn := cap_near σ k0 hk0
  have hd := denom_pos k0 hk0
  have h2 := slope_le (cos σ) k0 hk0 (neg_one_le_cos σ) (cos_le_one σ)
  have hf : (numer (cos σ) k0 / denom k0 - cC) * k0 = (k0 - κ) * (k0 * slope (cos σ) k0 / denom k0) := by
    rw [hκ]; unfold stepK; field_simp; ring
  have hs0 : 0 ≤ k0 * slope (cos σ) k0 / denom k0 := by
    refine div_nonneg (mul_nonneg hk0.le ?_) hd.le
    unfold slope
    have a1 : 0 ≤ 2 * numer (cos σ) k0 * ekk k0 / denom k0 := by
      refine div_nonneg (mul_nonneg (mul_nonneg (by norm_num) (numer_nonneg _ _ hk0 (cos_le_one σ))) ?_) hd.le
      unfold ekk
      split
      · exact (exp_pos _).le
      · exact le_rfl
    have a2 : 0 ≤ (1 - cos σ) * exp (k0 * (cos σ - 1)) := mul_nonneg (by linarith [cos_le_one σ]) (exp_pos _).le
    linarith
  have hb : |numer (cos σ) k0 / denom k0 - cC| * k0 ≤ epsS * κ * 2 := by
    have : |numer (cos σ) k0 / denom k0 - cC| * k0 = |κ - k0| * (k0 * slope (cos σ) k0 / denom k0) := by
      rw [← abs_of_pos hk0, ← abs_mul, abs_of_pos hk0, hf, abs_mul, abs_of_nonneg hs0, abs_sub_comm]
    rw [this]
    exact mul_le_mul he' h2 hs0 (by unfold epsS; positivity)
  have heps : epsS ≤ 1 / 10 ^ 5 := by unfold epsS; norm_num
  have hkk : κ ≤ 11 / 10 * k0 := by
    have := (abs_le.1 he').2
    nlinarith
  have hb2 : |numer (cos σ) k0 / denom k0 - cC| ≤ 22 / 10 ^ 6 := by
    refine le_of_mul_le_mul_right (hb.trans ?_) hk0
    have : epsS * κ ≤ 1 / 10 ^ 5 * (11 / 10 * k0) := mul_le_mul heps hkk hk.le (by norm_num)
    linarith
  refine ⟨k0, hk0, he'.trans ?_, ?_⟩
  · have := mul_le_mul_of_nonneg_right heps hk.le
    linarith
  · have hC : |cC - 683 / 1000| ≤ 1 / 10 ^ 6 := by unfold cC; rw [abs_le]; norm_num
    rw [abs_le] at hn hb2 hC ⊢
    constructor <;> linarith [hn.1, hn.2, hb2.1, hb2.2, hC.1, hC.2]

/-! ### Small angles -/

theorem exp_quad (z : ℝ) (h : |z| ≤ 1) : |exp z - 1 - z| ≤ z ^ 2 := abs_exp_sub_one_sub_id_le h

/-- The logarithm of one over the complement of the probability. -/
theorem ystar_bounds : (11487 : ℝ) / 10000 ≤ -log (1 - cC) ∧ -log (1 - cC) ≤ 1149 / 1000 := by
  have e : (1 : ℝ) - cC = 5318377 / 16777216 := by unfold cC; norm_num
  rw [e, ← log_inv, inv_div]
  constructor
  · rw [le_log_iff_exp_le (by norm_num), show (11487 : ℝ) / 10000 = 1 + 1487 / 10000 by norm_num, exp_add]
    have h1 := exp_bound' (x := (1487 : ℝ) / 10000) (by norm_num) (by norm_num) (n := 4) (by norm_num)
    simp only [Finset.sum_range_succ, Finset.sum_range_zero, Nat.factorial] at h1
    norm_num at h1
    have h2 := exp_one_lt_d9
    calc exp 1 * exp (1487 / 10000) ≤ 2.7182818286 * exp (1487 / 10000) := mul_le_mul_of_nonneg_right h2.le (exp_pos _).le
      _ ≤ _ := by norm_num; linarith
  · rw [log_le_iff_le_exp (by norm_num), show (1149 : ℝ) / 1000 = 1 + 149 / 1000 by norm_num, exp_add]
    have h1 := sum_le_exp_of_nonneg (x := (149 : ℝ) / 1000) (by norm_num) 4
    simp only [Finset.sum_range_succ, Finset.sum_range_zero, Nat.factorial] at h1
    norm_num at h1
    have h2 := exp_one_gt_d9
    calc _ ≤ 2.7182818283 * exp (149 / 1000) := by norm_num; linarith
      _ ≤ exp 1 * exp (149 / 1000) := mul_le_mul_of_nonneg_right h2.le (exp_pos _).le

/-- A step for a large concentration, in the variable `(1 - cos sig)*kappa`. -/
theorem step_large (c k : ℝ) (hk : 250 ≤ k) (hc : c < 1) :
    slope c k ≠ 0 ∧ (1 - c) * stepK c k = (1 - c) * k + 1 - exp ((1 - c) * k + log (1 - cC)) := by
  have e1 : ekk k = 0 := if_neg (not_lt.2 hk)
  have e2 : denom k = 1 := by unfold denom; rw [e1]; ring
  have hp := exp_pos (k * (c - 1))
  have hC : (0 : ℝ) < 1 - cC := by unfold cC; norm_num
  have hs : slope c k = (1 - c) * exp (k * (c - 1)) := by unfold slope; rw [e1, e2]; ring
  have h1 : 0 < 1 - c := by linarith
  refine ⟨by rw [hs]; positivity, ?_⟩
  unfold stepK
  rw [hs, e2, exp_add, exp_log hC]
  have e3 : exp ((1 - c) * k) = (exp (k * (c - 1)))⁻¹ := by rw [← exp_neg]; ring_nf
  rw [e3]
  unfold numer
  field_simp
  ring

/-- For every uncertainty up to 0.09 radians (more than five degrees) a positive concentration is returned; `C131_concentration_partial` says what
it means. -/
theorem C131_small (σ : ℝ) (h0 : 0 < σ) (h1 : σ ≤ 9 / 100) : ∃ κ, 0 < κ ∧ sigToKappa σ = .val κ := by
  have hs2 : 0 < σ ^ 2 := by positivity
  have hs2' : σ ^ 2 ≤ 81 / 10000 := by nlinarith
  set c := cos σ with hc
  have hb := cos_bound (x := σ) (by rw [abs_of_pos h0]; linarith)
  rw [abs_of_pos h0, abs_le] at hb
  have ha1 : 1 - c ≤ σ ^ 2 / 2 := by have := one_sub_sq_div_two_le_cos (x := σ); linarith
  have ha2 : σ ^ 2 * (1 / 2 - 5 / 96 * (81 / 10000)) ≤ 1 - c := by
    have : σ ^ 4 = σ ^ 2 * σ ^ 2 := by ring
    rw [this] at hb
    nlinarith [hb.2]
  have hc1 : c < 1 := by nlinarith
  have ha : 0 < 1 - c := by linarith
  obtain ⟨hy1, hy2⟩ := ystar_bounds
  set L := log (1 - cC) with hL
  have hg : guessS = 4818641 / 2097152 := rfl
  -- the first guess
  have hk0 : 250 ≤ guessS / σ ^ 2 := by rw [le_div_iff₀ hs2, hg]; nlinarith
  have hk0p : 0 < guessS / σ ^ 2 := by linarith
  have hyl : (11478 : ℝ) / 10000 ≤ (1 - c) * (guessS / σ ^ 2) := by
    have : (1 / 2 - 5 / 96 * (81 / 10000)) * guessS ≤ (1 - c) * (guessS / σ ^ 2) := by
      calc _ = σ ^ 2 * (1 / 2 - 5 / 96 * (81 / 10000)) * (guessS / σ ^ 2) := by field_simp
        _ ≤ _ := mul_le_mul_of_nonneg_right ha2 hk0p.le
    refine le_trans ?_ this
    rw [hg]; norm_num
  have hyu : (1 - c) * (guessS / σ ^ 2) ≤ 114886 / 100000 := by
    have : (1 - c) * (guessS / σ ^ 2) ≤ 1 / 2 * guessS := by
      calc _ ≤ σ ^ 2 / 2 * (guessS / σ ^ 2) := mul_le_mul_of_nonneg_right ha1 hk0p.le
        _ = _ := by field_simp
    refine this.trans ?_
    rw [hg]; norm_num
  obtain ⟨hn0, hst0⟩ := step_large c _ hk0 hc1
  set k0 := guessS / σ ^ 2 with hk0d
  set z0 := (1 - c) * k0 + L with hz0
  have hz0a : |z0| ≤ 12 / 10000 := by rw [abs_le]; constructor <;> linarith
  have hq0 := abs_le.1 (exp_quad z0 (by linarith))
  have hz0s : z0 ^ 2 ≤ (12 / 10000) ^ 2 := by rw [← sq_abs]; exact pow_le_pow_left₀ (abs_nonneg _) hz0a 2
  have hc0 := abs_le.1 hz0a
  -- the second
  have hy1l : 1148 / 1000 ≤ (1 - c) * stepK c k0 := by rw [hst0]; linarith [hq0.1, hq0.2]
  have hk1p : 0 < stepK c k0 := by
    by_contra hneg
    nlinarith
  have hk1 : 250 ≤ stepK c k0 := by
    by_contra hlt
    push Not at hlt
    nlinarith
  obtain ⟨hn1, hst1⟩ := step_large c _ hk1 hc1
  set k1 := stepK c k0 with hk1d
  set z1 := (1 - c) * k1 + L with hz1
  have hz1e : z1 = z0 + 1 - exp z0 := by rw [hz1, hst0, hz0]; ring
  have hz1a : |z1| ≤ 2 / 10 ^ 6 := by
    rw [abs_le, hz1e]
    constructor <;> linarith [hq0.1, hq0.2]
  have hq1 := abs_le.1 (exp_quad z1 (by linarith))
  have hz1s : z1 ^ 2 ≤ (2 / 10 ^ 6) ^ 2 := by rw [← sq_abs]; exact pow_le_pow_left₀ (abs_nonneg _) hz1a 2
  have hc1' := abs_le.1 hz1a
  have hy2l : 1147 / 1000 ≤ (1 - c) * stepK c k1 := by rw [hst1]; norm_num at *; linarith [hq1.1, hq1.2]
  have hk2p : 0 < stepK c k1 := by
    by_contra hneg
    nlinarith
  have hdiff : |stepK c k1 - k1| ≤ epsS * stepK c k1 := by
    have e : (1 - c) * |stepK c k1 - k1| = |1 - exp z1| := by
      have e0 : (1 - c) * |stepK c k1 - k1| = |(1 - c) * (stepK c k1 - k1)| := by rw [abs_mul, abs_of_pos ha]
      rw [e0]
      congr 1
      linarith
    refine le_of_mul_le_mul_left ?_ ha
    rw [e, show (1 - c) * (epsS * stepK c k1) = epsS * ((1 - c) * stepK c k1) by ring]
    have h5 : |1 - exp z1| ≤ 3 / 10 ^ 6 := by
      rw [abs_le]; norm_num at *
      constructor <;> linarith [hq1.1, hq1.2]
    have h6 : epsS * (1147 / 1000) ≤ epsS * ((1 - c) * stepK c k1) := mul_le_mul_of_nonneg_left hy2l (by unfold epsS; norm_num)
    refine h5.trans (le_trans ?_ h6)
    unfold epsS; norm_num
  unfold sigToKappa
  rw [if_neg h0.ne', ← hc, ← hk0d]
  rw [show (25 : ℕ) = 23 + 1 + 1 from rfl]
  unfold sigLoop
  rw [if_neg hk0p.ne', if_neg hn0, if_neg (by rw [← hk1d]; exact hk1p.ne')]
  by_cases ht : epsS < |k1 - k0| / k1
  · rw [← hk1d, if_pos ht]
    unfold sigLoop
    rw [if_neg hk1p.ne', if_neg hn1, if_neg hk2p.ne', if_neg (by rw [not_lt, div_le_iff₀ hk2p]; exact hdiff)]
    exact ⟨_, hk2p, rfl⟩
  · rw [← hk1d, if_neg ht]
    exact ⟨_, hk1p, rfl⟩

example : ∃ σ κ : ℝ, 0 < σ ∧ σ ≤ 9 / 100 ∧ sigToKappa σ = .val κ ∧ 0 < κ := by
  obtain ⟨κ, h, e⟩ := C131_small (1 / 20) (by norm_num) (by norm_num)
  exact ⟨1 / 20, κ, by norm_num, by norm_num, e, h⟩

/-! ### Angles for which nothing is returned -/

/-- When even the uniform distribution has more than 68.4% inside the angle, so that no concentration will do, the steps never
converge, and the routine pauses for the operator. -/
theorem C131_wide (σ : ℝ) (h0 : 0 < σ) (h1 : σ ≤ π) (h2 : 684 / 1000 ≤ (1 - cos σ) / 2) : sigToKappa σ = .pause := by
  have hloop : ∀ n k, 0 < k → k ≤ 8 / 10 → sigLoop (cos σ) n k = .pause := by
    intro n
    induction n with
    | zero => intro k _ _; rfl
    | succ n ih =>
      intro k hk hk8
      have e1 : ekk k = exp (-2 * k) := if_pos (by linarith)
      have e2 : denom k = 1 - exp (-2 * k) := by unfold denom; rw [e1]
      have hd := denom_pos k hk
      set t := (1 - cos σ) / 2 with ht
      have ht1 : t ≤ 1 := by have := neg_one_le_cos σ; linarith
      -- the probability is at least that of the uniform distribution
      have hnum : t * denom k ≤ numer (cos σ) k := by
        have hc := convexOn_exp.2 (Set.mem_univ (0 : ℝ)) (Set.mem_univ (-2 * k)) (show 0 ≤ 1 - t by linarith) (show 0 ≤ t by linarith) (by ring)
        simp only [smul_eq_mul, mul_zero, zero_add, exp_zero, mul_one] at hc
        unfold numer
        rw [show k * (cos σ - 1) = t * (-2 * k) by rw [ht]; ring, e2]
        linarith
      have hP : t ≤ numer (cos σ) k / denom k := by rwa [le_div_iff₀ hd]
      have hP1 : numer (cos σ) k / denom k ≤ 1 := by rw [div_le_one hd, e2]; exact numer_le _ _ hk (neg_one_le_cos σ)
      -- bounds of the relative rate of change
      have hx : 4 / 10 * denom k ≤ 2 * k * exp (-2 * k) := by
        have hc := convexOn_exp.2 (Set.mem_univ (0 : ℝ)) (Set.mem_univ (8 / 5 : ℝ)) (show 0 ≤ 1 - 2 * k / (8 / 5) by linarith)
          (show 0 ≤ 2 * k / (8 / 5) by positivity) (by ring)
        simp only [smul_eq_mul, mul_zero, zero_add, exp_zero, mul_one] at hc
        rw [div_mul_cancel₀ _ (by norm_num : (8 / 5 : ℝ) ≠ 0)] at hc
        have h5 : exp (8 / 5 : ℝ) < 5 := by
          have e : exp (8 / 5 : ℝ) ^ 5 = exp 1 ^ 8 := by rw [← exp_nat_mul, ← exp_nat_mul]; norm_num
          have : exp 1 ^ 8 < (5 : ℝ) ^ 5 := lt_of_lt_of_le (pow_lt_pow_left₀ exp_one_lt_d9 (exp_pos _).le (by norm_num)) (by norm_num)
          rw [← e] at this
          exact lt_of_pow_lt_pow_left₀ 5 (by norm_num) this
        have hc2 : exp (2 * k) ≤ 1 + 5 * k := by nlinarith
        have hm : exp (2 * k) * exp (-2 * k) = 1 := by rw [← exp_add]; simp
        rw [e2]
        nlinarith [exp_pos (-2 * k)]
      have hsl := slope_le (cos σ) k hk (neg_one_le_cos σ) (cos_le_one σ)
      have hsg : 4 / 10 * (numer (cos σ) k / denom k) ≤ k * slope (cos σ) k / denom k := by
        rw [le_div_iff₀ hd]
        unfold slope
        rw [e1]
        have a1 : 0 ≤ (1 - cos σ) * exp (k * (cos σ - 1)) := mul_nonneg (by linarith [cos_le_one σ]) (exp_pos _).le
        have a2 : 4 / 10 * denom k * (numer (cos σ) k / denom k) ≤ 2 * k * exp (-2 * k) * (numer (cos σ) k / denom k) :=
          mul_le_mul_of_nonneg_right hx (by linarith)
        have a3 : k * (2 * numer (cos σ) k * exp (-2 * k) / denom k - (cos σ - 1) * exp (k * (cos σ - 1))) =
          2 * k * exp (-2 * k) * (numer (cos σ) k / denom k) + k * ((1 - cos σ) * exp (k * (cos σ - 1))) := by ring
        rw [a3]
        nlinarith
      have hC : (683 : ℝ) / 1000 ≤ cC ∧ cC ≤ 6831 / 10000 := by unfold cC; norm_num
      have hw : 0 < k * slope (cos σ) k / denom k := by linarith
      have hslope : slope (cos σ) k ≠ 0 := by
        intro hz; rw [hz] at hw; simp at hw
      -- the step
      have hst : stepK (cos σ) k = k - k * ((numer (cos σ) k / denom k - cC) / (k * slope (cos σ) k / denom k)) := by
        unfold stepK; field_simp
      have hr1 : (numer (cos σ) k / denom k - cC) / (k * slope (cos σ) k / denom k) < 1 := by
        rw [div_lt_one hw]; linarith [hC.1]
      have hr2 : 1 / 10 ^ 4 ≤ (numer (cos σ) k / denom k - cC) / (k * slope (cos σ) k / denom k) := by
        rw [le_div_iff₀ hw]; linarith [hC.2]
      generalize (numer (cos σ) k / denom k - cC) / (k * slope (cos σ) k / denom k) = r at *
      have hp : 0 < stepK (cos σ) k := by rw [hst]; nlinarith
      have hle : stepK (cos σ) k ≤ 8 / 10 := by rw [hst]; nlinarith
      unfold sigLoop
      rw [if_neg hk.ne', if_neg hslope, if_neg hp.ne', if_pos]
      · exact ih _ hp hle
      · rw [lt_div_iff₀ hp, hst, show k - k * r - k = -(k * r) by ring, abs_neg, abs_of_pos (by positivity)]
        have : epsS ≤ 1 / 10 ^ 5 := by unfold epsS; norm_num
        have hkr : 0 < k - k * r := by rwa [hst] at hp
        calc epsS * (k - k * r) ≤ 1 / 10 ^ 5 * (k - k * r) := mul_le_mul_of_nonneg_right this hkr.le
          _ < k * r := by nlinarith
  unfold sigToKappa
  rw [if_neg h0.ne']
  have hσ : 17 / 10 ≤ σ := by
    by_contra hc
    push Not at hc
    have h3 : cos σ = -sin (σ - π / 2) := by rw [sin_sub_pi_div_two, neg_neg]
    have h4 : sin (σ - π / 2) ≤ 3 / 10 := by
      by_cases h5 : 0 ≤ σ - π / 2
      · have := sin_le h5
        have := pi_gt_d6
        linarith
      · have := sin_nonpos_of_nonpos_of_neg_pi_le (x := σ - π / 2) (by linarith) (by linarith [pi_pos])
        linarith
    linarith
  have hs : (17 / 10 : ℝ) ^ 2 ≤ σ ^ 2 := pow_le_pow_left₀ (by norm_num) hσ 2
  refine hloop _ _ (by unfold guessS; positivity) ?_
  rw [div_le_iff₀ (by positivity)]
  unfold guessS
  nlinarith

example : 684 / 1000 ≤ (1 - cos π) / 2 := by rw [cos_pi]; norm_num

/-- `log(C/(1-C))` to four places. -/
theorem kstar_bounds : (76754 : ℝ) / 100000 ≤ log (cC / (1 - cC)) ∧ log (cC / (1 - cC)) ≤ 76775 / 100000 := by
  have e : cC / (1 - cC) = 2 * (11458839 / 10636754) := by unfold cC; norm_num
  rw [e, log_mul (by norm_num) (by norm_num)]
  have l1 := log_two_gt_d9
  have l2 := log_two_lt_d9
  have h1 : (744 : ℝ) / 10000 ≤ log (11458839 / 10636754) := by
    rw [le_log_iff_exp_le (by norm_num)]
    have h := exp_bound' (x := (744 : ℝ) / 10000) (by norm_num) (by norm_num) (n := 3) (by norm_num)
    simp only [Finset.sum_range_succ, Finset.sum_range_zero, Nat.factorial] at h
    norm_num at h ⊢
    linarith
  have h2 : log (11458839 / 10636754 : ℝ) ≤ 746 / 10000 := by
    rw [log_le_iff_le_exp (by norm_num)]
    have h := quadratic_le_exp_of_nonneg (x := (746 : ℝ) / 10000) (by norm_num)
    norm_num at h ⊢
    linarith
  constructor <;> linarith

/-- The first guess for a quarter turn. -/
theorem guess_bounds : 93122 / 100000 ≤ guessS / (π / 2) ^ 2 ∧ guessS / (π / 2) ^ 2 ≤ 93123 / 100000 := by
  have p1 := pi_gt_d6
  have p2 := pi_lt_d6
  have p3 : (3.141592 : ℝ) ^ 2 ≤ π ^ 2 := pow_le_pow_left₀ (by norm_num) p1.le 2
  have p4 : π ^ 2 ≤ (3.141593 : ℝ) ^ 2 := pow_le_pow_left₀ pi_pos.le p2.le 2
  have hg : guessS = 4818641 / 2097152 := rfl
  have hx1 : 93122 / 100000 ≤ guessS / (π / 2) ^ 2 := by
    rw [le_div_iff₀ (by positivity), hg, div_pow]; norm_num at p4 ⊢; linarith
  have hx2 : guessS / (π / 2) ^ 2 ≤ 93123 / 100000 := by
    rw [div_le_iff₀ (by positivity), hg, div_pow]; norm_num at p3 ⊢; linarith
  exact ⟨hx1, hx2⟩

/-- From above the solution for a quarter turn, each step goes less than 29% of the way. -/
theorem quarter_loop : ∀ n d, d ≤ 1637 / 10000 → 24564 / 10 ^ 9 ≤ d * (712 / 1000) ^ n → sigLoop 0 n (log (cC / (1 - cC)) + d) = .pause := by
  obtain ⟨hk1, hk2⟩ := kstar_bounds
  set s := log (cC / (1 - cC)) with hs
  have hC : cC = 11458839 / 16777216 := rfl
  have hq : exp (-s) = (1 - cC) / cC := by rw [hs, exp_neg, exp_log (by rw [hC]; norm_num), inv_div]
  intro n
  induction n with
  | zero => intro d _ _; rfl
  | succ n ih =>
    intro d hd hn
    have hpn : (712 / 1000 : ℝ) ^ n ≤ 1 := pow_le_one₀ (by norm_num) (by norm_num)
    have hpn0 : (0 : ℝ) < (712 / 1000 : ℝ) ^ n := by positivity
    have hd0 : 0 < d := by
      by_contra hc
      push Not at hc
      have : d * (712 / 1000 : ℝ) ^ (n + 1) ≤ 0 := mul_nonpos_of_nonpos_of_nonneg hc (by positivity)
      norm_num at hn; linarith
    have hd1 : 345 / 10 ^ 7 ≤ d := by
      rw [pow_succ (712 / 1000 : ℝ) n] at hn
      have : d * ((712 / 1000 : ℝ) ^ n * (712 / 1000)) ≤ d * (712 / 1000) := by
        refine mul_le_mul_of_nonneg_left ?_ hd0.le
        nlinarith
      norm_num at hn ⊢
      norm_num at this
      linarith
    set k := s + d with hk
    have hkp : 0 < k := by linarith
    -- exponentials
    have hE1 : 1 + d ≤ exp d := by have := add_one_le_exp d; linarith
    have hE2 : exp d ≤ 1 + 1088 / 1000 * d := by
      have h := exp_bound' (x := d) hd0.le (by linarith) (n := 3) (by norm_num)
      simp only [Finset.sum_range_succ, Finset.sum_range_zero, Nat.factorial] at h
      norm_num at h
      nlinarith [mul_pos hd0 hd0]
    set q := exp (-k) with hqd
    have hqE : q * exp d = (1 - cC) / cC := by rw [← hq, hqd, ← exp_add, hk]; ring_nf
    have hq0 : 0 < q := exp_pos _
    have hqs : (1 - cC) / cC = 5318377 / 11458839 := by rw [hC]; norm_num
    rw [hqs] at hqE
    have hqu : q ≤ 46414 / 100000 := by
      by_contra hc
      push Not at hc
      nlinarith
    have hql : 3939 / 10000 ≤ q := by
      by_contra hc
      push Not at hc
      nlinarith
    have e1 : ekk k = q ^ 2 := by
      unfold ekk
      rw [if_pos (by linarith), hqd, ← exp_nat_mul]; ring_nf
    have e2 : exp (k * (0 - 1)) = q := by rw [hqd]; ring_nf
    have hden : denom k = (1 - q) * (1 + q) := by unfold denom; rw [e1]; ring
    have hnum : numer 0 k = 1 - q := by unfold numer; rw [e2]
    have h1q : 0 < 1 - q := by linarith
    have hslope : slope 0 k = q * (1 + 3 * q) / (1 + q) := by
      unfold slope
      rw [hden, hnum, e1, e2]
      field_simp
      ring
    have hslope0 : slope 0 k ≠ 0 := by rw [hslope]; positivity
    have hstep : stepK 0 k = k - cC * (exp d - 1) * ((1 - q ^ 2) / (1 + 3 * q)) := by
      unfold stepK
      rw [hslope, hden, hnum]
      have e3 : exp d - 1 = (5318377 / 11458839 - q) / q := by rw [← hqE]; field_simp
      rw [e3, hC]
      field_simp
      ring
    have hg1 : (1 - q ^ 2) / (1 + 3 * q) ≤ 3874 / 10000 := by rw [div_le_iff₀ (by positivity)]; nlinarith
    have hg2 : 3278 / 10000 ≤ (1 - q ^ 2) / (1 + 3 * q) := by rw [le_div_iff₀ (by positivity)]; nlinarith
    generalize (1 - q ^ 2) / (1 + 3 * q) = g at *
    have hm1 : (exp d - 1) * g ≤ 1088 / 1000 * d * (3874 / 10000) := mul_le_mul (by linarith) hg1 (by linarith) (by positivity)
    have hm2 : d * (3278 / 10000) ≤ (exp d - 1) * g := mul_le_mul (by linarith) hg2 (by norm_num) (by linarith)
    have hst1 : cC * (exp d - 1) * g ≤ 288 / 1000 * d := by rw [mul_assoc, hC]; nlinarith
    have hst2 : 2238 / 10000 * d ≤ cC * (exp d - 1) * g := by rw [mul_assoc, hC]; nlinarith
    generalize cC * (exp d - 1) * g = w at *
    have hp : 0 < stepK 0 k := by rw [hstep]; linarith
    unfold sigLoop
    rw [if_neg hkp.ne', if_neg hslope0, if_neg hp.ne', if_pos]
    · have e4 : stepK 0 k = s + (d - w) := by rw [hstep, hk]; ring
      rw [e4]
      refine ih _ (by linarith) ?_
      rw [pow_succ (712 / 1000 : ℝ) n] at hn
      have : d * (712 / 1000) * (712 / 1000 : ℝ) ^ n ≤ (d - w) * (712 / 1000 : ℝ) ^ n := mul_le_mul_of_nonneg_right (by linarith) hpn0.le
      linarith
    · rw [lt_div_iff₀ hp, hstep, show k - w - k = -w by ring, abs_neg, abs_of_pos (by linarith)]
      have : epsS ≤ 1 / 10 ^ 5 := by unfold epsS; norm_num
      have hkw : 0 < k - w := by rwa [hstep] at hp
      calc epsS * (k - w) ≤ 1 / 10 ^ 5 * (k - w) := mul_le_mul_of_nonneg_right this hkw.le
        _ < w := by norm_num at hd1 ⊢; linarith

/-- A concentration of `log(683/317)` has 68.3% within a quarter turn; yet for a quarter turn the routine runs through its 25 steps and pauses. -/
theorem C131_violated_quarter : (0 < log (683 / 317) ∧ capProb (log (683 / 317)) (π / 2) = 683 / 1000) ∧ sigToKappa (π / 2) = .pause := by
  have hlog : (0 : ℝ) < log (683 / 317) := log_pos (by norm_num)
  refine ⟨⟨hlog, ?_⟩, ?_⟩
  · rw [capProb_eq _ _ hlog, cos_pi_div_two]
    have e1 : exp (log (683 / 317) * (0 - 1)) = (317 / 683 : ℝ) := by
      rw [show log (683 / 317 : ℝ) * (0 - 1) = -log (683 / 317) by ring, exp_neg, exp_log (by norm_num), inv_div]
    have e2 : exp (-2 * log (683 / 317)) = (317 / 683 : ℝ) ^ 2 := by
      rw [show -2 * log (683 / 317 : ℝ) = -(2 * log (683 / 317)) by ring, exp_neg, two_mul, exp_add, exp_log (by norm_num)]; norm_num
    rw [e1, e2]; norm_num
  · obtain ⟨hk1, hk2⟩ := kstar_bounds
    set s := log (cC / (1 - cC)) with hs
    have hloop := quarter_loop
    rw [← hs] at hloop
    unfold sigToKappa
    have hpi : π / 2 ≠ 0 := by positivity
    rw [if_neg hpi, cos_pi_div_two]
    obtain ⟨hx1, hx2⟩ := guess_bounds
    have := hloop 25 (guessS / (π / 2) ^ 2 - s) (by linarith) (by
      have h6 : (1634 / 10000 : ℝ) ≤ guessS / (π / 2) ^ 2 - s := by linarith
      refine le_trans ?_ (mul_le_mul_of_nonneg_right h6 (by positivity))
      norm_num)
    rwa [add_sub_cancel] at this

end Verif.Drxn
