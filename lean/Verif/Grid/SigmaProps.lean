import Verif.Grid.Sigma
import Mathlib.Analysis.SpecialFunctions.PolarCoord
import Mathlib.MeasureTheory.Integral.IntervalIntegral.FundThmCalculus

/-!
# Property C205: standard deviations and probabilities in two dimensions
-/

set_option linter.unusedSectionVars false

noncomputable section

namespace Verif.Sigma

open Real MeasureTheory Set
open scoped ENNReal

/-- Specification: the density of two independent standard normal numbers. -/
def dens2 (z : ℝ × ℝ) : ℝ := exp (-(z.1 ^ 2 + z.2 ^ 2) / 2) / (2 * π)

/-- The radial integral. -/
theorem radial {s : ℝ} (hs : 0 ≤ s) : ∫⁻ r in Ioo 0 s, ENNReal.ofReal r * ENNReal.ofReal (exp (-r ^ 2 / 2) / (2 * π)) = ENNReal.ofReal ((1 - exp (-s ^ 2 / 2)) / (2 * π)) := by
  have hd : ∀ r ∈ uIcc 0 s, HasDerivAt (fun r : ℝ => -exp (-r ^ 2 / 2) / (2 * π)) (r * (exp (-r ^ 2 / 2) / (2 * π))) r := fun r _ => by
    have h1 : HasDerivAt (fun r : ℝ => -r ^ 2 / 2) (-r) r := (((hasDerivAt_pow 2 r).neg).div_const 2).congr_deriv (by push_cast; ring)
    exact ((h1.exp.neg).div_const (2 * π)).congr_deriv (by ring)
  have hc : Continuous fun r : ℝ => r * (exp (-r ^ 2 / 2) / (2 * π)) := by fun_prop
  have hi : IntervalIntegrable (fun r : ℝ => r * (exp (-r ^ 2 / 2) / (2 * π))) volume 0 s := hc.intervalIntegrable _ _
  have e := intervalIntegral.integral_eq_sub_of_hasDerivAt hd hi
  rw [intervalIntegral.integral_of_le hs] at e
  have e1 : ∫⁻ r in Ioo 0 s, ENNReal.ofReal r * ENNReal.ofReal (exp (-r ^ 2 / 2) / (2 * π)) = ∫⁻ r in Ioc 0 s, ENNReal.ofReal (r * (exp (-r ^ 2 / 2) / (2 * π))) := by
    rw [setLIntegral_congr Ioo_ae_eq_Ioc]
    refine setLIntegral_congr_fun measurableSet_Ioc fun r hr => ?_
    exact (ENNReal.ofReal_mul hr.1.le).symm
  rw [e1, ← ofReal_integral_eq_lintegral_ofReal ((intervalIntegrable_iff_integrableOn_Ioc_of_le hs).1 hi) ?_, e]
  · congr 1
    simp
    ring
  · refine (ae_restrict_iff' measurableSet_Ioc).2 (Filter.Eventually.of_forall fun r hr => ?_)
    have := hr.1.le
    have := pi_pos
    simp only [Pi.zero_apply]
    positivity

/-- C205: `sig2prob(2, s)` is the probability that two independent standard normal numbers lie within a distance s of the origin. -/
theorem C205_disc {s : ℝ} (hs : 0 ≤ s) : ∫⁻ z in {z : ℝ × ℝ | z.1 ^ 2 + z.2 ^ 2 < s ^ 2}, ENNReal.ofReal (dens2 z) = ENNReal.ofReal (sig2prob s) := by
  have hms : MeasurableSet {z : ℝ × ℝ | z.1 ^ 2 + z.2 ^ 2 < s ^ 2} := measurableSet_lt (by fun_prop) (by fun_prop)
  rw [← lintegral_indicator hms, ← lintegral_comp_polarCoord_symm]
  have htm : MeasurableSet polarCoord.target := polarCoord.open_target.measurableSet
  have hL : ∫⁻ p in polarCoord.target, ENNReal.ofReal p.1 • ({z : ℝ × ℝ | z.1 ^ 2 + z.2 ^ 2 < s ^ 2}.indicator (fun z => ENNReal.ofReal (dens2 z))) (polarCoord.symm p) =
      ∫⁻ p in polarCoord.target, (Iio s).indicator (fun r => ENNReal.ofReal r * ENNReal.ofReal (exp (-r ^ 2 / 2) / (2 * π))) p.1 := by
    refine setLIntegral_congr_fun htm fun p hp => ?_
    obtain ⟨hr, hθ⟩ : 0 < p.1 ∧ p.2 ∈ Ioo (-π) π := by simpa [polarCoord_target] using hp
    have e : (p.1 * cos p.2) ^ 2 + (p.1 * sin p.2) ^ 2 = p.1 ^ 2 := by
      have := sin_sq_add_cos_sq p.2
      linear_combination p.1 ^ 2 * this
    simp only [polarCoord_symm_apply, smul_eq_mul]
    by_cases h1 : p.1 < s
    · rw [indicator_of_mem (show (p.1 * cos p.2, p.1 * sin p.2) ∈ {z : ℝ × ℝ | z.1 ^ 2 + z.2 ^ 2 < s ^ 2} from by simp only [mem_setOf_eq, e]; exact pow_lt_pow_left₀ h1 hr.le two_ne_zero), indicator_of_mem (show p.1 ∈ Iio s from h1), dens2]
      simp only [e]
    · rw [indicator_of_notMem, indicator_of_notMem (show p.1 ∉ Iio s from h1), mul_zero]
      intro h2
      simp only [mem_setOf_eq, e] at h2
      exact h1 (lt_of_pow_lt_pow_left₀ 2 hs h2)
  rw [hL, polarCoord_target, Measure.volume_eq_prod, ← Measure.prod_restrict, lintegral_prod_symm]
  · have : ∀ θ : ℝ, ∫⁻ x in Ioi (0 : ℝ), (Iio s).indicator (fun r => ENNReal.ofReal r * ENNReal.ofReal (exp (-r ^ 2 / 2) / (2 * π))) ((x, θ) : ℝ × ℝ).1 = ENNReal.ofReal ((1 - exp (-s ^ 2 / 2)) / (2 * π)) := fun θ => by
      dsimp only
      rw [lintegral_indicator measurableSet_Iio, Measure.restrict_restrict measurableSet_Iio, inter_comm, Ioi_inter_Iio, radial hs]
    rw [lintegral_congr this, setLIntegral_const, Real.volume_Ioo, ← ENNReal.ofReal_mul, sig2prob]
    · congr 1
      have := pi_pos
      field_simp
      ring
    · refine div_nonneg ?_ (by positivity)
      have : exp (-s ^ 2 / 2) ≤ 1 := exp_le_one_iff.2 (by have := sq_nonneg s; linarith)
      linarith
  · refine Measurable.aemeasurable ?_
    have : (fun p : ℝ × ℝ => (Iio s).indicator (fun r => ENNReal.ofReal r * ENNReal.ofReal (exp (-r ^ 2 / 2) / (2 * π))) p.1) =
        (Prod.fst ⁻¹' Iio s).indicator fun p : ℝ × ℝ => ENNReal.ofReal p.1 * ENNReal.ofReal (exp (-p.1 ^ 2 / 2) / (2 * π)) := by
      funext p
      simp only [indicator, mem_preimage]
    rw [this]
    exact Measurable.indicator (by fun_prop) (measurable_fst measurableSet_Iio)

/-- C205: `sig2prob` and `prob2sig` undo each other, and both increase. -/
theorem C205_inverse : (∀ s : ℝ, 0 ≤ s → 0 ≤ sig2prob s ∧ sig2prob s < 1 ∧ prob2sig (sig2prob s) = s) ∧ (∀ p : ℝ, 0 ≤ p → p < 1 → 0 ≤ prob2sig p ∧ sig2prob (prob2sig p) = p) ∧
    StrictMonoOn sig2prob (Ici 0) ∧ StrictMonoOn prob2sig (Ico 0 1) := by
  have hA : ∀ s : ℝ, 0 ≤ s → 0 ≤ sig2prob s ∧ sig2prob s < 1 ∧ prob2sig (sig2prob s) = s := fun s hs => by
    refine ⟨?_, ?_, ?_⟩
    · have : exp (-s ^ 2 / 2) ≤ 1 := exp_le_one_iff.2 (by have := sq_nonneg s; linarith)
      rw [sig2prob]; linarith
    · have := exp_pos (-s ^ 2 / 2)
      rw [sig2prob]; linarith
    · rw [prob2sig, sig2prob, sub_sub_cancel, log_exp, show -2 * (-s ^ 2 / 2) = s ^ 2 by ring, sqrt_sq hs]
  have hB : ∀ p : ℝ, 0 ≤ p → p < 1 → 0 ≤ prob2sig p ∧ sig2prob (prob2sig p) = p := fun p h0 h1 => by
    refine ⟨sqrt_nonneg _, ?_⟩
    have hl : log (1 - p) ≤ 0 := log_nonpos (by linarith) (by linarith)
    rw [sig2prob, prob2sig, sq_sqrt (by linarith), show -(-2 * log (1 - p)) / 2 = log (1 - p) by ring, exp_log (by linarith)]
    ring
  have hC : StrictMonoOn sig2prob (Ici 0) := fun a ha b hb hab => by
    have := exp_lt_exp.2 (show -b ^ 2 / 2 < -a ^ 2 / 2 by have := pow_lt_pow_left₀ hab ha two_ne_zero; linarith)
    rw [sig2prob, sig2prob]; linarith
  refine ⟨hA, hB, hC, fun p hp q hq hpq => ?_⟩
  by_contra h
  push Not at h
  have h1 := hB p hp.1 hp.2
  have h2 := hB q hq.1 hq.2
  have := hC.monotoneOn h2.1 h1.1 h
  rw [h1.2, h2.2] at this
  linarith

/-- C205: the density at the boundary of the region of content p is (1-p)/2π. -/
theorem boundary {p : ℝ} (h0 : 0 ≤ p) (h1 : p < 1) {z : ℝ × ℝ} (hz : z.1 ^ 2 + z.2 ^ 2 = prob2sig p ^ 2) : dens2 z = (1 - p) / (2 * π) := by
  have hl : log (1 - p) ≤ 0 := log_nonpos (by linarith) (by linarith)
  rw [dens2, hz, prob2sig, sq_sqrt (by linarith), show -(-2 * log (1 - p)) / 2 = log (1 - p) by ring, exp_log (by linarith)]

/-- C205: in one dimension `prob2dens` is the density at the boundary.

Missing: two dimensions (`C205_violated_dens`). -/
theorem C205_dens_partial (sig : ℕ → ℝ → ℝ) (p : ℝ) : prob2dens sig 1 p = exp (-sig 1 p ^ 2 / 2) / √(2 * π) := by
  rw [prob2dens, pow_one]
  congr 2
  push_cast
  ring

/-- C205 fails for `prob2dens` in two dimensions: it is less than the density at the boundary of the region, by the factor 1-p, for every content p > 0. -/
theorem C205_violated_dens {sig : ℕ → ℝ → ℝ} (hs : sig 2 = prob2sig) {p : ℝ} (h0 : 0 < p) (h1 : p < 1) {z : ℝ × ℝ} (hz : z.1 ^ 2 + z.2 ^ 2 = prob2sig p ^ 2) :
    prob2dens sig 2 p = (1 - p) * dens2 z ∧ prob2dens sig 2 p < dens2 z := by
  have hl : log (1 - p) ≤ 0 := log_nonpos (by linarith) (by linarith)
  have hb := boundary h0.le h1 hz
  have hp := pi_pos
  have e : prob2dens sig 2 p = (1 - p) * dens2 z := by
    rw [hb, prob2dens, hs, prob2sig, sq_sqrt (by linarith), sq_sqrt (by positivity), show -0.5 * ((2 : ℕ) : ℝ) * (-2 * log (1 - p)) = log (1 - p) + log (1 - p) by push_cast; ring, exp_add, exp_log (by linarith)]
    ring
  refine ⟨e, ?_⟩
  rw [e]
  have : 0 < dens2 z := by rw [dens2]; positivity
  nlinarith

example : sig2prob 1 = 1 - exp (-1 / 2) := by rw [sig2prob]; norm_num

example : (prob2sig (1 / 2), (0 : ℝ)).1 ^ 2 + (prob2sig (1 / 2), (0 : ℝ)).2 ^ 2 = prob2sig (1 / 2) ^ 2 := by simp

end Verif.Sigma
