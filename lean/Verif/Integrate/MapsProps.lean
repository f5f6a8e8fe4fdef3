import Verif.Integrate.Maps
import Mathlib.MeasureTheory.Integral.IntervalIntegral.FundThmCalculus
import Mathlib.MeasureTheory.Integral.IntervalIntegral.IntegrationByParts
import Mathlib.Analysis.SpecialFunctions.Pow.Deriv
import Mathlib.Analysis.SpecialFunctions.Pow.Continuity
import Mathlib.Analysis.SpecialFunctions.Log.Deriv
import Mathlib.Analysis.SpecialFunctions.ExpDeriv

/-!
# C208: mapped integrands have the same integral
-/

set_option linter.unusedSectionVars false

namespace Verif.Integrate.Maps

open Real intervalIntegral Set

/-- C208: the exponential map and its inverse undo each other. -/
theorem C208_exp_inverse {alpha : ℝ} (ha : alpha ≠ 0) : (∀ x, expX alpha (expY alpha x) = x) ∧ ∀ y, 0 < alpha * y → expY alpha (expX alpha y) = y := by
  constructor
  · intro x
    unfold expX expY
    rw [mul_div_cancel₀ _ ha, log_exp, mul_div_cancel_left₀ _ ha]
  · intro y hy
    unfold expX expY
    rw [mul_div_cancel₀ _ ha, exp_log hy, mul_div_cancel_left₀ _ ha]

/-- C208: the power law map and its inverse undo each other for positive arguments. -/
theorem C208_pl_inverse {beta1 : ℝ} (hb : beta1 ≠ 0) : (∀ x, 0 < x → plX beta1 (plY beta1 x) = x) ∧ ∀ y, 0 < beta1 * y → 0 < plX beta1 y ∧ plY beta1 (plX beta1 y) = y := by
  constructor
  · intro x hx
    unfold plX plY
    rw [mul_div_cancel₀ _ hb, log_rpow hx, mul_div_cancel_left₀ _ hb, exp_log hx]
  · intro y hy
    refine ⟨exp_pos _, ?_⟩
    unfold plX plY
    rw [← exp_mul, div_mul_cancel₀ _ hb, exp_log hy, mul_div_cancel_left₀ _ hb]

/-- C208 (partial): called with the module variables, the rolling exponential and its mapped form have the same integral between corresponding limits.
Missing: the argument `alpha` of the mapped form (`C208_violated_alpha`). -/
theorem C208_exp_partial {alpha : ℝ} (ha : alpha ≠ 0) (range l u : ℝ) : ∫ y in expY alpha l..expY alpha u, rollExpMap alpha alpha range y = ∫ x in l..u, rollExp alpha range x := by
  have hd : ∀ x, HasDerivAt (expY alpha) (exp (alpha * x)) x := by
    intro x
    have := (((hasDerivAt_id x).const_mul alpha).exp).div_const alpha
    refine this.congr_deriv ?_
    simp only [id, mul_one]
    rw [mul_div_cancel_right₀ _ ha]
  have hx : ∀ x, expX alpha (expY alpha x) = x := (C208_exp_inverse ha).1
  have hcont : ContinuousOn (rollExpMap alpha alpha range) (expY alpha '' uIcc l u) := by
    rintro y ⟨x, -, rfl⟩
    have hne : alpha * expY alpha x ≠ 0 := by
      unfold expY
      rw [mul_div_cancel₀ _ ha]
      exact (exp_pos _).ne'
    have hX : ContinuousAt (expX alpha) (expY alpha x) := by
      unfold expX
      exact ((continuousAt_const.mul continuousAt_id).log hne).div_const _
    have hR : Continuous fun z : ℝ => exp ((alpha + 2 / 10 * (z - 5 / 10 * range) / range) * z) / exp (alpha * z) := by
      refine Continuous.div (by fun_prop) (by fun_prop) fun z => (exp_pos _).ne'
    exact (hR.continuousAt.comp hX).continuousWithinAt
  have := integral_comp_mul_deriv' (a := l) (b := u) (f := expY alpha) (f' := fun x => exp (alpha * x)) (g := rollExpMap alpha alpha range) (fun x _ => hd x) (by fun_prop) hcont
  rw [← this]
  apply integral_congr
  intro x _
  simp only [Function.comp, rollExpMap, hx, rollExp]
  rw [div_mul_cancel₀ _ (exp_pos _).ne']

/-- C208 (partial): called with the module variables, the rolling power law and its mapped form have the same integral between corresponding positive limits.
Missing: the arguments `beta` and `mid` of the mapped form (`C208_violated_mid`). -/
theorem C208_pl_partial {beta mid l u : ℝ} (hb : beta ≠ 1) (hm : 0 < mid) (hl : 0 < l) (hu : 0 < u) : ∫ y in plY (1 - beta) l..plY (1 - beta) u, rollMap beta mid beta mid y = ∫ x in l..u, roll beta mid x := by
  have hb1 : 1 - beta ≠ 0 := fun h => hb (by linarith)
  have hpos : ∀ x ∈ uIcc l u, 0 < x := by
    intro x hx
    rw [mem_uIcc] at hx
    rcases hx with h | h <;> linarith [h.1]
  have hd : ∀ x ∈ uIcc l u, HasDerivAt (plY (1 - beta)) (x ^ (-beta)) x := by
    intro x hx
    have := (hasDerivAt_rpow_const (x := x) (p := 1 - beta) (Or.inl (hpos x hx).ne')).div_const (1 - beta)
    refine this.congr_deriv ?_
    rw [mul_div_cancel_left₀ _ hb1]
    congr 1
    ring
  have hx : ∀ x, 0 < x → plX (1 - beta) (plY (1 - beta) x) = x := (C208_pl_inverse hb1).1
  have hcont : ContinuousOn (rollMap beta mid beta mid) (plY (1 - beta) '' uIcc l u) := by
    rintro y ⟨x, hxm, rfl⟩
    have x0 := hpos x hxm
    have hne : (1 - beta) * plY (1 - beta) x ≠ 0 := by
      unfold plY
      rw [mul_div_cancel₀ _ hb1]
      exact (rpow_pos_of_pos x0 _).ne'
    have hX : ContinuousAt (plX (1 - beta)) (plY (1 - beta) x) := by
      unfold plX
      exact (((continuousAt_const.mul continuousAt_id).log hne).div_const _).rexp
    have hR : ContinuousAt (fun z : ℝ => roll beta mid z * z ^ beta) (plX (1 - beta) (plY (1 - beta) x)) := by
      rw [hx x x0]
      refine ContinuousAt.mul ?_ (continuousAt_rpow_const _ _ (Or.inl x0.ne'))
      unfold roll
      refine ContinuousAt.div ?_ (by fun_prop) ?_
      · exact (continuousAt_id.div_const mid).rpow_const (Or.inl (div_pos x0 hm).ne')
      · have := div_pos x0 hm
        linarith
    exact (hR.comp hX).continuousWithinAt
  have hc' : ContinuousOn (fun x : ℝ => x ^ (-beta)) (uIcc l u) := fun x hx => (continuousAt_rpow_const _ _ (Or.inl (hpos x hx).ne')).continuousWithinAt
  have := integral_comp_mul_deriv' (a := l) (b := u) (f := plY (1 - beta)) (f' := fun x => x ^ (-beta)) (g := rollMap beta mid beta mid) hd hc' hcont
  rw [← this]
  apply integral_congr
  intro x hxm
  have x0 := hpos x hxm
  simp only [Function.comp, rollMap, hx x x0]
  rw [mul_assoc, ← rpow_add x0, add_neg_cancel, rpow_zero, mul_one]

/-- C208 fails for the argument `alpha`: with `alpha = 1` the mapped form at the image of 0 is not the integrand over its exponential there, which is 1. -/
theorem C208_violated_alpha : rollExpMap (1 / 2) 1 30 (expY 1 0) ≠ rollExp 1 30 0 / exp (1 * 0) := by
  have h1 : expX (1 / 2) (expY 1 0) = -(2 * log 2) := by
    unfold expX expY
    rw [mul_zero, exp_zero, div_one, mul_one, one_div, log_inv]
    ring
  have h2 := log_pos (show (1 : ℝ) < 2 by norm_num)
  have h3 : rollExp 1 30 0 / exp (1 * 0) = 1 := by simp [rollExp]
  rw [h3]
  unfold rollExpMap
  simp only [h1]
  rw [← exp_sub]
  intro h
  rw [exp_eq_one_iff] at h
  nlinarith

/-- C208 fails for the argument `mid`, which changes nothing. -/
theorem C208_violated_mid (beta0 mid0 beta mid mid' y : ℝ) : rollMap beta0 mid0 beta mid y = rollMap beta0 mid0 beta mid' y := rfl

/-- ... though the integrand depends on it. -/
theorem C208_violated_mid_roll : roll (1 / 2) 1 1 ≠ roll (1 / 2) 2 1 := by
  unfold roll
  norm_num

/-- Non-vacuity: the module variables of the two scripts. -/
example : (1 / 2 : ℝ) ≠ 0 ∧ (5 / 2 : ℝ) ≠ 1 ∧ (0 : ℝ) < 10 ∧ (0 : ℝ) < 100 := by norm_num

end Verif.Integrate.Maps
