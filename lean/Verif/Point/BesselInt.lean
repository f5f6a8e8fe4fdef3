import Verif.Point.Bessel
import Mathlib.Analysis.SpecialFunctions.Integrals.Basic
import Mathlib.Analysis.SpecialFunctions.Trigonometric.Series
import Mathlib.MeasureTheory.Integral.IntervalIntegral.Periodic
import Mathlib.MeasureTheory.Integral.DominatedConvergence

/-!
# The Bessel function as an average over phases
-/

set_option linter.unusedSectionVars false

namespace Verif.Point

open Real intervalIntegral MeasureTheory

theorem wallis (n : ℕ) : ∏ i ∈ Finset.range n, (2 * (i : ℝ) + 1) / (2 * i + 2) = (2 * n).factorial / (4 ^ n * (n.factorial : ℝ) ^ 2) := by
  induction n with
  | zero => simp
  | succ n ih =>
    rw [Finset.prod_range_succ, ih, show 2 * (n + 1) = 2 * n + 1 + 1 by ring, Nat.factorial_succ (2 * n + 1), Nat.factorial_succ (2 * n), Nat.factorial_succ n]
    have h1 : (n.factorial : ℝ) ≠ 0 := by positivity
    have h2 : (n : ℝ) + 1 ≠ 0 := by positivity
    push_cast
    field_simp
    ring

theorem cosh_integral (x : ℝ) : ∫ t in (0 : ℝ)..π, cosh (x * sin t) = π * I0 x := by
  have hs : HasSum (fun n : ℕ => ∫ t in (0 : ℝ)..π, (x * sin t) ^ (2 * n) / ((2 * n).factorial : ℝ)) (∫ t in (0 : ℝ)..π, cosh (x * sin t)) := by
    refine hasSum_integral_of_dominated_convergence (fun n _ => x ^ (2 * n) / ((2 * n).factorial : ℝ)) ?_ ?_ ?_ ?_ ?_
    · intro n
      exact Continuous.aestronglyMeasurable (by fun_prop)
    · intro n
      refine ae_of_all _ fun t _ => ?_
      rw [norm_eq_abs, abs_div, Nat.abs_cast, abs_of_nonneg (by rw [pow_mul]; positivity)]
      refine div_le_div_of_nonneg_right ?_ (Nat.cast_nonneg _)
      rw [mul_pow]
      have h1 : sin t ^ (2 * n) ≤ 1 := by rw [pow_mul]; exact pow_le_one₀ (sq_nonneg _) (sin_sq_le_one t)
      have h2 : 0 ≤ x ^ (2 * n) := by rw [pow_mul]; positivity
      nlinarith
    · exact ae_of_all _ fun t _ => (hasSum_cosh x).summable
    · exact intervalIntegrable_const
    · exact ae_of_all _ fun t _ => hasSum_cosh (x * sin t)
  rw [← hs.tsum_eq]
  unfold I0
  rw [← tsum_mul_left]
  congr 1
  ext n
  have e : ∀ t, (x * sin t) ^ (2 * n) / ((2 * n).factorial : ℝ) = x ^ (2 * n) / (2 * n).factorial * sin t ^ (2 * n) := by
    intro t
    rw [mul_pow]
    ring
  simp only [e]
  rw [intervalIntegral.integral_const_mul, integral_sin_pow_even, wallis, div_pow, show (2 : ℝ) ^ (2 * n) = 4 ^ n by rw [pow_mul]; norm_num]
  have h1 : (n.factorial : ℝ) ≠ 0 := by positivity
  have h2 : ((2 * n).factorial : ℝ) ≠ 0 := by positivity
  field_simp

/-- The average over all phases of the exponential of a cosine. -/
theorem exp_integral (x a : ℝ) : ∫ t in (0 : ℝ)..2 * π, exp (x * cos (t - a)) = 2 * π * I0 x := by
  have hper : Function.Periodic (fun t => exp (x * sin t)) (2 * π) := fun t => by simp [sin_add_two_pi]
  have e1 : ∫ t in (0 : ℝ)..2 * π, exp (x * cos (t - a)) = ∫ t in (0 : ℝ)..2 * π, exp (x * sin t) := by
    have h1 : ∀ t, exp (x * cos (t - a)) = (fun u => exp (x * sin u)) (t + (π / 2 - a)) := by
      intro t
      simp only
      rw [show t + (π / 2 - a) = (t - a) + π / 2 by ring, sin_add_pi_div_two]
    simp only [h1]
    rw [intervalIntegral.integral_comp_add_right (fun u => exp (x * sin u))]
    have := hper.intervalIntegral_add_eq (0 + (π / 2 - a)) 0
    rw [show 2 * π + (π / 2 - a) = 0 + (π / 2 - a) + 2 * π by ring, this, zero_add]
  have hc : Continuous fun t => exp (x * sin t) := by fun_prop
  have hc' : Continuous fun t => exp (-(x * sin t)) := by fun_prop
  have e2 : ∫ t in π..2 * π, exp (x * sin t) = ∫ t in (0 : ℝ)..π, exp (-(x * sin t)) := by
    have h1 : ∀ t, exp (-(x * sin t)) = (fun u => exp (x * sin u)) (t + π) := by
      intro t
      simp [sin_add_pi]
    simp only [h1]
    rw [intervalIntegral.integral_comp_add_right (fun u => exp (x * sin u)), zero_add, two_mul]
  rw [e1, ← integral_add_adjacent_intervals (hc.intervalIntegrable 0 π) (hc.intervalIntegrable π (2 * π)), e2, ← intervalIntegral.integral_add (hc.intervalIntegrable ..) (hc'.intervalIntegrable ..)]
  have e3 : ∀ t, exp (x * sin t) + exp (-(x * sin t)) = 2 * cosh (x * sin t) := fun t => by rw [cosh_eq]; ring
  simp only [e3]
  rw [intervalIntegral.integral_const_mul, cosh_integral]
  ring

/-- The marginal likelihood of a signal of the von Mises form: events at `times`, frequency `w`, concentration `k`; relative to a constant rate, averaged over the phase. -/
noncomputable def vonMises (w k : ℝ) (times : List ℝ) : ℝ := 1 / (2 * π) * ∫ phi in (0 : ℝ)..2 * π, (times.map fun t => exp (k * cos (w * t - phi)) / I0 k).prod

theorem vonMises_eq (w k : ℝ) (times : List ℝ) :
    vonMises w k times = I0 (k * √((times.map fun t => sin (w * t)).sum ^ 2 + (times.map fun t => cos (w * t)).sum ^ 2)) / I0 k ^ times.length := by
  have hI := I0_ge_one k
  set S := (times.map fun t => sin (w * t)).sum with hS
  set C := (times.map fun t => cos (w * t)).sum with hC
  set R := √(S ^ 2 + C ^ 2) with hR
  have hR2 : R ^ 2 = S ^ 2 + C ^ 2 := sq_sqrt (by positivity)
  obtain ⟨a, ha⟩ : ∃ a, C = R * cos a ∧ S = R * sin a := by
    refine ⟨Complex.arg ⟨C, S⟩, ?_, ?_⟩
    · have h := Complex.norm_mul_cos_arg ⟨C, S⟩
      rw [Complex.norm_def, Complex.normSq_mk] at h
      rw [hR, show S ^ 2 + C ^ 2 = C * C + S * S by ring]
      exact h.symm
    · have h := Complex.norm_mul_sin_arg ⟨C, S⟩
      rw [Complex.norm_def, Complex.normSq_mk] at h
      rw [hR, show S ^ 2 + C ^ 2 = C * C + S * S by ring]
      exact h.symm
  have hp : ∀ phi, (times.map fun t => exp (k * cos (w * t - phi)) / I0 k).prod = exp (k * R * cos (phi - a)) / I0 k ^ times.length := by
    intro phi
    have h1 : (times.map fun t => exp (k * cos (w * t - phi)) / I0 k).prod = exp (k * (C * cos phi + S * sin phi)) / I0 k ^ times.length := by
      rw [hC, hS]
      clear hC hS ha hR2 hR
      clear C S R
      induction times with
      | nil => simp
      | cons t ts ih =>
        simp only [List.map_cons, List.prod_cons, List.sum_cons, List.length_cons]
        rw [ih, div_mul_div_comm, ← exp_add, pow_succ', cos_sub]
        congr 2
        ring
    rw [h1, ha.1, ha.2, cos_sub]
    congr 2
    ring
  unfold vonMises
  simp only [hp]
  rw [intervalIntegral.integral_div, exp_integral]
  have := pi_pos
  field_simp

end Verif.Point
