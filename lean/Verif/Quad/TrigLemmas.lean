import Verif.Bha.BhaLemmas
import Mathlib.Analysis.SpecialFunctions.Integrals.Basic
import Mathlib.MeasureTheory.Integral.IntervalIntegral.IntegrationByParts
import Mathlib.Topology.Algebra.Polynomial

/-!
# Sums of cosines, and rules exact for cosines
-/

set_option linter.unusedSectionVars false

namespace Verif.Quad

open Real Finset intervalIntegral

/-- A sum of cosines over a period. -/
theorem sum_cos_period {n : ℕ} (hn : 0 < n) (a : ℤ) :
    ∑ k ∈ range n, cos (2 * π * a * k / n) = if (n : ℤ) ∣ a then (n : ℝ) else 0 := by
  have hn' : (n : ℝ) ≠ 0 := by positivity
  split_ifs with h
  · obtain ⟨b, rfl⟩ := h
    have : ∀ k ∈ range n, cos (2 * π * ((n : ℤ) * b : ℤ) * k / n) = 1 := by
      intro k _
      have e : 2 * π * (((n : ℤ) * b : ℤ) : ℝ) * k / n = ((b * k : ℤ) : ℝ) * (2 * π) := by
        push_cast; field_simp
      rw [e]
      exact Real.cos_int_mul_two_pi _
    rw [sum_congr rfl this]; simp
  · have hs : sin (π * a / n) ≠ 0 := by
      intro h0
      obtain ⟨m, hm⟩ := Real.sin_eq_zero_iff.1 h0
      apply h
      refine ⟨m, ?_⟩
      have : (m : ℝ) * n = a := by
        have hp := Real.pi_ne_zero
        field_simp at hm
        linarith
      have h2 : m * (n : ℤ) = a := by exact_mod_cast this
      rw [← h2, mul_comm]
    have := Bha.sum_cos (π * a / n) n
    have e : (n : ℝ) * (π * a / n) = a * π := by field_simp
    rw [e, Real.sin_int_mul_pi, mul_zero] at this
    rcases mul_eq_zero.1 this with h1 | h1
    · exact absurd h1 hs
    · rw [← h1]
      refine sum_congr rfl fun k _ => ?_
      congr 1; ring

/-- The integral of a cosine against the sine. -/
theorem integral_cos_sin (j : ℕ) :
    ∫ t in (0 : ℝ)..π, cos (j * t) * sin t = if j % 2 = 0 then 2 / (1 - (j : ℝ) ^ 2) else 0 := by
  have base : ∀ c : ℝ, c ≠ 0 → ∫ t in (0 : ℝ)..π, sin (c * t) = (1 - cos (c * π)) / c := by
    intro c hc
    rw [intervalIntegral.integral_comp_mul_left (fun t => sin t) hc, integral_sin]
    simp [div_eq_inv_mul]
  have e : ∀ t : ℝ, cos (j * t) * sin t = (1 / 2) * sin (((j : ℝ) + 1) * t) - (1 / 2) * sin (((j : ℝ) - 1) * t) := by
    intro t
    rw [add_mul, sub_mul, one_mul, sin_add, sin_sub]; ring
  simp only [e]
  rw [intervalIntegral.integral_sub (by apply Continuous.intervalIntegrable; fun_prop) (by apply Continuous.intervalIntegrable; fun_prop),
    intervalIntegral.integral_const_mul, intervalIntegral.integral_const_mul, base _ (by positivity)]
  have hc : ∀ m : ℕ, cos ((m : ℝ) * π) = (-1) ^ m := fun m => Real.cos_nat_mul_pi m
  have h1 : cos (((j : ℝ) + 1) * π) = -(-1) ^ j := by
    have := hc (j + 1); push_cast at this; rw [this, pow_succ]; ring
  by_cases hj : j = 1
  · subst hj; norm_num
  have hj' : (j : ℝ) - 1 ≠ 0 := by
    intro h; apply hj; have : (j : ℝ) = 1 := by linarith
    exact_mod_cast this
  rw [base _ hj']
  have h2 : cos (((j : ℝ) - 1) * π) = -(-1) ^ j := by
    rw [sub_mul, one_mul, Real.cos_sub_pi, hc]
  rw [h1, h2]
  have hp : (j : ℝ) + 1 ≠ 0 := by positivity
  have hq : (1 : ℝ) - (j : ℝ) ^ 2 ≠ 0 := by
    have : (1 : ℝ) - (j : ℝ) ^ 2 = -((j + 1) * (j - 1)) := by ring
    rw [this]; exact neg_ne_zero.2 (mul_ne_zero hp hj')
  split_ifs with h
  · rw [Even.neg_one_pow (Nat.even_iff.2 h)]
    field_simp; ring
  · rw [Odd.neg_one_pow (Nat.odd_iff.2 (by omega))]
    simp

/-- Integrals over [-1, 1] by angles. -/
theorem integral_cos_subst (f : ℝ → ℝ) (hf : Continuous f) :
    ∫ x in (-1 : ℝ)..1, f x = ∫ t in (0 : ℝ)..π, f (cos t) * sin t := by
  have := intervalIntegral.integral_comp_mul_deriv (a := 0) (b := π) (f := cos) (f' := fun t => -sin t) (g := f)
    (fun x _ => hasDerivAt_cos x) (by fun_prop) hf
  rw [cos_zero, cos_pi] at this
  rw [intervalIntegral.integral_symm, ← this, ← intervalIntegral.integral_neg]
  refine intervalIntegral.integral_congr fun t _ => ?_
  simp

/-- A rule in the angles that is exact for the cosines up to the n-th is exact for powers of cosines times cosines. -/
theorem exact_pow {N n : ℕ} {w th : ℕ → ℝ}
    (h : ∀ j ≤ n, ∑ k ∈ range N, w k * cos (j * th k) = ∫ t in (0 : ℝ)..π, cos (j * t) * sin t) :
    ∀ a b : ℕ, a + b ≤ n →
      ∑ k ∈ range N, w k * (cos (th k) ^ a * cos (b * th k)) = ∫ t in (0 : ℝ)..π, (cos t ^ a * cos (b * t)) * sin t := by
  intro a
  induction a with
  | zero => intro b hb; simpa using h b (by omega)
  | succ a ih =>
    intro b hb
    cases b with
    | zero =>
      have := ih 1 (by omega)
      simpa [pow_succ] using this
    | succ b =>
      have h1 := ih (b + 2) (by omega)
      have h2 := ih b (by omega)
      have e : ∀ t : ℝ, cos t ^ (a + 1) * cos ((b + 1 : ℕ) * t) = (1 / 2) * (cos t ^ a * cos ((b + 2 : ℕ) * t)) + (1 / 2) * (cos t ^ a * cos (b * t)) := by
        intro t
        have e1 : ((b + 2 : ℕ) : ℝ) * t = ((b + 1 : ℕ) : ℝ) * t + t := by push_cast; ring
        have e2 : (b : ℝ) * t = ((b + 1 : ℕ) : ℝ) * t - t := by push_cast; ring
        rw [e1, e2, cos_add, cos_sub, pow_succ]; ring
      simp only [e, add_mul, mul_add, sum_add_distrib]
      rw [intervalIntegral.integral_add (by apply Continuous.intervalIntegrable; fun_prop) (by apply Continuous.intervalIntegrable; fun_prop)]
      simp only [mul_assoc, intervalIntegral.integral_const_mul]
      simp only [mul_assoc] at h1 h2
      rw [← h1, ← h2, mul_sum, mul_sum]
      congr 1 <;> exact sum_congr rfl fun k _ => by ring

/-- Such a rule is exact for polynomials. -/
theorem exact_poly {N n : ℕ} {w th : ℕ → ℝ}
    (h : ∀ j ≤ n, ∑ k ∈ range N, w k * cos (j * th k) = ∫ t in (0 : ℝ)..π, cos (j * t) * sin t)
    (p : Polynomial ℝ) (hp : p.natDegree ≤ n) :
    ∑ k ∈ range N, w k * p.eval (cos (th k)) = ∫ x in (-1 : ℝ)..1, p.eval x := by
  rw [integral_cos_subst _ p.continuous]
  simp only [Polynomial.eval_eq_sum_range, sum_mul, mul_sum]
  rw [sum_comm, intervalIntegral.integral_finsetSum (fun i _ => by apply Continuous.intervalIntegrable; fun_prop)]
  refine sum_congr rfl fun i hi => ?_
  have hi' : i ≤ n := by have := mem_range.1 hi; omega
  have := exact_pow h i 0 (by omega)
  simp only [Nat.cast_zero, zero_mul, cos_zero, mul_one] at this
  simp only [mul_assoc, intervalIntegral.integral_const_mul]
  rw [← this, mul_sum]
  exact sum_congr rfl fun k _ => by ring

/-- The same on another interval. -/
theorem integral_poly_scale (p : Polynomial ℝ) (l u : ℝ) :
    ∫ x in l..u, p.eval x = 0.5 * (u - l) * ∫ x in (-1 : ℝ)..1, p.eval (0.5 * (u - l) * x + 0.5 * (l + u)) := by
  have := intervalIntegral.mul_integral_comp_mul_add (a := -1) (b := 1) (f := fun x => p.eval x) (0.5 * (u - l)) (0.5 * (l + u))
  rw [this]
  congr 1 <;> ring

end Verif.Quad
