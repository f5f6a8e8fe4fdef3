import Verif.Tno.Tno
import Mathlib.Analysis.SpecialFunctions.ImproperIntegrals
import Mathlib.Analysis.SpecialFunctions.Integrals.Basic
import Mathlib.Analysis.Complex.ExponentialBounds

/-!
# Properties C161-C162: magnitude distributions and their derivatives
-/

set_option linter.unusedSectionVars false

noncomputable section

namespace Verif.Tno

open Set MeasureTheory

theorem l10_pos : 0 < l10 := Real.log_pos (by norm_num)

theorem exp_l10 (x : ℝ) : Real.exp (l10 * x) = (10 : ℝ) ^ x := by
  rw [Real.rpow_def_of_pos (by norm_num), l10]

/-- C161: with model 1 the number of objects per unit area brighter than `m` is ten to the power α (m - m₀): one at the magnitude m₀, and α decades more for each magnitude. -/
theorem C161_cumulative (old m0 α c d : ℝ) (hα : 0 < α) (m : ℝ) :
    ∫ x in Iic m, sigma (setParams 1 old m0 α c d) x = (10 : ℝ) ^ (α * (m - m0)) := by
  have h : 0 < l10 * α := mul_pos l10_pos hα
  have e : ∀ x, sigma (setParams 1 old m0 α c d) x = (l10 * α * Real.exp (-(l10 * α * m0))) * Real.exp (l10 * α * x) := by
    intro x
    simp only [sigma, setParams, if_pos]
    rw [mul_assoc (l10 * α), ← Real.exp_add]
    ring_nf
  simp_rw [e]
  rw [integral_const_mul, integral_exp_mul_Iic h, ← exp_l10, mul_assoc, ← mul_div_assoc, ← Real.exp_add, mul_div_assoc', mul_div_cancel_left₀ _ h.ne']
  ring_nf

/-- C161: with models 3 and 4 the number of objects per unit area between magnitude zero and the cutoff is the given one. -/
theorem C161_scaled (old N α mc d : ℝ) (hα : α ≠ 0) (hm : mc ≠ 0) :
    ∫ x in (0 : ℝ)..mc, sigma (setParams 3 old N α mc d) x = (10 : ℝ) ^ N ∧
    ∫ x in (0 : ℝ)..mc, sigma (setParams 4 old N α mc d) x = N := by
  have he : 1 - Real.exp (-α * mc) ≠ 0 := by
    intro h
    have : Real.exp (-α * mc) = Real.exp 0 := by rw [Real.exp_zero]; linarith
    have := Real.exp_injective this
    simp [hα, hm] at this
  have key : ∀ A : ℝ, ∫ x in (0 : ℝ)..mc, A * α * Real.exp (-α * mc) / (1 - Real.exp (-α * mc)) * Real.exp (α * x) = A := by
    intro A
    have hd : ∀ x ∈ uIcc 0 mc, HasDerivAt (fun x => A * Real.exp (-α * mc) / (1 - Real.exp (-α * mc)) * Real.exp (α * x))
        (A * α * Real.exp (-α * mc) / (1 - Real.exp (-α * mc)) * Real.exp (α * x)) x := by
      intro x _
      have h1 : HasDerivAt (fun x : ℝ => α * x) α x := by simpa using (hasDerivAt_id x).const_mul α
      exact ((h1.exp).const_mul _).congr_deriv (by ring)
    rw [intervalIntegral.integral_eq_sub_of_hasDerivAt hd (by apply Continuous.intervalIntegrable; fun_prop)]
    rw [mul_zero, Real.exp_zero, ← mul_sub]
    have h1 : Real.exp (-α * mc) * (Real.exp (α * mc) - 1) = 1 - Real.exp (-α * mc) := by
      rw [mul_sub, ← Real.exp_add, show -α * mc + α * mc = 0 by ring, Real.exp_zero, mul_one]
    rw [div_mul_eq_mul_div, mul_assoc, h1, mul_div_assoc, div_self he, mul_one]
  constructor
  · have := key ((10 : ℝ) ^ N)
    simpa [sigma, setParams] using this
  · have := key N
    simpa [sigma, setParams] using this

/-- C161: models 5, 6 and 7 in base ten: the double power law, the exponential, and the rolling power law; at magnitude 23 each gives the first parameter. -/
theorem C161_reference (old a b c d : ℝ) :
    (∀ m, sigma (setParams 5 old a b c d) m
      = a * (1 + 10 ^ ((d - c) * (b - 23))) / (10 ^ (-(c * (m - 23))) + 10 ^ ((d - c) * (b - 23)) * 10 ^ (-(d * (m - 23))))) ∧
    (∀ m, sigma (setParams 6 old a b c d) m = a * 10 ^ (b * (m - 23))) ∧
    (∀ m, sigma (setParams 7 old a b c d) m = a * 10 ^ (b * (m - 23) + c * (m - 23) ^ 2)) ∧
    (∀ k, k = 5 ∨ k = 6 ∨ k = 7 → sigma (setParams k old a b c d) 23 = a) := by
  have h5 : ∀ m, sigma (setParams 5 old a b c d) m
      = a * (1 + 10 ^ ((d - c) * (b - 23))) / (10 ^ (-(c * (m - 23))) + 10 ^ ((d - c) * (b - 23)) * 10 ^ (-(d * (m - 23)))) := by
    intro m
    simp only [sigma, setParams]
    norm_num
    rw [show -(l10 * c * (m - 23)) = l10 * (-(c * (m - 23))) by ring, show -(l10 * d * (m - 23)) = l10 * (-(d * (m - 23))) by ring, exp_l10, exp_l10]
    ring
  have h6 : ∀ m, sigma (setParams 6 old a b c d) m = a * 10 ^ (b * (m - 23)) := by
    intro m
    simp only [sigma, setParams]
    norm_num
    rw [mul_assoc, exp_l10]; exact Or.inl rfl
  have h7 : ∀ m, sigma (setParams 7 old a b c d) m = a * 10 ^ (b * (m - 23) + c * (m - 23) ^ 2) := by
    intro m
    simp only [sigma, setParams]
    norm_num
    rw [show l10 * b * (m - 23) + l10 * c * (m - 23) ^ 2 = l10 * (b * (m - 23) + c * (m - 23) ^ 2) by ring, exp_l10]; exact Or.inl rfl
  refine ⟨h5, h6, h7, ?_⟩
  rintro k (rfl | rfl | rfl)
  · rw [h5]
    have : (0 : ℝ) < 10 ^ ((d - c) * (b - 23)) := Real.rpow_pos_of_pos (by norm_num) _
    simp only [sub_self, mul_zero, neg_zero, Real.rpow_zero, mul_one]
    field_simp
  · rw [h6]; simp
  · rw [h7]; simp

/-- C161: the logarithmic slope of the double power law lies between the two exponents, and is their mean at the magnitude Req where the two laws cross. -/
theorem C161_slope (old a Req a1 a2 : ℝ) (ha : 0 < a) (m : ℝ) :
    ∃ s, HasDerivAt (fun m => Real.logb 10 (sigma (setParams 5 old a Req a1 a2) m)) s m ∧ min a1 a2 ≤ s ∧ s ≤ max a1 a2
      ∧ (m = Req → s = (a1 + a2) / 2) := by
  set C : ℝ := 10 ^ ((a2 - a1) * (Req - 23)) with hC
  have hCp : 0 < C := Real.rpow_pos_of_pos (by norm_num) _
  set f : ℝ → ℝ := fun m => Real.exp (l10 * (-(a1 * (m - 23)))) with hf
  set g : ℝ → ℝ := fun m => C * Real.exp (l10 * (-(a2 * (m - 23)))) with hg
  have fp : ∀ x, 0 < f x := fun x => Real.exp_pos _
  have gp : ∀ x, 0 < g x := fun x => mul_pos hCp (Real.exp_pos _)
  have hdf : HasDerivAt f (-(l10 * a1) * f m) m := by
    have h1 : HasDerivAt (fun x : ℝ => l10 * (-(a1 * (x - 23)))) (-(l10 * a1)) m := by
      have := (((hasDerivAt_id m).sub_const 23).const_mul a1).neg.const_mul l10
      exact this.congr_deriv (by ring)
    exact h1.exp.congr_deriv (by simp only [hf]; ring)
  have hdg : HasDerivAt g (-(l10 * a2) * g m) m := by
    have h1 : HasDerivAt (fun x : ℝ => l10 * (-(a2 * (x - 23)))) (-(l10 * a2)) m := by
      have := (((hasDerivAt_id m).sub_const 23).const_mul a2).neg.const_mul l10
      exact this.congr_deriv (by ring)
    exact (h1.exp.const_mul C).congr_deriv (by simp only [hg]; ring)
  have e : (fun m => Real.logb 10 (sigma (setParams 5 old a Req a1 a2) m)) = fun m => Real.logb 10 (a * (1 + C)) - Real.log (f m + g m) / l10 := by
    funext x
    rw [(C161_reference old a Req a1 a2).1 x, ← hC, ← exp_l10, ← exp_l10, Real.logb_div (by positivity) (by positivity), l10]
    rfl
  have hs : 0 < f m + g m := add_pos (fp m) (gp m)
  refine ⟨(a1 * f m + a2 * g m) / (f m + g m), ?_, ?_, ?_, ?_⟩
  · rw [e]
    have h := (((hdf.add hdg).log hs.ne').div_const l10).const_sub (Real.logb 10 (a * (1 + C)))
    refine h.congr_deriv ?_
    have := l10_pos.ne'
    have h2 : (f + g) m = f m + g m := rfl
    rw [h2]
    field_simp
    ring
  · rw [le_div_iff₀ hs]
    have h1 := mul_le_mul_of_nonneg_right (min_le_left a1 a2) (fp m).le
    have h2 := mul_le_mul_of_nonneg_right (min_le_right a1 a2) (gp m).le
    nlinarith
  · rw [div_le_iff₀ hs]
    have h1 := mul_le_mul_of_nonneg_right (le_max_left a1 a2) (fp m).le
    have h2 := mul_le_mul_of_nonneg_right (le_max_right a1 a2) (gp m).le
    nlinarith
  · intro hm
    have : g m = f m := by
      simp only [hg, hf, hC, hm]
      rw [← exp_l10, ← Real.exp_add]
      ring_nf
    rw [this]
    have := (fp m).ne'
    field_simp
    ring

/-- C161 fails for models 3 and 4: their exponent is not converted to base ten, so a magnitude adds α / ln 10 decades where models 1 and 6 add α. -/
theorem C161_violated_base (old N α mc d : ℝ) (hα : 0 < α) (hm : 0 < mc) (hN : 0 < N) (m : ℝ) :
    (∀ k, k = 3 ∨ k = 4 → HasDerivAt (fun m => Real.logb 10 (sigma (setParams k old N α mc d) m)) (α / Real.log 10) m) ∧ α / Real.log 10 < α / 2 ∧
    HasDerivAt (fun m => Real.logb 10 (sigma (setParams 1 old N α mc d) m)) α m ∧
    HasDerivAt (fun m => Real.logb 10 (sigma (setParams 6 old N α mc d) m)) α m := by
  have lin : ∀ A B : ℝ, A ≠ 0 → ∀ f : ℝ → ℝ, (∀ x, f x = A * Real.exp (B * x)) → HasDerivAt (fun m => Real.logb 10 (f m)) (B / Real.log 10) m := by
    intro A B hA f hf
    have e : (fun m => Real.logb 10 (f m)) = fun m => (Real.log A + B * m) / Real.log 10 := by
      funext x
      rw [hf, Real.logb, Real.log_mul hA (Real.exp_pos _).ne', Real.log_exp]
    rw [e]
    have h := (((hasDerivAt_id m).const_mul B).const_add (Real.log A)).div_const (Real.log 10)
    exact h.congr_deriv (by simp)
  have he : 0 < 1 - Real.exp (-α * mc) := by
    have : Real.exp (-α * mc) < 1 := by rw [Real.exp_lt_one_iff]; nlinarith
    linarith
  have hl : Real.log 10 ≠ 0 := (Real.log_pos (by norm_num)).ne'
  refine ⟨?_, ?_, ?_, ?_⟩
  · rintro k (rfl | rfl)
    · refine lin ((10 : ℝ) ^ N * α * Real.exp (-α * mc) / (1 - Real.exp (-α * mc))) α ?_ _ fun x => ?_
      · have : (0 : ℝ) < 10 ^ N := Real.rpow_pos_of_pos (by norm_num) _
        positivity
      · simp [sigma, setParams]
    · refine lin (N * α * Real.exp (-α * mc) / (1 - Real.exp (-α * mc))) α (by positivity) _ fun x => ?_
      simp [sigma, setParams]
  · have h2 : 2 < Real.log 10 := by
      rw [Real.lt_log_iff_exp_lt (by norm_num)]
      have := Real.exp_one_lt_d9
      have e2 : Real.exp 2 = Real.exp 1 * Real.exp 1 := by rw [← Real.exp_add]; norm_num
      rw [e2]
      nlinarith [Real.exp_pos 1]
    exact div_lt_div_of_pos_left hα (by norm_num) h2
  · have := lin (l10 * α * Real.exp (-(l10 * α * N))) (l10 * α) (by have := l10_pos; positivity) (sigma (setParams 1 old N α mc d)) fun x => by
      simp only [sigma, setParams, if_pos]
      rw [mul_assoc (l10 * α), ← Real.exp_add]
      ring_nf
    exact this.congr_deriv (by rw [l10]; field_simp)
  · have := lin (N * Real.exp (-(l10 * α * 23))) (l10 * α) (by positivity) (sigma (setParams 6 old N α mc d)) fun x => by
      simp only [sigma, setParams]
      norm_num
      rw [mul_assoc N, ← Real.exp_add]
      ring_nf
    exact this.congr_deriv (by rw [l10]; field_simp)

/-- C162: `sigma_d` gives the value of `sigma` and its derivative by the first parameter.

Missing: the derivative by the second one (`C162_violated`). -/
theorem C162_derivatives_partial (P : Par) (h : P.cur = 1) (m : ℝ) :
    (sigmaD1 P m).1 = sigma P m ∧ HasDerivAt (fun t => sigma { P with p1 := t } m) (sigmaD1 P m).2.1 P.p1 := by
  constructor
  · simp [sigma, sigmaD1, h]
  · have e : (fun t => sigma { P with p1 := t } m) = fun t => P.p2 * Real.exp (P.p2 * (m - t)) := by
      funext t; simp [sigma, h]
    rw [e]
    have h1 : HasDerivAt (fun t : ℝ => P.p2 * (m - t)) (-P.p2) P.p1 := by
      have := ((hasDerivAt_id P.p1).const_sub m).const_mul P.p2
      exact this.congr_deriv (by ring)
    exact (h1.exp.const_mul P.p2).congr_deriv (by simp only [sigmaD1]; ring)

/-- C162 fails: the derivative by the exponent has the wrong sign of one term, at every magnitude and for every exponent; the derivative is `(m - m₀ + 1/α) σ`, the result is smaller by `2 σ/α`. -/
theorem C162_violated (P : Par) (h : P.cur = 1) (hp : P.p2 ≠ 0) (m : ℝ) :
    HasDerivAt (fun t => sigma { P with p2 := t } m) ((sigmaD1 P m).2.2 + 2 * Real.exp (P.p2 * (m - P.p1))) P.p2 ∧
    ¬ HasDerivAt (fun t => sigma { P with p2 := t } m) (sigmaD1 P m).2.2 P.p2 := by
  have key : HasDerivAt (fun t => sigma { P with p2 := t } m) ((sigmaD1 P m).2.2 + 2 * Real.exp (P.p2 * (m - P.p1))) P.p2 := by
    have e : (fun t => sigma { P with p2 := t } m) = fun t => t * Real.exp (t * (m - P.p1)) := by
      funext t; simp [sigma, h]
    rw [e]
    have h1 : HasDerivAt (fun t : ℝ => t * (m - P.p1)) (m - P.p1) P.p2 := by
      simpa using (hasDerivAt_id P.p2).mul_const (m - P.p1)
    refine ((hasDerivAt_id P.p2).mul h1.exp).congr_deriv ?_
    simp only [sigmaD1, id]
    field_simp
    ring
  refine ⟨key, fun h2 => ?_⟩
  have := key.unique h2
  linarith [Real.exp_pos (P.p2 * (m - P.p1))]

/-- A distribution with one object per square degree at magnitude 23.3 and a slope of 0.6, and its parameters in the common block. -/
example : (setParams 1 0 23.3 0.6 0 0).cur = 1 ∧ (setParams 1 0 23.3 0.6 0 0).p2 ≠ 0 := by
  refine ⟨rfl, ?_⟩
  have := l10_pos
  simp only [setParams, if_pos]
  positivity

end Verif.Tno
