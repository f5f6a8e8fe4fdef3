import Verif.Drxn.Spec
import Mathlib.Analysis.Calculus.ParametricIntervalIntegral
import Mathlib.MeasureTheory.Integral.Prod
import Mathlib.MeasureTheory.Integral.IntervalIntegral.FundThmCalculus
import Mathlib.MeasureTheory.Integral.IntervalIntegral.Periodic
import Mathlib.Analysis.SpecialFunctions.ExpDeriv
import Mathlib.Analysis.SpecialFunctions.Trigonometric.Deriv
import Mathlib.Analysis.SpecialFunctions.Complex.Arg
import Mathlib.Analysis.Calculus.MeanValue
import Mathlib.Analysis.SpecialFunctions.Integrals.Basic

/-!
# The average of an exponential over all directions
-/

set_option linter.unusedSectionVars false

namespace Verif.Drxn

open Real MeasureTheory intervalIntegral Topology

theorem deriv_inner {a b C : ℝ} {F F' : ℝ → ℝ → ℝ} (hF : ∀ t, Continuous (F t)) (hF' : ∀ t, Continuous (F' t))
    (hd : ∀ t s, HasDerivAt (fun t => F t s) (F' t s) t) (hb : ∀ t s, |F' t s| ≤ C) (t : ℝ) :
    HasDerivAt (fun t => ∫ s in a..b, F t s) (∫ s in a..b, F' t s) t :=
  (hasDerivAt_integral_of_dominated_loc_of_deriv_le (F := F) (F' := F') (bound := fun _ => C) (s := Set.univ) Filter.univ_mem
    (Filter.Eventually.of_forall fun t => (hF t).aestronglyMeasurable) ((hF t).intervalIntegrable _ _)
    (hF' t).aestronglyMeasurable (Filter.Eventually.of_forall fun s _ t _ => by rw [Real.norm_eq_abs]; exact hb t s)
    (continuous_const.intervalIntegrable _ _) (Filter.Eventually.of_forall fun s _ t _ => hd t s)).2

/-- The exponential of `a*x + c*z`. -/
noncomputable def ee (a c φ θ : ℝ) : ℝ := exp (a * (cos φ * cos θ) + c * sin θ)

theorem ee_cont (a c : ℝ) : Continuous fun p : ℝ × ℝ => ee a c p.1 p.2 := by unfold ee; fun_prop

theorem d_lat (a c φ θ : ℝ) : HasDerivAt (fun θ => ee a c φ θ * (cos φ * cos θ))
    (ee a c φ θ * (cos φ * ((-a * cos φ * sin θ + c * cos θ) * cos θ - sin θ))) θ := by
  unfold ee
  have h1 : HasDerivAt (fun θ => a * (cos φ * cos θ) + c * sin θ) (a * (cos φ * -sin θ) + c * cos θ) θ :=
    (((hasDerivAt_cos θ).const_mul _).const_mul _).add ((hasDerivAt_sin θ).const_mul _)
  have h2 := h1.exp.mul ((hasDerivAt_cos θ).const_mul (cos φ))
  refine h2.congr_deriv ?_
  ring

theorem d_lng (a c φ θ : ℝ) : HasDerivAt (fun φ => ee a c φ θ * (sin φ * sin θ))
    (ee a c φ θ * (sin θ * (-a * sin φ ^ 2 * cos θ + cos φ))) φ := by
  unfold ee
  have h1 : HasDerivAt (fun φ => a * (cos φ * cos θ) + c * sin θ) (a * (-sin φ * cos θ)) φ :=
    (((hasDerivAt_cos φ).mul_const _).const_mul _).add_const _
  have h2 := h1.exp.mul ((hasDerivAt_sin φ).mul_const (sin θ))
  refine h2.congr_deriv ?_
  ring

/-- Rotation about the `y` axis leaves the average as it is. -/
theorem rot_zero (a c : ℝ) :
    ∫ φ in -π..π, ∫ θ in -(π / 2)..π / 2, (a * sin θ - c * (cos φ * cos θ)) * ee a c φ θ * cos θ = 0 := by
  have e : ∀ φ θ : ℝ, (a * sin θ - c * (cos φ * cos θ)) * ee a c φ θ * cos θ =
      -(ee a c φ θ * (cos φ * ((-a * cos φ * sin θ + c * cos θ) * cos θ - sin θ))) - ee a c φ θ * (sin θ * (-a * sin φ ^ 2 * cos θ + cos φ)) := by
    intro φ θ
    linear_combination (-a * sin θ * cos θ * ee a c φ θ) * (sin_sq_add_cos_sq φ)
  have c1 : Continuous fun p : ℝ × ℝ => ee a c p.1 p.2 * (cos p.1 * ((-a * cos p.1 * sin p.2 + c * cos p.2) * cos p.2 - sin p.2)) :=
    (ee_cont a c).mul (by fun_prop)
  have c2 : Continuous fun p : ℝ × ℝ => ee a c p.1 p.2 * (sin p.2 * (-a * sin p.1 ^ 2 * cos p.2 + cos p.1)) := (ee_cont a c).mul (by fun_prop)
  have s1 : ∀ φ, Continuous fun θ => ee a c φ θ * (cos φ * ((-a * cos φ * sin θ + c * cos θ) * cos θ - sin θ)) := fun φ => by unfold ee; fun_prop
  have s2 : ∀ φ, Continuous fun θ => ee a c φ θ * (sin θ * (-a * sin φ ^ 2 * cos θ + cos φ)) := fun φ => by unfold ee; fun_prop
  have s3 : ∀ θ, Continuous fun φ => ee a c φ θ * (sin θ * (-a * sin φ ^ 2 * cos θ + cos φ)) := fun θ => by unfold ee; fun_prop
  have i1 : ∀ φ, ∫ θ in -(π / 2)..π / 2, ee a c φ θ * (cos φ * ((-a * cos φ * sin θ + c * cos θ) * cos θ - sin θ)) = 0 := by
    intro φ
    rw [integral_eq_sub_of_hasDerivAt (fun θ _ => d_lat a c φ θ) ((s1 φ).intervalIntegrable _ _)]
    simp
  have i2 : ∫ φ in -π..π, ∫ θ in -(π / 2)..π / 2, ee a c φ θ * (sin θ * (-a * sin φ ^ 2 * cos θ + cos φ)) = 0 := by
    rw [intervalIntegral_intervalIntegral_swap]
    · have : ∀ θ, ∫ φ in -π..π, ee a c φ θ * (sin θ * (-a * sin φ ^ 2 * cos θ + cos φ)) = 0 := by
        intro θ
        rw [integral_eq_sub_of_hasDerivAt (fun φ _ => d_lng a c φ θ) ((s3 θ).intervalIntegrable _ _)]
        simp
      simp only [this]; simp
    · exact (c2.continuousOn.integrableOn_compact (isCompact_uIcc.prod isCompact_uIcc)).mono_set
        (Set.prod_mono Set.uIoc_subset_uIcc Set.uIoc_subset_uIcc)
  have : ∀ φ, ∫ θ in -(π / 2)..π / 2, (a * sin θ - c * (cos φ * cos θ)) * ee a c φ θ * cos θ =
      -∫ θ in -(π / 2)..π / 2, ee a c φ θ * (sin θ * (-a * sin φ ^ 2 * cos θ + cos φ)) := by
    intro φ
    simp only [e]
    have n1 : Continuous fun θ => -(ee a c φ θ * (cos φ * ((-a * cos φ * sin θ + c * cos θ) * cos θ - sin θ))) := (s1 φ).neg
    rw [intervalIntegral.integral_sub (n1.intervalIntegrable _ _) ((s2 φ).intervalIntegrable _ _), intervalIntegral.integral_neg, i1, neg_zero, zero_sub]
  simp only [this]
  rw [intervalIntegral.integral_neg, i2, neg_zero]

/-- The integral over all directions of the exponential. -/
noncomputable def ii (a c : ℝ) : ℝ := ∫ φ in -π..π, ∫ θ in -(π / 2)..π / 2, ee a c φ θ * cos θ

theorem ee_le (r t φ θ : ℝ) (hr : 0 ≤ r) : ee (r * cos t) (r * sin t) φ θ ≤ exp (2 * r) := by
  unfold ee
  refine exp_le_exp.2 ?_
  have h1 : cos t * (cos φ * cos θ) ≤ 1 := by
    refine (le_abs_self _).trans ?_
    rw [abs_mul, abs_mul]
    exact mul_le_one₀ (abs_cos_le_one _) (by positivity) (mul_le_one₀ (abs_cos_le_one _) (by positivity) (abs_cos_le_one _))
  have h2 : sin t * sin θ ≤ 1 := by
    refine (le_abs_self _).trans ?_
    rw [abs_mul]
    exact mul_le_one₀ (abs_sin_le_one _) (by positivity) (abs_sin_le_one _)
  nlinarith

theorem ii_rot (r t : ℝ) (hr : 0 ≤ r) : HasDerivAt (fun t => ii (r * cos t) (r * sin t)) 0 t := by
  have d1 : ∀ φ t θ, HasDerivAt (fun t => ee (r * cos t) (r * sin t) φ θ * cos θ)
      ((r * cos t * sin θ - r * sin t * (cos φ * cos θ)) * ee (r * cos t) (r * sin t) φ θ * cos θ) t := by
    intro φ t θ
    unfold ee
    have h1 : HasDerivAt (fun t => r * cos t * (cos φ * cos θ) + r * sin t * sin θ) (r * -sin t * (cos φ * cos θ) + r * cos t * sin θ) t :=
      (((hasDerivAt_cos t).const_mul _).mul_const _).add (((hasDerivAt_sin t).const_mul _).mul_const _)
    refine (h1.exp.mul_const (cos θ)).congr_deriv ?_
    ring
  have b1 : ∀ φ t θ, |(r * cos t * sin θ - r * sin t * (cos φ * cos θ)) * ee (r * cos t) (r * sin t) φ θ * cos θ| ≤ 2 * r * exp (2 * r) := by
    intro φ t θ
    rw [abs_mul, abs_mul]
    have h0 : |r * cos t * sin θ - r * sin t * (cos φ * cos θ)| ≤ 2 * r := by
      refine (abs_sub _ _).trans ?_
      rw [abs_mul, abs_mul, abs_mul, abs_mul, abs_mul, abs_of_nonneg hr]
      have h1 : |cos t| * |sin θ| ≤ 1 := mul_le_one₀ (abs_cos_le_one _) (by positivity) (abs_sin_le_one _)
      have h2 : |sin t| * (|cos φ| * |cos θ|) ≤ 1 :=
        mul_le_one₀ (abs_sin_le_one _) (by positivity) (mul_le_one₀ (abs_cos_le_one _) (by positivity) (abs_cos_le_one _))
      nlinarith
    have h3 : |ee (r * cos t) (r * sin t) φ θ| ≤ exp (2 * r) := by
      rw [abs_of_pos (show 0 < ee _ _ _ _ from exp_pos _)]; exact ee_le r t φ θ hr
    calc _ ≤ 2 * r * exp (2 * r) * 1 := by
          refine mul_le_mul (mul_le_mul h0 h3 (abs_nonneg _) (by positivity)) (abs_cos_le_one _) (abs_nonneg _) (by positivity)
      _ = _ := mul_one _
  have d2 : ∀ t φ, HasDerivAt (fun t => ∫ θ in -(π / 2)..π / 2, ee (r * cos t) (r * sin t) φ θ * cos θ)
      (∫ θ in -(π / 2)..π / 2, (r * cos t * sin θ - r * sin t * (cos φ * cos θ)) * ee (r * cos t) (r * sin t) φ θ * cos θ) t := by
    intro t φ
    have k0 : ∀ t, Continuous fun θ => ee (r * cos t) (r * sin t) φ θ * cos θ := by intro t; unfold ee; fun_prop
    have k1 : ∀ t, Continuous fun θ => (r * cos t * sin θ - r * sin t * (cos φ * cos θ)) * ee (r * cos t) (r * sin t) φ θ * cos θ := by
      intro t; unfold ee; fun_prop
    exact deriv_inner k0 k1 (d1 φ) (b1 φ) t
  have b2 : ∀ t φ, |∫ θ in -(π / 2)..π / 2, (r * cos t * sin θ - r * sin t * (cos φ * cos θ)) * ee (r * cos t) (r * sin t) φ θ * cos θ| ≤
      2 * r * exp (2 * r) * |π / 2 - -(π / 2)| := fun t φ =>
    intervalIntegral.norm_integral_le_of_norm_le_const (f := fun θ => (r * cos t * sin θ - r * sin t * (cos φ * cos θ)) * ee (r * cos t) (r * sin t) φ θ * cos θ) fun θ _ => b1 φ t θ
  have m0 : ∀ t, Continuous fun φ => ∫ θ in -(π / 2)..π / 2, ee (r * cos t) (r * sin t) φ θ * cos θ := by
    intro t
    refine continuous_parametric_intervalIntegral_of_continuous' ?_ _ _
    unfold ee; fun_prop
  have m1 : ∀ t, Continuous fun φ => ∫ θ in -(π / 2)..π / 2, (r * cos t * sin θ - r * sin t * (cos φ * cos θ)) * ee (r * cos t) (r * sin t) φ θ * cos θ := by
    intro t
    refine continuous_parametric_intervalIntegral_of_continuous' ?_ _ _
    unfold ee; fun_prop
  have := deriv_inner (a := -π) (b := π) m0 m1 d2 b2 t
  rw [rot_zero] at this
  exact this

theorem ii_pole (r : ℝ) (hr : r ≠ 0) : ii 0 r = 4 * π * (sinh r / r) := by
  unfold ii
  have : ∀ φ, ∫ θ in -(π / 2)..π / 2, ee 0 r φ θ * cos θ = 2 * sinh r / r := by
    intro φ
    have hd : ∀ θ, HasDerivAt (fun θ => exp (r * sin θ) / r) (ee 0 r φ θ * cos θ) θ := by
      intro θ
      have h1 := (((hasDerivAt_sin θ).const_mul r).exp).div_const r
      refine h1.congr_deriv ?_
      unfold ee; rw [zero_mul, zero_add]; field_simp
    rw [integral_eq_sub_of_hasDerivAt (fun θ _ => hd θ)]
    · rw [sin_neg, sin_pi_div_two, sinh_eq]; simp only [mul_one, mul_neg]; field_simp
    · exact ((ee_cont 0 r).comp (by fun_prop : Continuous fun θ => (φ, θ))).mul continuous_cos |>.intervalIntegrable _ _
  simp only [this]
  rw [intervalIntegral.integral_const, smul_eq_mul]; ring

theorem ii_const (r t : ℝ) (hr : 0 < r) : ii (r * cos t) (r * sin t) = 4 * π * (sinh r / r) := by
  have h := is_const_of_deriv_eq_zero (f := fun t => ii (r * cos t) (r * sin t)) (fun t => (ii_rot r t hr.le).differentiableAt)
    (fun t => (ii_rot r t hr.le).deriv) t (π / 2)
  simp only [cos_pi_div_two, sin_pi_div_two, mul_zero, mul_one] at h
  rw [h, ii_pole r hr.ne']

/-- Polar coordinates of a point of the plane. -/
theorem polar (x y : ℝ) : ∃ r t, 0 ≤ r ∧ r ^ 2 = x ^ 2 + y ^ 2 ∧ x = r * cos t ∧ y = r * sin t := by
  refine ⟨‖(⟨x, y⟩ : ℂ)‖, Complex.arg ⟨x, y⟩, norm_nonneg _, ?_, ?_, ?_⟩
  · rw [Complex.sq_norm, Complex.normSq_mk]; ring
  · exact (Complex.norm_mul_cos_arg (⟨x, y⟩ : ℂ)).symm
  · exact (Complex.norm_mul_sin_arg (⟨x, y⟩ : ℂ)).symm

/-- The average over all directions of the exponential of a scalar product. -/
theorem sphAvg_exp (k : V3) (r : ℝ) (hr : 0 < r) (h : dot3 k k = r ^ 2) : sphAvg (fun n => exp (dot3 k n)) = sinh r / r := by
  obtain ⟨a, s, ha, ha2, hx, hy⟩ := polar (k 0) (k 1)
  obtain ⟨b, t, hb, hb2, hac, hz⟩ := polar a (k 2)
  have hbr : b = r := by
    have h3 : dot3 k k = k 0 * k 0 + k 1 * k 1 + k 2 * k 2 := by unfold dot3; rw [Fin.sum_univ_three]
    have : b ^ 2 = r ^ 2 := by rw [hb2, ha2, ← h, h3]; ring
    exact (pow_left_inj₀ hb hr.le two_ne_zero).1 this
  subst hbr
  have e : ∀ φ θ, exp (dot3 k (dirOf φ θ)) = ee a (k 2) (φ - s) θ := by
    intro φ θ
    unfold dot3 dirOf ee
    rw [Fin.sum_univ_three]
    show exp (k 0 * (cos φ * cos θ) + k 1 * (sin φ * cos θ) + k 2 * sin θ) = _
    rw [hx, hy, cos_sub]
    congr 1; ring
  unfold sphAvg
  simp only [e]
  have hp : Function.Periodic (fun φ => ∫ θ in -(π / 2)..π / 2, ee a (k 2) φ θ * cos θ) (2 * π) := by
    intro φ
    unfold ee
    simp only [cos_add_two_pi]
  have : ∫ φ in -π..π, ∫ θ in -(π / 2)..π / 2, ee a (k 2) (φ - s) θ * cos θ = ii a (k 2) := by
    rw [integral_comp_sub_right (fun φ => ∫ θ in -(π / 2)..π / 2, ee a (k 2) φ θ * cos θ) s]
    have h1 := hp.intervalIntegral_add_eq (-π - s) (-π)
    rw [show -π - s + 2 * π = π - s by ring, show -π + 2 * π = π by ring] at h1
    exact h1
  rw [this, hac, hz, ii_const b t hr]
  field_simp

theorem sphAvg_one : sphAvg (fun _ => 1) = 1 := by
  unfold sphAvg
  simp only [one_mul, integral_cos, sin_neg, sin_pi_div_two]
  rw [intervalIntegral.integral_const, smul_eq_mul]
  field_simp
  norm_num

end Verif.Drxn
