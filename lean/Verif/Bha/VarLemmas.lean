import Verif.Bha.SeriesProps
import Mathlib.MeasureTheory.Integral.Gamma
import Mathlib.MeasureTheory.Measure.Haar.NormedSpace
import Mathlib.MeasureTheory.Integral.Pi
import Mathlib.Analysis.SpecialFunctions.Gaussian.GaussianIntegral

/-!
# The posterior mean of the noise variance: lemmas
-/

set_option linter.unusedSectionVars false

namespace Verif.Bha

open Real Verif.Vba Finset MeasureTheory

/-- A finite array of amplitudes. -/
def ext {n : ℕ} (B : Fin n → ℝ) : ℕ → ℝ := fun p => if h : p < n then B ⟨p, h⟩ else 0

/-- The joint density of the noise level `σ` and the amplitudes `B` given the samples, up to a constant: independent normal noise, a flat prior for the amplitudes and the prior `1/σ`. -/
noncomputable def joint (gam : ℕ → ℝ) (m N : ℕ) (d : ℕ → ℝ) (σ : ℝ) (B : Fin (2 * m) → ℝ) : ℝ := 1 / σ * ((1 / σ) ^ N * exp (-resid gam m N d (ext B) / (2 * σ ^ 2)))

/-- The posterior mean of the variance. -/
noncomputable def meanVar (gam : ℕ → ℝ) (m N : ℕ) (d : ℕ → ℝ) : ℝ :=
  (∫ σ in Set.Ioi (0 : ℝ), ∫ B, σ ^ 2 * joint gam m N d σ B) / ∫ σ in Set.Ioi (0 : ℝ), ∫ B, joint gam m N d σ B

/-- The sinusoids as a linear map of their amplitudes. -/
noncomputable def signal (gam : ℕ → ℝ) (m N : ℕ) : (Fin (2 * m) → ℝ) →ₗ[ℝ] (Fin N → ℝ) where
  toFun B := fun k => ∑ i ∈ range m, (ext B (2 * i) * cos (gam i * k) + ext B (2 * i + 1) * sin (gam i * k))
  map_add' B C := by
    have h : ∀ p, ext (B + C) p = ext B p + ext C p := fun p => by unfold ext; split_ifs <;> simp
    ext k
    simp only [h, Pi.add_apply, ← sum_add_distrib]
    exact sum_congr rfl fun _ _ => by ring
  map_smul' c B := by
    have h : ∀ p, ext (c • B) p = c * ext B p := fun p => by unfold ext; split_ifs <;> simp
    ext k
    simp only [h, Pi.smul_apply, smul_eq_mul, mul_sum, RingHom.id_apply]
    exact sum_congr rfl fun _ _ => by ring

theorem signal_apply (gam : ℕ → ℝ) (m N : ℕ) (B : Fin (2 * m) → ℝ) (k : Fin N) :
    signal gam m N B k = ∑ i ∈ range m, (ext B (2 * i) * cos (gam i * k) + ext B (2 * i + 1) * sin (gam i * k)) := rfl

theorem resid_signal (gam : ℕ → ℝ) (m N : ℕ) (d : ℕ → ℝ) (B : Fin (2 * m) → ℝ) : resid gam m N d (ext B) = ∑ k : Fin N, (d k - signal gam m N B k) ^ 2 := by
  unfold resid
  rw [Finset.sum_range]
  rfl

theorem resid_congr (gam : ℕ → ℝ) (m N : ℕ) (d : ℕ → ℝ) {B C : ℕ → ℝ} (h : ∀ p < 2 * m, B p = C p) : resid gam m N d B = resid gam m N d C := by
  unfold resid
  refine sum_congr rfl fun k _ => ?_
  congr 2
  refine sum_congr rfl fun i hi => ?_
  rw [mem_range] at hi
  rw [h _ (by omega), h _ (by omega)]

/-- The fitted amplitudes. -/
def fitted (m : ℕ) (A : ℕ → ℝ) : Fin (2 * m) → ℝ := fun p => A p

theorem ext_fitted (m : ℕ) (A : ℕ → ℝ) {p : ℕ} (h : p < 2 * m) : ext (fitted m A) p = A p := by
  unfold ext fitted; rw [dif_pos h]

theorem resid_fitted (gam : ℕ → ℝ) (m N : ℕ) (d A : ℕ → ℝ) : resid gam m N d (ext (fitted m A)) = resid gam m N d A :=
  resid_congr gam m N d fun _ h => ext_fitted m A h

/-- The sum of squares about the fit. -/
theorem resid_split {gam : ℕ → ℝ} {m N : ℕ} {d : ℕ → ℝ} {r : Stats} (h : Fits gam m N d r) (B : Fin (2 * m) → ℝ) :
    resid gam m N d (ext B) = resid gam m N d r.A + ∑ k, signal gam m N (B - fitted m r.A) k ^ 2 := by
  have hs : ∀ k : Fin N, signal gam m N (fitted m r.A) k = ∑ i ∈ range m, (r.A (2 * i) * cos (gam i * k) + r.A (2 * i + 1) * sin (gam i * k)) := by
    intro k
    rw [signal_apply]
    refine sum_congr rfl fun i hi => ?_
    rw [mem_range] at hi
    rw [ext_fitted _ _ (by omega), ext_fitted _ _ (by omega)]
  have hcross : ∀ C : Fin (2 * m) → ℝ, ∑ k, signal gam m N C k * (d k - signal gam m N (fitted m r.A) k) = 0 := by
    intro C
    simp only [signal_apply gam m N C, sum_mul]
    rw [sum_comm]
    refine sum_eq_zero fun i hi => ?_
    rw [mem_range] at hi
    obtain ⟨n1, n2⟩ := h.normal i hi
    rw [Finset.sum_range] at n1 n2
    simp only [← hs] at n1 n2
    have e : ∀ k : Fin N, (ext C (2 * i) * cos (gam i * k) + ext C (2 * i + 1) * sin (gam i * k)) * (d k - signal gam m N (fitted m r.A) k) =
        ext C (2 * i) * (cos (gam i * k) * (d k - signal gam m N (fitted m r.A) k)) + ext C (2 * i + 1) * (sin (gam i * k) * (d k - signal gam m N (fitted m r.A) k)) := fun k => by ring
    simp only [e, sum_add_distrib, ← mul_sum]
    rw [n1, n2]; ring
  rw [← resid_fitted gam m N d r.A, resid_signal, resid_signal]
  have e : ∀ k : Fin N, (d k - signal gam m N B k) ^ 2 = (d k - signal gam m N (fitted m r.A) k) ^ 2 + signal gam m N (B - fitted m r.A) k ^ 2 - 2 * (signal gam m N (B - fitted m r.A) k * (d k - signal gam m N (fitted m r.A) k)) := by
    intro k
    rw [map_sub, Pi.sub_apply]
    ring
  simp only [e, sum_sub_distrib, sum_add_distrib, ← mul_sum, hcross]
  ring

theorem signal_injective {gam : ℕ → ℝ} {m N : ℕ} {d : ℕ → ℝ} {r : Stats} (h : Fits gam m N d r) : LinearMap.ker (signal gam m N) = ⊥ := by
  rw [LinearMap.ker_eq_bot']
  intro C hC
  by_contra hne
  obtain ⟨p, hp⟩ := Function.ne_iff.1 hne
  have hb := h.best (ext (fitted m r.A + C)) ⟨p, p.2, by
    unfold ext fitted
    rw [dif_pos p.2]
    simpa using hp⟩
  rw [resid_split h, add_sub_cancel_left, hC] at hb
  simp at hb

/-- The normalisation of the amplitudes. -/
noncomputable def Z (gam : ℕ → ℝ) (m N : ℕ) : ℝ := ∫ B : Fin (2 * m) → ℝ, exp (-(∑ k, signal gam m N B k ^ 2) / 2)

theorem Z_pos {gam : ℕ → ℝ} {m N : ℕ} {d : ℕ → ℝ} {r : Stats} (h : Fits gam m N d r) : 0 < Z gam m N := by
  have hcont : Continuous fun B : Fin (2 * m) → ℝ => exp (-(∑ k, signal gam m N B k ^ 2) / 2) := by
    have hs : Continuous (signal gam m N) := LinearMap.continuous_of_finiteDimensional _
    have : ∀ k, Continuous fun B => signal gam m N B k := fun k => (continuous_apply k).comp hs
    fun_prop
  have hint : Integrable fun B : Fin (2 * m) → ℝ => exp (-(∑ k, signal gam m N B k ^ 2) / 2) := by
    obtain ⟨K, hK0, hK⟩ := LinearMap.exists_antilipschitzWith (signal gam m N) (signal_injective h)
    have hK0' : (0 : ℝ) < K := by exact_mod_cast hK0
    set b : ℝ := 1 / (2 * K ^ 2 * (2 * m + 1)) with hb
    have hbpos : 0 < b := by positivity
    have hg : Integrable (fun B : Fin (2 * m) → ℝ => ∏ i, exp (-b * B i ^ 2)) := Integrable.fintype_prod (f := fun _ x => exp (-b * x ^ 2)) fun _ => integrable_exp_neg_mul_sq hbpos
    refine hg.mono' hcont.aestronglyMeasurable (Filter.Eventually.of_forall fun B => ?_)
    rw [Real.norm_of_nonneg (exp_pos _).le, ← exp_sum]
    refine exp_le_exp.2 ?_
    rw [← mul_sum]
    have h1 : ‖B‖ ≤ K * ‖signal gam m N B‖ := by
      have := hK.le_mul_dist B 0
      rwa [map_zero, dist_zero_right, dist_zero_right] at this
    have h2 : ‖signal gam m N B‖ ^ 2 ≤ ∑ k, signal gam m N B k ^ 2 := by
      have h3 : ‖signal gam m N B‖ ≤ √(∑ k, signal gam m N B k ^ 2) := by
        refine (pi_norm_le_iff_of_nonneg (sqrt_nonneg _)).2 fun k => ?_
        rw [Real.norm_eq_abs, ← sqrt_sq_eq_abs]
        exact sqrt_le_sqrt (single_le_sum (f := fun k => signal gam m N B k ^ 2) (fun k _ => sq_nonneg _) (mem_univ k))
      calc ‖signal gam m N B‖ ^ 2 ≤ √(∑ k, signal gam m N B k ^ 2) ^ 2 := by gcongr
        _ = _ := sq_sqrt (sum_nonneg fun k _ => sq_nonneg _)
    have h4 : ∑ i, B i ^ 2 ≤ (2 * m + 1) * ‖B‖ ^ 2 := by
      have : ∀ i ∈ univ, B i ^ 2 ≤ ‖B‖ ^ 2 := fun i _ => by
        rw [← sq_abs, ← Real.norm_eq_abs]
        gcongr
        exact norm_le_pi_norm B i
      have := sum_le_card_nsmul _ _ _ this
      rw [card_univ, Fintype.card_fin, nsmul_eq_mul] at this
      push_cast at this
      nlinarith [sq_nonneg ‖B‖]
    have h5 : ‖B‖ ^ 2 ≤ K ^ 2 * ∑ k, signal gam m N B k ^ 2 := by
      calc ‖B‖ ^ 2 ≤ (K * ‖signal gam m N B‖) ^ 2 := by gcongr
        _ = K ^ 2 * ‖signal gam m N B‖ ^ 2 := by ring
        _ ≤ _ := by gcongr
    have h6 : b * ∑ i, B i ^ 2 ≤ (∑ k, signal gam m N B k ^ 2) / 2 := by
      rw [hb, one_div, inv_mul_le_iff₀ (by positivity)]
      calc ∑ i, B i ^ 2 ≤ (2 * m + 1) * ‖B‖ ^ 2 := h4
        _ ≤ (2 * m + 1) * (K ^ 2 * ∑ k, signal gam m N B k ^ 2) := by gcongr
        _ = _ := by ring
    linarith
  refine (integral_pos_iff_support_of_nonneg (fun B => (exp_pos _).le) hint).2 ?_
  have : Function.support (fun B : Fin (2 * m) → ℝ => exp (-(∑ k, signal gam m N B k ^ 2) / 2)) = Set.univ := by
    ext B; simp [(exp_pos _).ne']
  rw [this]
  exact Measure.measure_univ_pos.2 (NeZero.ne _)

/-- The amplitudes integrated out. -/
theorem joint_integral {gam : ℕ → ℝ} {m N : ℕ} {d : ℕ → ℝ} {r : Stats} (h : Fits gam m N d r) {σ : ℝ} (hσ : 0 < σ) :
    ∫ B, joint gam m N d σ B = 1 / σ * ((1 / σ) ^ N * (exp (-resid gam m N d r.A / (2 * σ ^ 2)) * (σ ^ (2 * m) * Z gam m N))) := by
  have e : ∀ B, joint gam m N d σ B = 1 / σ * (1 / σ) ^ N * exp (-resid gam m N d r.A / (2 * σ ^ 2)) * exp (-(∑ k, signal gam m N (σ⁻¹ • (B - fitted m r.A)) k ^ 2) / 2) := by
    intro B
    unfold joint
    rw [resid_split h, show -(resid gam m N d r.A + ∑ k, signal gam m N (B - fitted m r.A) k ^ 2) / (2 * σ ^ 2) = -resid gam m N d r.A / (2 * σ ^ 2) + -(∑ k, signal gam m N (σ⁻¹ • (B - fitted m r.A)) k ^ 2) / 2 by
      simp only [map_smul, Pi.smul_apply, smul_eq_mul, mul_pow, ← mul_sum]
      field_simp
      ring, exp_add]
    ring
  simp only [e]
  rw [integral_const_mul, integral_sub_right_eq_self (fun B => exp (-(∑ k, signal gam m N (σ⁻¹ • B) k ^ 2) / 2)) (fitted m r.A)]
  rw [Measure.integral_comp_inv_smul_of_nonneg volume (fun B => exp (-(∑ k, signal gam m N B k ^ 2) / 2)) hσ.le]
  simp only [Module.finrank_fin_fun, smul_eq_mul]
  unfold Z
  ring

/-- An integral over the noise level. -/
theorem sigma_integral {Q : ℝ} (hQ : 0 < Q) (k : ℕ) : ∫ σ in Set.Ioi (0 : ℝ), (1 / σ) ^ (k + 2) * exp (-Q / (2 * σ ^ 2)) = (Q / 2) ^ (-((k : ℝ) + 1) / 2) * (1 / 2) * Gamma (((k : ℝ) + 1) / 2) := by
  rw [← integral_comp_rpow_Ioi _ (neg_ne_zero.2 one_ne_zero), ← integral_rpow_mul_exp_neg_mul_rpow two_pos (by have : (0 : ℝ) ≤ k := Nat.cast_nonneg k; linarith) (by positivity : 0 < Q / 2)]
  refine setIntegral_congr_fun measurableSet_Ioi fun x hx => ?_
  have hx' : (0 : ℝ) < x := hx
  simp only [smul_eq_mul, abs_neg, abs_one, one_mul]
  rw [rpow_neg_one, show (-1 : ℝ) - 1 = -2 by norm_num, rpow_neg hx'.le, rpow_natCast, rpow_two, one_div, inv_inv, inv_pow]
  rw [show -Q / (2 * (x ^ 2)⁻¹) = -(Q / 2) * x ^ 2 by field_simp]
  rw [← mul_assoc]
  congr 1
  field_simp
  ring

/-- The posterior mean of the variance. -/
theorem meanVar_eq {gam : ℕ → ℝ} {m N : ℕ} {d : ℕ → ℝ} {r : Stats} (h : Fits gam m N d r) (hN : 2 * m + 2 < N) (hQ : 0 < resid gam m N d r.A) :
    meanVar gam m N d = resid gam m N d r.A / ((N : ℝ) - 2 * m - 2) := by
  obtain ⟨k, rfl⟩ : ∃ k, N = 2 * m + 2 + (k + 1) := ⟨N - 2 * m - 3, by omega⟩
  set N := 2 * m + 2 + (k + 1) with hNdef
  set Q := resid gam m N d r.A with hQdef
  have hz := Z_pos h
  have e1 : ∫ σ in Set.Ioi (0 : ℝ), ∫ B, joint gam m N d σ B = Z gam m N * ∫ σ in Set.Ioi (0 : ℝ), (1 / σ) ^ (k + 2 + 2) * exp (-Q / (2 * σ ^ 2)) := by
    rw [← integral_const_mul]
    refine setIntegral_congr_fun measurableSet_Ioi fun σ hσ => ?_
    have hσ' : (0 : ℝ) < σ := hσ
    rw [joint_integral h hσ', ← hQdef, show (1 / σ) ^ N = (1 / σ) ^ (2 * m) * (1 / σ) ^ (k + 3) by rw [← pow_add]; congr 1; omega]
    have : (1 / σ) ^ (2 * m) * σ ^ (2 * m) = 1 := by rw [← mul_pow, one_div_mul_cancel hσ'.ne', one_pow]
    rw [show (1 / σ) ^ (k + 2 + 2) = 1 / σ * (1 / σ) ^ (k + 3) by ring]
    linear_combination (1 / σ * (1 / σ) ^ (k + 3) * exp (-Q / (2 * σ ^ 2)) * Z gam m N) * this
  have e2 : ∫ σ in Set.Ioi (0 : ℝ), ∫ B, σ ^ 2 * joint gam m N d σ B = Z gam m N * ∫ σ in Set.Ioi (0 : ℝ), (1 / σ) ^ (k + 2) * exp (-Q / (2 * σ ^ 2)) := by
    rw [← integral_const_mul]
    refine setIntegral_congr_fun measurableSet_Ioi fun σ hσ => ?_
    have hσ' : (0 : ℝ) < σ := hσ
    rw [integral_const_mul, joint_integral h hσ', ← hQdef, show (1 / σ) ^ N = (1 / σ) ^ (2 * m) * (1 / σ) ^ (k + 3) by rw [← pow_add]; congr 1; omega]
    have h1 : (1 / σ) ^ (2 * m) * σ ^ (2 * m) = 1 := by rw [← mul_pow, one_div_mul_cancel hσ'.ne', one_pow]
    have h2 : σ ^ 2 * (1 / σ * (1 / σ) ^ (k + 3)) = (1 / σ) ^ (k + 2) := by
      rw [show 1 / σ * (1 / σ) ^ (k + 3) = (1 / σ) ^ (k + 2) * (1 / σ) ^ 2 by ring]
      field_simp
    linear_combination (σ ^ 2 * (1 / σ * (1 / σ) ^ (k + 3)) * exp (-Q / (2 * σ ^ 2)) * Z gam m N) * h1 + (exp (-Q / (2 * σ ^ 2)) * Z gam m N) * h2
  unfold meanVar
  rw [e1, e2, sigma_integral hQ, sigma_integral hQ, mul_div_mul_left _ _ hz.ne']
  have hk : (0 : ℝ) < ((k : ℝ) + 1) / 2 := by positivity
  have e3 : (((k + 2 : ℕ) : ℝ) + 1) / 2 = ((k : ℝ) + 1) / 2 + 1 := by push_cast; ring
  have e4 : -(((k + 2 : ℕ) : ℝ) + 1) / 2 = -((k : ℝ) + 1) / 2 - 1 := by push_cast; ring
  rw [e3, e4, Gamma_add_one hk.ne', rpow_sub_one (by positivity)]
  have hG := Gamma_pos_of_pos hk
  have hR : 0 < (Q / 2) ^ (-((k : ℝ) + 1) / 2) := by positivity
  have e5 : (N : ℝ) - 2 * m - 2 = k + 1 := by rw [hNdef]; push_cast; ring
  rw [e5]
  field_simp

end Verif.Bha
