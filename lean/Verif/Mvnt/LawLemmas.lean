import Verif.Mvnt.SampLemmas
import Mathlib.Probability.Distributions.Gaussian.Real
import Mathlib.MeasureTheory.Measure.Lebesgue.Basic
import Mathlib.MeasureTheory.Constructions.Pi

/-!
# Lemmas about laws
-/

set_option linter.unusedSectionVars false

namespace Verif.Mvnt

open Finset Matrix MeasureTheory ProbabilityTheory
open scoped ENNReal

theorem sqrt_pow' {a : ℝ} (ha : 0 ≤ a) (n : ℕ) : √(a ^ n) = √a ^ n := by
  induction n with
  | zero => simp
  | succ n ih => rw [pow_succ, Real.sqrt_mul (pow_nonneg ha n), ih, pow_succ]

/-- The integral of a product of functions of one variable each. -/
theorem lintegral_prod_coord {n : ℕ} (f : Fin n → ℝ → ℝ≥0∞) (hf : ∀ i, Measurable (f i)) :
    ∫⁻ z : Fin n → ℝ, ∏ i, f i (z i) = ∏ i, ∫⁻ x, f i x := by
  induction n with
  | zero => simp [volume_pi]
  | succ n ih =>
    have e := (volume_preserving_piFinSuccAbove (fun _ : Fin (n + 1) => ℝ) 0).symm
    rw [← e.lintegral_comp (by fun_prop)]
    have : ∀ x : ℝ × (Fin n → ℝ), ∏ i, f i ((MeasurableEquiv.piFinSuccAbove (fun _ : Fin (n + 1) => ℝ) 0).symm x i) = f 0 x.1 * ∏ i, f i.succ (x.2 i) := by
      intro x
      rw [Fin.prod_univ_succ]
      simp [MeasurableEquiv.piFinSuccAbove_symm_apply]
    rw [lintegral_congr this, Measure.volume_eq_prod, lintegral_prod_mul (f := f 0) (g := fun z : Fin n → ℝ => ∏ i, f i.succ (z i)) (by fun_prop) (Finset.measurable_fun_prod _ fun i _ => (hf i.succ).comp (measurable_pi_apply i)).aemeasurable, ih _ fun i => hf _, Fin.prod_univ_succ]

/-- The product of measures with densities has the product of the densities. -/
theorem pi_withDensity {n : ℕ} (f : Fin n → ℝ → ℝ≥0∞) (hf : ∀ i, Measurable (f i)) [∀ i, SigmaFinite (volume.withDensity (f i))] :
    Measure.pi (fun i => (volume : Measure ℝ).withDensity (f i)) = (volume : Measure (Fin n → ℝ)).withDensity fun z => ∏ i, f i (z i) := by
  apply Measure.pi_eq
  intro s hs
  rw [withDensity_apply _ (MeasurableSet.univ_pi hs), ← lintegral_indicator (MeasurableSet.univ_pi hs)]
  have : ∀ z : Fin n → ℝ, (Set.univ.pi s).indicator (fun z => ∏ i, f i (z i)) z = ∏ i, (s i).indicator (f i) (z i) := by
    intro z
    by_cases hz : z ∈ Set.univ.pi s
    · rw [Set.indicator_of_mem hz]
      exact prod_congr rfl fun i _ => (Set.indicator_of_mem (hz i trivial) _).symm
    · rw [Set.indicator_of_notMem hz]
      simp only [Set.mem_univ_pi, not_forall] at hz
      obtain ⟨i, hi⟩ := hz
      exact (prod_eq_zero (mem_univ i) (Set.indicator_of_notMem hi _)).symm
  rw [lintegral_congr this, lintegral_prod_coord _ fun i => (hf i).indicator (hs i)]
  exact prod_congr rfl fun i _ => by rw [lintegral_indicator (hs i), withDensity_apply _ (hs i)]

/-- Independent standard normal deviates. -/
noncomputable abbrev normals (n : ℕ) : Measure (Fin n → ℝ) := Measure.pi fun _ => gaussianReal 0 1

theorem normals_eq (n : ℕ) : normals n = volume.withDensity fun z => ENNReal.ofReal (1 / √((2 * Real.pi) ^ n) * Real.exp (-(z ⬝ᵥ z) / 2)) := by
  have h1 : gaussianReal 0 1 = volume.withDensity (gaussianPDF 0 1) := gaussianReal_of_var_ne_zero 0 one_ne_zero
  have h2 : normals n = Measure.pi (fun _ : Fin n => volume.withDensity (gaussianPDF 0 1)) := by rw [normals, h1]
  have : SigmaFinite ((volume : Measure ℝ).withDensity (gaussianPDF 0 1)) := by rw [← h1]; infer_instance
  rw [h2, pi_withDensity (fun _ : Fin n => gaussianPDF 0 1) fun _ => measurable_gaussianPDF 0 1]
  congr 1
  ext z
  simp only [gaussianPDF]
  rw [← ENNReal.ofReal_prod_of_nonneg fun i _ => gaussianPDFReal_nonneg 0 1 _]
  congr 1
  simp only [gaussianPDFReal, NNReal.coe_one, mul_one, sub_zero]
  rw [prod_mul_distrib, ← Real.exp_sum, prod_const, card_univ, Fintype.card_fin]
  congr 1
  · rw [one_div, inv_pow, ← sqrt_pow' (by positivity)]
  · congr 1
    rw [dotProduct, neg_div, sum_div, ← sum_neg_distrib]
    exact sum_congr rfl fun i _ => by ring

/-- A change of variables. -/
theorem lintegral_affine {n : ℕ} {M : Matrix (Fin n) (Fin n) ℝ} (hM : M.det ≠ 0) (b : Fin n → ℝ) (g : (Fin n → ℝ) → ℝ≥0∞) (hg : Measurable g) :
    ∫⁻ z, g (b + M *ᵥ z) = ENNReal.ofReal |M.det⁻¹| * ∫⁻ x, g x := by
  have h1 := Real.map_matrix_volume_pi_eq_smul_volume_pi hM
  have hm : Measurable (fun z : Fin n → ℝ => M *ᵥ z) := (LinearMap.continuous_of_finiteDimensional (Matrix.toLin' M)).measurable
  have h2 : ∫⁻ z, g (b + M *ᵥ z) = ∫⁻ y, g (b + y) ∂(Measure.map (Matrix.toLin' M) volume) := by
    rw [lintegral_map (f := fun y => g (b + y)) (hg.comp (measurable_const_add b)) (LinearMap.continuous_of_finiteDimensional (Matrix.toLin' M)).measurable]
    rfl
  rw [h2, h1, lintegral_smul_measure, lintegral_add_left_eq_self, smul_eq_mul]

/-- The law of an affine function of independent normal deviates. -/
theorem law_affine {n : ℕ} {A M : Matrix (Fin n) (Fin n) ℝ} (hM : 0 < M.det) (hq : ∀ z, (M *ᵥ z) ⬝ᵥ A *ᵥ (M *ᵥ z) = z ⬝ᵥ z) (b : Fin n → ℝ) :
    (normals n).map (fun z => b + M *ᵥ z) =
      volume.withDensity fun x => ENNReal.ofReal (1 / (√((2 * Real.pi) ^ n) * M.det) * Real.exp (-((x - b) ⬝ᵥ A *ᵥ (x - b)) / 2)) := by
  have hm : Measurable (fun z : Fin n → ℝ => M *ᵥ z) := (LinearMap.continuous_of_finiteDimensional (Matrix.toLin' M)).measurable
  have hA : Measurable (fun z : Fin n → ℝ => A *ᵥ z) := (LinearMap.continuous_of_finiteDimensional (Matrix.toLin' A)).measurable
  have hmb : Measurable (fun z : Fin n → ℝ => b + M *ᵥ z) := hm.const_add b
  have hdp : ∀ f g : (Fin n → ℝ) → Fin n → ℝ, Measurable f → Measurable g → Measurable fun z => f z ⬝ᵥ g z := by
    intro f g hf hg
    unfold dotProduct
    exact Finset.measurable_fun_sum _ fun i _ => ((measurable_pi_apply i).comp hf).mul ((measurable_pi_apply i).comp hg)
  ext s hs
  set G : (Fin n → ℝ) → ℝ≥0∞ := fun x => ENNReal.ofReal (1 / (√((2 * Real.pi) ^ n) * M.det) * Real.exp (-((x - b) ⬝ᵥ A *ᵥ (x - b)) / 2)) with hG
  have hGm : Measurable G := by
    have := hdp (fun x => x - b) (fun x => A *ᵥ (x - b)) (by fun_prop) (hA.comp (by fun_prop))
    simp only [hG]
    fun_prop
  rw [Measure.map_apply hmb hs, normals_eq, withDensity_apply _ (hmb hs), withDensity_apply _ hs,
    ← lintegral_indicator (hmb hs), ← lintegral_indicator hs]
  have h1 := lintegral_affine hM.ne' b (s.indicator G) (hGm.indicator hs)
  have h2 : ∀ z, ((fun z => b + M *ᵥ z) ⁻¹' s).indicator (fun z => ENNReal.ofReal (1 / √((2 * Real.pi) ^ n) * Real.exp (-(z ⬝ᵥ z) / 2))) z
      = ENNReal.ofReal M.det * s.indicator G (b + M *ᵥ z) := by
    intro z
    by_cases hz : b + M *ᵥ z ∈ s
    · rw [Set.indicator_of_mem (show z ∈ (fun z => b + M *ᵥ z) ⁻¹' s from hz), Set.indicator_of_mem hz, hG, ← ENNReal.ofReal_mul hM.le]
      simp only [add_sub_cancel_left, hq]
      congr 1
      have : √((2 * Real.pi) ^ n) ≠ 0 := by positivity
      field_simp
    · rw [Set.indicator_of_notMem (show z ∉ (fun z => b + M *ᵥ z) ⁻¹' s from hz), Set.indicator_of_notMem hz, mul_zero]
  rw [lintegral_congr h2, lintegral_const_mul (f := fun z => s.indicator G (b + M *ᵥ z)) _ ((hGm.indicator hs).comp hmb), h1, ← mul_assoc, ← ENNReal.ofReal_mul hM.le,
    abs_of_pos (inv_pos.2 hM), mul_inv_cancel₀ hM.ne', ENNReal.ofReal_one, one_mul]

end Verif.Mvnt
