import Verif.Mvnt.MvnProps
import Verif.Mvnt.GjLemmas
import Verif.Mvnt.HgammaProps
import Mathlib.Probability.Distributions.Gamma

/-!
# Lemmas about the multivariate t distribution
-/

set_option linter.unusedSectionVars false

namespace Verif.Mvnt

open Finset Matrix MeasureTheory ProbabilityTheory
open scoped ENNReal

/-! ## Specification -/

/-- The density of the t distribution. -/
noncomputable def tPdf {n : ℕ} (nu : ℕ) (A : Matrix (Fin n) (Fin n) ℝ) (mu x : Fin n → ℝ) : ℝ :=
  Real.Gamma (((nu : ℝ) + n) / 2) / (Real.Gamma ((nu : ℝ) / 2) * √((nu * Real.pi) ^ n * A.det)) *
    (1 + (x - mu) ⬝ᵥ A⁻¹ *ᵥ (x - mu) / nu) ^ (-(((nu : ℝ) + n) / 2))

/-! ## Matrices -/

theorem PD.isUnit {n : ℕ} {A : Matrix (Fin n) (Fin n) ℝ} (h : PD A) : IsUnit A.det := by
  rw [isUnit_iff_ne_zero]
  intro h0
  obtain ⟨v, hv, hv0⟩ := Matrix.exists_mulVec_eq_zero_iff.2 h0
  have := h.2 v hv
  rw [hv0] at this
  simp at this

theorem PD.inv {n : ℕ} {A : Matrix (Fin n) (Fin n) ℝ} (h : PD A) : PD A⁻¹ := by
  refine ⟨by rw [Matrix.transpose_nonsing_inv, h.1], fun v hv => ?_⟩
  have hw : A *ᵥ (A⁻¹ *ᵥ v) = v := by rw [Matrix.mulVec_mulVec, Matrix.mul_nonsing_inv _ h.isUnit, Matrix.one_mulVec]
  have := h.2 (A⁻¹ *ᵥ v) (fun h0 => hv (by rw [← hw, h0, Matrix.mulVec_zero]))
  rw [hw, dotProduct_comm] at this
  exact this

theorem Factor.smul {n : ℕ} {A M : Matrix (Fin n) (Fin n) ℝ} (h : Factor n A M) {c : ℝ} (hc : 0 < c) : Factor n ((c ^ 2) • A) (c • M) := by
  refine ⟨fun i j hij => by simp [h.upper i j hij], fun i => by simpa using mul_pos hc (h.diag i), ?_⟩
  rw [Matrix.transpose_smul, Matrix.smul_mul, Matrix.mul_smul, h.eq, smul_smul, sq]

theorem tFac_pos (n : ℕ) {nu : ℕ} (hnu : 1 ≤ nu) : 0 < tFac n nu := by
  have : (0 : ℝ) < nu := by exact_mod_cast hnu
  unfold tFac; positivity

theorem tFac_sq (n : ℕ) {nu : ℕ} (hnu : 1 ≤ nu) : tFac n nu ^ 2 = ((n : ℝ) + nu) / nu := by
  have : (0 : ℝ) < nu := by exact_mod_cast hnu
  unfold tFac; rw [Real.sq_sqrt (by positivity)]

/-! ## The constructor -/

theorem mvnini_inv {n : ℕ} {S L0 : Arr2} {h0 : Arr} (hsym : (mat n S)ᵀ = mat n S) :
    (PD (mat n S) → ∃ T L nrm, mvnini n S true L0 h0 = .ok (T, L, nrm)) ∧ (¬PD (mat n S) → ∃ e, mvnini n S true L0 h0 = .error e) ∧
    ∀ T L nrm, mvnini n S true L0 h0 = .ok (T, L, nrm) →
      mat n T = (mat n S)⁻¹ ∧ Factor n (mat n S)⁻¹ (mat n L) ∧ nrm = 1 / √((2 * Real.pi) ^ n * (mat n S)⁻¹.det) := by
  obtain ⟨h1, h2⟩ := invert_spec (h := h0) hsym
  rcases hi : invert n S h0 with _ | T
  · have hm : mvnini n S true L0 h0 = .error 2 := by simp [mvnini, hi]
    rw [hm]
    refine ⟨fun h => ?_, fun _ => ⟨2, rfl⟩, fun T L nrm h => nomatch h⟩
    obtain ⟨T, hT⟩ := h2 h
    rw [hi] at hT; cases hT
  · obtain ⟨hu, hT⟩ := h1 T hi
    have hsT : (mat n T)ᵀ = mat n T := by rw [hT, Matrix.transpose_nonsing_inv, hsym]
    have hm : mvnini n S true L0 h0 = mvnini n T false L0 h0 := by simp [mvnini, hi]
    obtain ⟨g1, g2, g3⟩ := mvnini_spec (L0 := L0) (h0 := h0) hsT
    rw [hm]
    have hiff : PD (mat n T) ↔ PD (mat n S) := by
      rw [hT]
      refine ⟨fun h => ?_, PD.inv⟩
      have := h.inv
      rwa [Matrix.nonsing_inv_nonsing_inv _ hu] at this
    rw [hiff] at g1 g2
    refine ⟨fun h => ⟨T, g1 h⟩, fun h => ⟨1, g2 h⟩, fun T' L nrm h => ?_⟩
    obtain ⟨rfl, hf, hn⟩ := g3 T' L nrm h
    rw [← hT]; exact ⟨rfl, hf, hn⟩

theorem mvt_ok {n nu : ℕ} (hnu : 1 ≤ nu) {mu : Arr} {H L0 : Arr2} {h0 : Arr} {fortran : Bool} {t t' : GTable} {m : MVT} {aft : Arr2} (ht : Good t) (hsym : (mat n H)ᵀ = mat n H)
    (h : MVT.make n nu mu H fortran L0 h0 t = .ok (m, aft, t')) :
    m.nu = nu ∧ m.mu = mu ∧ m.ndim = n ∧ mat n m.ihess = (mat n H)⁻¹ ∧ m.hess = aft ∧ aft = (if fortran then m.ihess else H) ∧
    Factor n ((((n : ℝ) + nu) / nu) • (mat n H)⁻¹) (mat n m.L) ∧ Good t' ∧
    m.nrm = 1 / √((2 * Real.pi) ^ n * (mat n H)⁻¹.det) * 2 ^ ((n : ℝ) / 2) / tFac n nu ^ n * (nu : ℝ) ^ ((nu : ℝ) / 2) * (t.call (nu + n)).1 / ((t.call (nu + n)).2.call nu).1 := by
  obtain ⟨_, _, h3⟩ := mvnini_inv (L0 := L0) (h0 := h0) hsym
  rcases hi : mvnini n H true L0 h0 with e | ⟨T, L, nrm⟩
  · simp [MVT.make, mvtini, hi] at h
  · obtain ⟨hT, hf, hn⟩ := h3 _ _ _ hi
    simp only [MVT.make, mvtini, hi, Except.ok.injEq, Prod.mk.injEq] at h
    obtain ⟨rfl, rfl, rfl⟩ := h
    refine ⟨rfl, rfl, rfl, hT, rfl, rfl, ?_, ?_, ?_⟩
    · rw [← tFac_sq n hnu]
      have hL : mat n (fun i j => if i < n ∧ j ≤ i then tFac n nu * L i j else L i j) = tFac n nu • mat n L := by
        ext i j
        simp only [mat, Matrix.smul_apply, smul_eq_mul]
        by_cases hij : (j : ℕ) ≤ i
        · rw [if_pos ⟨i.2, hij⟩]
        · rw [if_neg (by tauto), show L i j = 0 from hf.upper i j (not_le.1 hij), mul_zero]
      simp only []
      rw [hL]
      exact hf.smul (tFac_pos n hnu)
    · exact (call_spec (call_spec ht _ (by omega)).1 _ hnu).1
    · simp only []
      rw [hn]

/-! ## The law -/

theorem rpow_half (x : ℝ) (hx : 0 ≤ x) (n : ℕ) : √x ^ n = x ^ ((n : ℝ) / 2) := by
  rw [← sqrt_pow' hx, Real.sqrt_eq_rpow, ← Real.rpow_natCast, ← Real.rpow_mul hx]
  congr 1; ring

/-- The density for a given gamma deviate. -/
noncomputable def gdens {n : ℕ} (nu : ℕ) (D : ℝ) (Q : (Fin n → ℝ) → ℝ) (g : ℝ) (x : Fin n → ℝ) : ℝ :=
  1 / (√((2 * Real.pi) ^ n) * D) * √(2 * g / nu) ^ n * Real.exp (-(2 * g / nu * Q x) / 2)

/-- The mixture: the densities combine to the t density. -/
theorem gdens_mix {n : ℕ} {nu : ℕ} (hnu : 1 ≤ nu) {D : ℝ} (hD : 0 < D) {Q : (Fin n → ℝ) → ℝ} {x : Fin n → ℝ} (hQ : 0 ≤ Q x) {g : ℝ} (hg : 0 < g) :
    gammaPDFReal ((nu : ℝ) / 2) 1 g * gdens nu D Q g x =
      Real.Gamma (((nu : ℝ) + n) / 2) / (Real.Gamma ((nu : ℝ) / 2) * (√((nu * Real.pi) ^ n) * D)) * (1 + Q x / nu) ^ (-(((nu : ℝ) + n) / 2)) *
        gammaPDFReal (((nu : ℝ) + n) / 2) (1 + Q x / nu) g := by
  have hn0 : (0 : ℝ) < nu := by exact_mod_cast hnu
  have hr : 0 < 1 + Q x / nu := by positivity
  have hG1 : Real.Gamma ((nu : ℝ) / 2) ≠ 0 := (Real.Gamma_pos_of_pos (by positivity)).ne'
  have hG2 : Real.Gamma (((nu : ℝ) + n) / 2) ≠ 0 := (Real.Gamma_pos_of_pos (by positivity)).ne'
  unfold gammaPDFReal gdens
  rw [if_pos hg.le, if_pos hg.le, Real.one_rpow]
  have e1 : √(2 * g / nu) ^ n = 2 ^ ((n : ℝ) / 2) * g ^ ((n : ℝ) / 2) / (nu : ℝ) ^ ((n : ℝ) / 2) := by
    rw [rpow_half _ (by positivity), Real.div_rpow (by positivity) hn0.le, Real.mul_rpow (by norm_num) hg.le]
  have e2 : √((2 * Real.pi) ^ n) = 2 ^ ((n : ℝ) / 2) * Real.pi ^ ((n : ℝ) / 2) := by
    rw [← two_pi_rpow, Real.mul_rpow (by norm_num) Real.pi_pos.le]
  have e3 : √((nu * Real.pi) ^ n) = (nu : ℝ) ^ ((n : ℝ) / 2) * Real.pi ^ ((n : ℝ) / 2) := by
    rw [sqrt_pow' (by positivity), rpow_half _ (by positivity), Real.mul_rpow hn0.le Real.pi_pos.le]
  have e4 : g ^ (((nu : ℝ) + n) / 2 - 1) = g ^ ((nu : ℝ) / 2 - 1) * g ^ ((n : ℝ) / 2) := by
    rw [← Real.rpow_add hg]; congr 1; ring
  have e5 : Real.exp (-((1 + Q x / nu) * g)) = Real.exp (-(1 * g)) * Real.exp (-(2 * g / nu * Q x) / 2) := by
    rw [← Real.exp_add]; congr 1; field_simp; ring
  have e6 : (1 + Q x / nu) ^ (-(((nu : ℝ) + n) / 2)) * (1 + Q x / nu) ^ (((nu : ℝ) + n) / 2) = 1 := by
    rw [← Real.rpow_add hr]; simp
  rw [e1, e2, e3, e4, e5]
  have hp : Real.pi ^ ((n : ℝ) / 2) ≠ 0 := (Real.rpow_pos_of_pos Real.pi_pos _).ne'
  have h2 : (2 : ℝ) ^ ((n : ℝ) / 2) ≠ 0 := (Real.rpow_pos_of_pos (by norm_num) _).ne'
  have hv : (nu : ℝ) ^ ((n : ℝ) / 2) ≠ 0 := (Real.rpow_pos_of_pos hn0 _).ne'
  generalize Real.exp (-(1 * g)) = E1
  generalize Real.exp (-(2 * g / nu * Q x) / 2) = E2
  generalize g ^ ((nu : ℝ) / 2 - 1) = G1
  generalize g ^ ((n : ℝ) / 2) = G2
  generalize (1 + Q x / nu) ^ (-(((nu : ℝ) + n) / 2)) = R1 at e6 ⊢
  generalize (1 + Q x / nu) ^ (((nu : ℝ) + n) / 2) = R2 at e6 ⊢
  generalize Real.pi ^ ((n : ℝ) / 2) = P at hp ⊢
  generalize (2 : ℝ) ^ ((n : ℝ) / 2) = W at h2 ⊢
  generalize (nu : ℝ) ^ ((n : ℝ) / 2) = V at hv ⊢
  generalize Real.Gamma ((nu : ℝ) / 2) = X1 at hG1 ⊢
  generalize Real.Gamma (((nu : ℝ) + n) / 2) = X2 at hG2 ⊢
  have hR1 : R1 ≠ 0 := left_ne_zero_of_mul_eq_one e6
  have : R2 = 1 / R1 := by field_simp; linarith
  rw [this]
  field_simp

theorem measurable_quad {n : ℕ} (A : Matrix (Fin n) (Fin n) ℝ) (b : Fin n → ℝ) : Measurable fun x : Fin n → ℝ => (x - b) ⬝ᵥ A *ᵥ (x - b) := by
  have hA : Measurable (fun z : Fin n → ℝ => A *ᵥ z) := (LinearMap.continuous_of_finiteDimensional (Matrix.toLin' A)).measurable
  unfold dotProduct
  have h1 : Measurable (fun x : Fin n → ℝ => x - b) := by fun_prop
  exact Finset.measurable_fun_sum _ fun i _ => ((measurable_pi_apply i).comp h1).mul ((measurable_pi_apply i).comp (hA.comp h1))

/-- The law of a normal vector whose scale is divided by an independent gamma deviate. -/
theorem law_t {n nu : ℕ} (hnu : 1 ≤ nu) {A M : Matrix (Fin n) (Fin n) ℝ} (h : Factor n A M) (b : Fin n → ℝ) :
    ((normals n).prod (gammaMeasure ((nu : ℝ) / 2) 1)).map (fun p : (Fin n → ℝ) × ℝ => b + (1 / √(2 * p.2 / nu)) • (M *ᵥ p.1)) =
      volume.withDensity fun x => ENNReal.ofReal (tPdf nu A b x) := by
  have hn0 : (0 : ℝ) < nu := by exact_mod_cast hnu
  have hm : Measurable (fun z : Fin n → ℝ => M *ᵥ z) := (LinearMap.continuous_of_finiteDimensional (Matrix.toLin' M)).measurable
  have hf : Measurable (fun p : (Fin n → ℝ) × ℝ => b + (1 / √(2 * p.2 / nu)) • (M *ᵥ p.1)) := by
    have h1 : Measurable (fun p : (Fin n → ℝ) × ℝ => M *ᵥ p.1) := hm.comp measurable_fst
    have h2 : Measurable (fun p : (Fin n → ℝ) × ℝ => 1 / √(2 * p.2 / nu)) := by fun_prop
    exact (h2.smul h1).const_add b
  have : IsProbabilityMeasure (gammaMeasure ((nu : ℝ) / 2) 1) := isProbabilityMeasure_gammaMeasure (by positivity) one_pos
  set Q : (Fin n → ℝ) → ℝ := fun x => (x - b) ⬝ᵥ A⁻¹ *ᵥ (x - b) with hQ
  have hQm : Measurable Q := measurable_quad _ _
  have hQ0 : ∀ x, 0 ≤ Q x := by
    intro x
    by_cases hx : x - b = 0
    · simp [hQ, hx]
    · exact (h.pd.inv.2 _ hx).le
  have hgm : Measurable fun p : ℝ × (Fin n → ℝ) => gdens nu M.det Q p.1 p.2 := by
    unfold gdens
    have : Measurable fun p : ℝ × (Fin n → ℝ) => Q p.2 := hQm.comp measurable_snd
    fun_prop
  -- the law for a given deviate
  have hcond : ∀ g, 0 < g → ∀ s, MeasurableSet s → normals n {z | b + (1 / √(2 * g / nu)) • (M *ᵥ z) ∈ s} = ∫⁻ x in s, ENNReal.ofReal (gdens nu M.det Q g x) := by
    intro g hg s hs
    set c := 1 / √(2 * g / nu) with hc
    have hw : 0 < √(2 * g / nu) := Real.sqrt_pos.2 (by positivity)
    have hc0 : 0 < c := by positivity
    have hdet : (c • M).det = c ^ n * M.det := by rw [Matrix.det_smul, Fintype.card_fin]
    have hpos : 0 < (c • M).det := by rw [hdet]; exact mul_pos (pow_pos hc0 n) h.det_pos
    have hl := law_affine (A := (c ^ 2)⁻¹ • A⁻¹) hpos (fun z => by
      rw [Matrix.smul_mulVec, Matrix.smul_mulVec, Matrix.mulVec_smul, dotProduct_smul, smul_dotProduct, dotProduct_smul, quad_factor h z]
      simp only [smul_eq_mul]
      field_simp) b
    have hmc : Measurable fun z => b + (c • M) *ᵥ z := by
      have : (fun z => b + (c • M) *ᵥ z) = fun z => b + c • (M *ᵥ z) := by ext1 z; rw [Matrix.smul_mulVec]
      rw [this]
      exact (hm.const_smul c).const_add b
    have hset : {z | b + c • (M *ᵥ z) ∈ s} = (fun z => b + (c • M) *ᵥ z) ⁻¹' s := by
      ext z; simp only [Set.mem_setOf_eq, Set.mem_preimage, Matrix.smul_mulVec]
    rw [hset, ← Measure.map_apply hmc hs, hl, withDensity_apply _ hs]
    refine lintegral_congr fun x => ?_
    congr 1
    have hcw : (c ^ 2)⁻¹ = 2 * g / nu := by
      rw [hc, one_div, inv_pow, inv_inv, Real.sq_sqrt (by positivity)]
    have hcn : c ^ n = 1 / √(2 * g / nu) ^ n := by rw [hc, div_pow, one_pow]
    rw [gdens, hdet, hcw, hcn, Matrix.smul_mulVec, dotProduct_smul, smul_eq_mul]
    have h1 : √(2 * g / nu) ^ n ≠ 0 := (pow_pos hw n).ne'
    have h2 : √((2 * Real.pi) ^ n) ≠ 0 := by positivity
    have h3 : M.det ≠ 0 := h.det_pos.ne'
    congr 1
    field_simp
  ext s hs
  rw [Measure.map_apply hf hs, Measure.prod_apply_symm (hf hs), withDensity_apply _ hs, gammaMeasure,
    lintegral_withDensity_eq_lintegral_mul _ (f := gammaPDF ((nu : ℝ) / 2) 1) (measurable_gammaPDFReal _ _).ennreal_ofReal (measurable_measure_prodMk_right (hf hs))]
  have hstep : ∫⁻ g, (gammaPDF ((nu : ℝ) / 2) 1 * fun g => normals n ((fun z => (z, g)) ⁻¹' ((fun p : (Fin n → ℝ) × ℝ => b + (1 / √(2 * p.2 / nu)) • (M *ᵥ p.1)) ⁻¹' s))) g =
      ∫⁻ g, ∫⁻ x in s, gammaPDF ((nu : ℝ) / 2) 1 g * ENNReal.ofReal (gdens nu M.det Q g x) := by
    have hae : ∀ᵐ g : ℝ, g ≠ 0 := by simp [ae_iff]
    refine lintegral_congr_ae (hae.mono fun g hg => ?_)
    simp only [Pi.mul_apply]
    rw [lintegral_const_mul (f := fun x => ENNReal.ofReal (gdens nu M.det Q g x)) _ (hgm.comp (measurable_prodMk_left (x := g))).ennreal_ofReal]
    rcases lt_or_gt_of_ne hg with hg | hg
    · rw [gammaPDF_of_neg hg, zero_mul, zero_mul]
    · congr 1
      exact hcond g hg s hs
  rw [hstep, lintegral_lintegral_swap]
  · refine lintegral_congr fun x => ?_
    have hae : ∀ᵐ g : ℝ, g ≠ 0 := by simp [ae_iff]
    have hr : 0 < 1 + Q x / nu := by have := hQ0 x; positivity
    set c := tPdf nu A b x with hc
    have hceq : c = Real.Gamma (((nu : ℝ) + n) / 2) / (Real.Gamma ((nu : ℝ) / 2) * (√((nu * Real.pi) ^ n) * M.det)) * (1 + Q x / nu) ^ (-(((nu : ℝ) + n) / 2)) := by
      rw [hc, tPdf, h.det_sq, Real.sqrt_mul (by positivity), Real.sqrt_sq h.det_pos.le]
    have hc0 : 0 ≤ c := by
      rw [hceq]
      have h1 := Real.Gamma_pos_of_pos (show 0 < ((nu : ℝ) + n) / 2 by positivity)
      have h2 := Real.Gamma_pos_of_pos (show 0 < (nu : ℝ) / 2 by positivity)
      have h3 := h.det_pos
      positivity
    have : ∫⁻ g, gammaPDF ((nu : ℝ) / 2) 1 g * ENNReal.ofReal (gdens nu M.det Q g x) = ∫⁻ g, ENNReal.ofReal c * gammaPDF (((nu : ℝ) + n) / 2) (1 + Q x / nu) g := by
      refine lintegral_congr_ae (hae.mono fun g hg => ?_)
      rcases lt_or_gt_of_ne hg with hg | hg
      · simp only [gammaPDF_of_neg hg, zero_mul, mul_zero]
      · simp only [gammaPDF]
        rw [← ENNReal.ofReal_mul (gammaPDFReal_nonneg (by positivity) one_pos _), ← ENNReal.ofReal_mul hc0, gdens_mix hnu h.det_pos (hQ0 x) hg, hceq]
    rw [this, lintegral_const_mul (f := gammaPDF (((nu : ℝ) + n) / 2) (1 + Q x / nu)) _ (measurable_gammaPDFReal _ _).ennreal_ofReal, lintegral_gammaPDF_eq_one (by positivity) hr, mul_one]
  · exact (((measurable_gammaPDFReal _ _).ennreal_ofReal.comp measurable_fst).mul hgm.ennreal_ofReal).aemeasurable

end Verif.Mvnt
