import Verif.Mvnt.MvtLemmas
import Mathlib.Probability.Distributions.Uniform

/-!
# Property C152: kernel density estimates
-/

set_option linter.unusedSectionVars false

namespace Verif.Mvnt

open Finset Matrix MeasureTheory ProbabilityTheory
open scoped ENNReal

/-! ## Specification -/

/-- The nodes after calls of `set_node`. -/
def current (nodes : ℕ → Arr) (ops : List (ℕ × Arr)) : ℕ → Arr := ops.foldl (fun f op => Function.update f op.1 op.2) nodes

/-- The density of the mixture of equally probable normal distributions, one at each node. -/
noncomputable def mixPdf {n : ℕ} (m : ℕ) (A : Matrix (Fin n) (Fin n) ℝ) (nodes : Fin m → Fin n → ℝ) (x : Fin n → ℝ) : ℝ := 1 / (m : ℝ) * ∑ k, normalPdf A (nodes k) x

/-! ## Lemmas -/

theorem kde_ok {m n : ℕ} {nodes S L0 : Arr2} {h0 : Arr} {scale : ℝ} {onNone : Except Err KDE} {K : KDE} (hsym : (mat n S)ᵀ = mat n S)
    (h : KDE.make m n nodes scale (some S) none L0 h0 onNone = .ok K) :
    K.nodes = nodes ∧ (∀ i j, K.tnodes i j = nodes j i) ∧ K.nnodes = m ∧ K.ndim = n ∧ K.scale = scale ∧ Factor n (mat n S) (mat n K.L) ∧ K.nrm = 1 / √((2 * Real.pi) ^ n * (mat n S).det) := by
  obtain ⟨_, _, h3⟩ := mvnini_spec (L0 := L0) (h0 := h0) hsym
  simp only [KDE.make] at h
  rcases hi : mvnini n S false L0 h0 with e | ⟨S', L, nrm⟩
  · simp [hi] at h
  · simp [hi] at h
    obtain ⟨_, hf, hn⟩ := h3 _ _ _ hi
    rw [← h]
    exact ⟨rfl, fun _ _ => rfl, rfl, rfl, rfl, hf, hn⟩

/-- The object after calls of `set_node`. -/
def KDE.run (K : KDE) (ops : List (ℕ × Arr)) : KDE := ops.foldl (fun K op => K.setNode op.1 op.2) K

theorem run_spec (ops : List (ℕ × Arr)) (K : KDE) (hK : ∀ i j, K.tnodes i j = K.nodes j i) :
    (K.run ops).nodes = current K.nodes ops ∧ (∀ i j, (K.run ops).tnodes i j = (K.run ops).nodes j i) ∧
    (K.run ops).nnodes = K.nnodes ∧ (K.run ops).ndim = K.ndim ∧ (K.run ops).scale = K.scale ∧ (K.run ops).L = K.L ∧ (K.run ops).nrm = K.nrm := by
  induction ops generalizing K with
  | nil => exact ⟨rfl, hK, rfl, rfl, rfl, rfl, rfl⟩
  | cons op ops ih =>
    have h1 : ∀ i j, (K.setNode op.1 op.2).tnodes i j = (K.setNode op.1 op.2).nodes j i := by
      intro i j; simp only [KDE.setNode]; rw [hK]
    obtain ⟨e1, e2, e3⟩ := ih _ h1
    refine ⟨?_, e2, e3⟩
    have h2 : (K.setNode op.1 op.2).nodes = Function.update K.nodes op.1 op.2 := by
      ext i j
      simp only [KDE.setNode, Function.update_apply]
      split_ifs <;> rfl
    have : (K.run (op :: ops)).nodes = current (K.setNode op.1 op.2).nodes ops := e1
    rw [this, h2]; rfl

theorem normalPdf_scaled {n : ℕ} {A M : Matrix (Fin n) (Fin n) ℝ} (h : Factor n A M) {s : ℝ} (hs : 0 < s) (b x : Fin n → ℝ) :
    normalPdf ((s ^ 2) • A) b x = 1 / (s ^ n * √((2 * Real.pi) ^ n * A.det)) * Real.exp (-((x - b) ⬝ᵥ A⁻¹ *ᵥ (x - b) / s ^ 2) / 2) := by
  have hA : 0 < A.det := by rw [h.det_sq]; exact pow_pos h.det_pos 2
  have h1 : ((s ^ 2) • A)⁻¹ = (s ^ 2)⁻¹ • A⁻¹ := by
    have hu : IsUnit A.det := hA.ne'.isUnit
    apply Matrix.inv_eq_left_inv
    rw [Matrix.smul_mul, Matrix.mul_smul, Matrix.nonsing_inv_mul _ hu, smul_smul, inv_mul_cancel₀ (pow_pos hs 2).ne', one_smul]
  have h2 : √((2 * Real.pi) ^ n * ((s ^ 2) • A).det) = s ^ n * √((2 * Real.pi) ^ n * A.det) := by
    rw [Matrix.det_smul, Fintype.card_fin, show (2 * Real.pi) ^ n * ((s ^ 2) ^ n * A.det) = (s ^ n) ^ 2 * ((2 * Real.pi) ^ n * A.det) by ring,
      Real.sqrt_mul (by positivity), Real.sqrt_sq (by positivity)]
  rw [normalPdf, h1, h2, Matrix.smul_mulVec, dotProduct_smul, smul_eq_mul]
  congr 3
  ring

/-! ## C152 -/

/-- C152, the part that holds, `mvnt.MVNKDE(nodes, scale, covar)` with a positive scale, for every set of nodes, every positive definite covariance and every sequence of calls of `set_node`: what `sample` makes of a node chosen with equal probabilities and of independent standard normal deviates has the density of the mixture of normal distributions around the nodes as they are now, with scale² times the covariance; and `pdf` is a constant multiple of it.  Missing: the constant is not 1, see `C152_violated_norm`. -/
theorem C152_kde_partial (m n : ℕ) [NeZero m] (nodes S L0 : Arr2) (h0 : Arr) (scale : ℝ) (hs : 0 < scale) (onNone : Except Err KDE) (K : KDE) (hsym : (mat n S)ᵀ = mat n S)
    (h : KDE.make m n nodes scale (some S) none L0 h0 onNone = .ok K) (ops : List (ℕ × Arr)) :
    ((PMF.uniformOfFintype (Fin m)).toMeasure.prod (normals n)).map (fun p => vec n ((K.run ops).sample p.1 (ext p.2))) =
      volume.withDensity (fun x => ENNReal.ofReal (mixPdf m ((scale ^ 2) • mat n S) (fun k => vec n (current nodes ops k)) x)) ∧
    ∃ c : ℝ, 0 < c ∧ ∀ x, (K.run ops).pdf x = c * mixPdf m ((scale ^ 2) • mat n S) (fun k => vec n (current nodes ops k)) (vec n x) := by
  obtain ⟨a1, a2, a3, a4, a5, hf, a7⟩ := kde_ok hsym h
  obtain ⟨b1, b2, b3, b4, b5, b6, b7⟩ := run_spec ops K (fun i j => by rw [a2, a1])
  rw [a1] at b1; rw [a3] at b3; rw [a4] at b4; rw [a5] at b5; rw [a7] at b7
  have hm0 : (0 : ℝ) < m := by exact_mod_cast NeZero.pos m
  have hdet : 0 < (mat n S).det := by rw [hf.det_sq]; exact pow_pos hf.det_pos 2
  have hfs := hf.smul hs
  constructor
  · have hsamp : ∀ k z, vec n ((K.run ops).sample k z) = vec n (current nodes ops k) + (scale • mat n K.L) *ᵥ vec n z := by
      intro k z
      have h1 := samp_vec n (fun _ => 0) K.L hf.upper z
      have h2 : vec n (fun _ => (0 : ℝ)) = 0 := rfl
      rw [h2, zero_add] at h1
      rw [Matrix.smul_mulVec, ← h1, KDE.sample, b1, b4, b5, b6]
      rfl
    have hmeas : ∀ k : Fin m, Measurable fun z : Fin n → ℝ => vec n (current nodes ops k) + (scale • mat n K.L) *ᵥ z := fun k =>
      ((LinearMap.continuous_of_finiteDimensional (Matrix.toLin' (scale • mat n K.L))).measurable).const_add _
    simp only [hsamp, vec_ext]
    have hF : Measurable fun p : Fin m × (Fin n → ℝ) => vec n (current nodes ops p.1) + (scale • mat n K.L) *ᵥ p.2 :=
      measurable_from_prod_countable_right fun k => hmeas k
    have hnn : ∀ k : Fin m, ∀ x, 0 ≤ normalPdf ((scale ^ 2) • mat n S) (vec n (current nodes ops k)) x := fun k x => by unfold normalPdf; positivity
    have hnm : ∀ k : Fin m, Measurable fun x => normalPdf ((scale ^ 2) • mat n S) (vec n (current nodes ops k)) x := fun k => by
      unfold normalPdf
      have := measurable_quad ((scale ^ 2) • mat n S)⁻¹ (vec n (current nodes ops k))
      fun_prop
    ext s hs'
    rw [Measure.map_apply hF hs', Measure.prod_apply (hF hs'), lintegral_fintype, withDensity_apply _ hs']
    have hk : ∀ k : Fin m, normals n (Prod.mk k ⁻¹' ((fun p : Fin m × (Fin n → ℝ) => vec n (current nodes ops p.1) + (scale • mat n K.L) *ᵥ p.2) ⁻¹' s)) * (PMF.uniformOfFintype (Fin m)).toMeasure {k} =
        ∫⁻ x in s, ENNReal.ofReal (1 / (m : ℝ)) * ENNReal.ofReal (normalPdf ((scale ^ 2) • mat n S) (vec n (current nodes ops k)) x) := by
      intro k
      have h1 : normals n (Prod.mk k ⁻¹' ((fun p : Fin m × (Fin n → ℝ) => vec n (current nodes ops p.1) + (scale • mat n K.L) *ᵥ p.2) ⁻¹' s)) =
          ((normals n).map fun z => vec n (current nodes ops k) + (scale • mat n K.L) *ᵥ z) s := by
        rw [Measure.map_apply (hmeas k) hs']; rfl
      have h2 : (PMF.uniformOfFintype (Fin m)).toMeasure {k} = ENNReal.ofReal (1 / (m : ℝ)) := by
        rw [PMF.toMeasure_apply_singleton _ _ (measurableSet_singleton k), PMF.uniformOfFintype_apply, Fintype.card_fin, one_div, ENNReal.ofReal_inv_of_pos hm0, ENNReal.ofReal_natCast]
      rw [h1, h2, law_affine hfs.det_pos (fun z => quad_factor hfs z), withDensity_apply _ hs', mul_comm, ← lintegral_const_mul]
      · refine lintegral_congr fun x => ?_
        rw [normalPdf, hfs.det_sq, Real.sqrt_mul (by positivity), Real.sqrt_sq hfs.det_pos.le]
      · have := measurable_quad ((scale ^ 2) • mat n S)⁻¹ (vec n (current nodes ops k))
        fun_prop
    rw [sum_congr rfl fun k _ => hk k, ← lintegral_finsetSum _ fun k _ => ((hnm k).ennreal_ofReal).const_mul _]
    refine lintegral_congr fun x => ?_
    rw [← mul_sum, ← ENNReal.ofReal_sum_of_nonneg fun k _ => hnn k x, ← ENNReal.ofReal_mul (by positivity), mixPdf]
  · have hN : 0 < √((2 * Real.pi) ^ n * (mat n S).det) := Real.sqrt_pos.2 (by positivity)
    refine ⟨√((2 * Real.pi) ^ n * (mat n S).det) ^ 2 * scale ^ n / scale, by positivity, fun x => ?_⟩
    rw [KDE.pdf, mvnkde, b3, b4, b5, b6, b7, up_eq, zero_add, mixPdf, ← Fin.sum_univ_eq_sum_range (fun i => Real.exp (-(qform n x (fun a => (K.run ops).tnodes a i) K.L / scale ^ 2) / 2)) m]
    have : ∀ k : Fin m, normalPdf ((scale ^ 2) • mat n S) (vec n (current nodes ops k)) (vec n x) =
        1 / (scale ^ n * √((2 * Real.pi) ^ n * (mat n S).det)) * Real.exp (-(qform n x (fun a => (K.run ops).tnodes a k) K.L / scale ^ 2) / 2) := by
      intro k
      rw [normalPdf_scaled hf hs, qform_eq hf]
      have : vec n (fun a => (K.run ops).tnodes a k) = vec n (current nodes ops k) := by
        ext a; simp only [vec]; rw [b2, b1]
      rw [this]
    rw [sum_congr rfl fun k _ => this k, ← mul_sum]
    field_simp

/-- The density is not that of the mixture, nor a density: for one node, one dimension, unit covariance and unit scale, it is 2 pi times too large everywhere. -/
theorem C152_violated_norm (nodes L0 : Arr2) (h0 : Arr) (onNone : Except Err KDE) : ∃ K, KDE.make 1 1 nodes 1 (some fun _ _ => 1) none L0 h0 onNone = .ok K ∧
    ∀ x, K.pdf x = 2 * Real.pi * mixPdf 1 (mat 1 fun _ _ => 1) (fun k => vec 1 (nodes k)) (vec 1 x) := by
  have hp : PD (mat 1 fun _ _ => (1 : ℝ)) := by
    refine ⟨by ext i j; rfl, fun v hv => ?_⟩
    have hv0 : v 0 ≠ 0 := fun h => hv (by ext i; rw [Subsingleton.elim i 0, h]; rfl)
    simp only [mat, dotProduct, mulVec, Fin.sum_univ_one]
    have : 0 < v 0 ^ 2 := by positivity
    nlinarith
  obtain ⟨h1, _, _⟩ := mvnini_spec (L0 := L0) (h0 := h0) hp.1
  obtain ⟨L, nrm, hm⟩ := h1 hp
  have hmk : KDE.make 1 1 nodes 1 (some fun _ _ => 1) none L0 h0 onNone = .ok ⟨nodes, fun i j => nodes j i, 1, 1, 1, L, nrm⟩ := by simp [KDE.make, hm]
  obtain ⟨_, _, _, _, _, hf, a7⟩ := kde_ok hp.1 hmk
  refine ⟨_, hmk, fun x => ?_⟩
  have hd : (mat 1 fun _ _ => (1 : ℝ)).det = 1 := by simp [mat]
  simp only [] at a7
  rw [KDE.pdf, mvnkde, up_eq]
  simp only [sum_range_one, zero_add]
  rw [qform_eq hf, a7, mixPdf, hd]
  simp only [univ_unique, sum_singleton, Fin.default_eq_zero, normalPdf, hd, pow_one, mul_one]
  have h2 : √(2 * Real.pi) * √(2 * Real.pi) = 2 * Real.pi := Real.mul_self_sqrt (by positivity)
  have h3 : √(2 * Real.pi) ≠ 0 := by positivity
  have : vec 1 (fun a => nodes 0 a) = vec 1 (nodes ((0 : Fin 1) : ℕ)) := rfl
  rw [this]
  norm_num
  field_simp
  rw [Real.sq_sqrt Real.pi_pos.le, Real.sq_sqrt (by norm_num)]; ring

/-- The constructor takes exactly one of covariance and inverse covariance, and refuses what is not positive definite.
Missing: the inverse covariance is accepted but not used (`C152_violated_inverse`). -/
theorem C152_constructor_partial (m n : ℕ) (nodes S L0 : Arr2) (h0 : Arr) (scale : ℝ) (onNone : Except Err KDE) (hsym : (mat n S)ᵀ = mat n S) :
    (PD (mat n S) → ∃ K, KDE.make m n nodes scale (some S) none L0 h0 onNone = .ok K) ∧
    (¬PD (mat n S) → KDE.make m n nodes scale (some S) none L0 h0 onNone = .error .runtime) ∧
    (∀ P, KDE.make m n nodes scale (some S) (some P) L0 h0 onNone = .error .value) ∧
    KDE.make m n nodes scale none none L0 h0 onNone = .error .value := by
  obtain ⟨h1, h2, _⟩ := mvnini_spec (L0 := L0) (h0 := h0) hsym
  refine ⟨fun h => ?_, fun h => by simp [KDE.make, h2 h], fun P => by simp [KDE.make], by simp [KDE.make]⟩
  obtain ⟨L, nrm, hm⟩ := h1 h
  exact ⟨⟨nodes, fun i j => nodes j i, m, n, scale, L, nrm⟩, by simp [KDE.make, hm]⟩

/-- An inverse covariance is never looked at: what the constructor does with it depends only on what the compiled routine makes of `None`. -/
theorem C152_violated_inverse (m n : ℕ) (nodes L0 P Q : Arr2) (h0 : Arr) (scale : ℝ) (onNone : Except Err KDE) :
    KDE.make m n nodes scale none (some P) L0 h0 onNone = KDE.make m n nodes scale none (some Q) L0 h0 onNone := rfl

/-- The hypotheses of `C152_kde_partial` are met: three nodes in two dimensions, correlated components, half the scale. -/
example (nodes L0 : Arr2) (h0 : Arr) (o : Except Err KDE) : ∃ K, KDE.make 3 2 nodes (1 / 2) (some fun i j => if i = 0 then (if j = 0 then 4 else 1) else (if j = 0 then 1 else 2)) none L0 h0 o = .ok K :=
  have hp : PD (mat 2 fun i j => if i = 0 then (if j = 0 then 4 else 1) else (if j = 0 then 1 else 2)) := mat2_pd (by norm_num) (by norm_num)
  (C152_constructor_partial 3 2 nodes _ L0 h0 _ o hp.1).1 hp

end Verif.Mvnt
