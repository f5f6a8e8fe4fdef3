import Verif.Mvnt.MvtLemmas

/-!
# Properties C150 and C151: the multivariate t distribution

`tPdf` is the density of the t distribution (Verif/Mvnt/MvtLemmas.lean); `after (GTable.start rest) ns` is the table of `hgamma` after any calls of it (Verif/Mvnt/HgammaProps.lean).
-/

set_option linter.unusedSectionVars false

namespace Verif.Mvnt

open Finset Matrix MeasureTheory ProbabilityTheory
open scoped ENNReal

/-! ## C150: the constructor -/

/-- C150, the part that holds, `mvnt.MVT(nu, mu, hess)` for every symmetric matrix: if it is positive definite there is an object, whose `ihess` is the inverse of the matrix and whose decomposition is lower triangular with a positive diagonal and multiplies to (n + nu)/nu times the inverse; otherwise there is `RuntimeError`.  An array that is not in Fortran order is left as it was.  Missing: arrays in Fortran order, see `C150_violated_overwritten`. -/
theorem C150_constructor_partial (n nu : ℕ) (hnu : 1 ≤ nu) (mu : Arr) (H L0 : Arr2) (h0 : Arr) (fortran : Bool) (rest : ℕ → ℝ) (ns : List ℕ) (hsym : (mat n H)ᵀ = mat n H) :
    (PD (mat n H) → ∃ m aft t', MVT.make n nu mu H fortran L0 h0 (after (GTable.start rest) ns) = .ok (m, aft, t') ∧ m.nu = nu ∧ m.mu = mu ∧ m.ndim = n ∧
      mat n m.ihess = (mat n H)⁻¹ ∧ Factor n ((((n : ℝ) + nu) / nu) • (mat n H)⁻¹) (mat n m.L) ∧ (fortran = false → aft = H ∧ m.hess = H)) ∧
    (¬PD (mat n H) → MVT.make n nu mu H fortran L0 h0 (after (GTable.start rest) ns) = .error .runtime) := by
  obtain ⟨h1, h2, _⟩ := mvnini_inv (L0 := L0) (h0 := h0) hsym
  have hg := good_after (good_start rest) ns
  refine ⟨fun h => ?_, fun h => ?_⟩
  · obtain ⟨T, L, nrm, hm⟩ := h1 h
    have : ∃ m aft t', MVT.make n nu mu H fortran L0 h0 (after (GTable.start rest) ns) = .ok (m, aft, t') := by
      simp [MVT.make, mvtini, hm]
    obtain ⟨m, aft, t', hmk⟩ := this
    obtain ⟨e1, e2, e3, e4, e5, e6, e7, _⟩ := mvt_ok hnu hg hsym hmk
    refine ⟨m, aft, t', hmk, e1, e2, e3, e4, e7, fun hf => ?_⟩
    rw [e5, e6, hf]; simp
  · obtain ⟨e, he⟩ := h2 h
    simp [MVT.make, mvtini, he]

/-- A case meeting the hypotheses. -/
example : PD (mat 2 fun i j => if i = 0 then (if j = 0 then 4 else 1) else (if j = 0 then 1 else 2)) := mat2_pd (by norm_num) (by norm_num)

theorem mat1_pd {c : ℝ} (hc : 0 < c) : PD (mat 1 fun _ _ => c) := by
  refine ⟨by ext i j; rfl, fun v hv => ?_⟩
  have hv0 : v 0 ≠ 0 := fun h => hv (by ext i; rw [Subsingleton.elim i 0, h]; rfl)
  simp only [mat, dotProduct, mulVec, Fin.sum_univ_one]
  have : 0 < v 0 ^ 2 := by positivity
  nlinarith [mul_pos hc this]

/-- An array in Fortran order is replaced by its inverse: the caller's array and the attribute `hess` hold 1/2 after they held 2. -/
theorem C150_violated_overwritten : ∃ (n nu : ℕ) (H : Arr2), 1 ≤ nu ∧ PD (mat n H) ∧ ∀ mu L0 h0 rest ns, ∃ m aft t',
    MVT.make n nu mu H true L0 h0 (after (GTable.start rest) ns) = .ok (m, aft, t') ∧ aft 0 0 = 1 / 2 ∧ m.hess 0 0 = 1 / 2 ∧ H 0 0 = 2 := by
  refine ⟨1, 1, fun _ _ => 2, le_rfl, mat1_pd (by norm_num), fun mu L0 h0 rest ns => ?_⟩
  have hp := mat1_pd (c := 2) (by norm_num)
  obtain ⟨m, aft, t', hmk, _⟩ := (C150_constructor_partial 1 1 le_rfl mu (fun _ _ => 2) L0 h0 true rest ns hp.1).1 hp
  obtain ⟨_, _, _, e4, e5, e6, _⟩ := mvt_ok le_rfl (good_after (good_start rest) ns) hp.1 hmk
  have h2 : m.ihess 0 0 = 1 / 2 := by
    have := congrFun (congrFun e4 0) 0
    rw [Matrix.inv_def, Matrix.smul_apply, Matrix.adjugate_fin_one] at this
    simpa [mat, Ring.inverse_eq_inv'] using this
  refine ⟨m, aft, t', hmk, ?_, ?_, rfl⟩
  · rw [e6]; simpa using h2
  · rw [e5, e6]; simpa using h2

/-! ## C151: samples and the density -/

theorem pdf_alg {n nu : ℕ} (hnu : 1 ≤ nu) {d g1 g2 q : ℝ} (hd : 0 < d) (hq : 0 ≤ q) (hg : g2 ≠ 0) :
    1 / √((2 * Real.pi) ^ n * d) * 2 ^ ((n : ℝ) / 2) / tFac n nu ^ n * (nu : ℝ) ^ ((nu : ℝ) / 2) * g1 / g2 / √(((nu : ℝ) + q) ^ (n + nu)) =
      g1 / (g2 * √((nu * Real.pi) ^ n * ((tFac n nu ^ 2) ^ n * d))) * (1 + q / nu) ^ (-(((nu : ℝ) + n) / 2)) := by
  have hn0 : (0 : ℝ) < nu := by exact_mod_cast hnu
  have hf := tFac_pos n hnu
  have e1 : √((2 * Real.pi) ^ n * d) = 2 ^ ((n : ℝ) / 2) * Real.pi ^ ((n : ℝ) / 2) * √d := by
    rw [Real.sqrt_mul (by positivity), ← two_pi_rpow, Real.mul_rpow (by norm_num) Real.pi_pos.le]
  have e2 : √((nu * Real.pi) ^ n * ((tFac n nu ^ 2) ^ n * d)) = (nu : ℝ) ^ ((n : ℝ) / 2) * Real.pi ^ ((n : ℝ) / 2) * (tFac n nu ^ n * √d) := by
    rw [Real.sqrt_mul (by positivity), Real.sqrt_mul (by positivity), sqrt_pow' (by positivity), rpow_half _ (by positivity), Real.mul_rpow hn0.le Real.pi_pos.le,
      sqrt_pow' (by positivity), Real.sqrt_sq hf.le]
  have e3 : √(((nu : ℝ) + q) ^ (n + nu)) = (1 + q / nu) ^ (((nu : ℝ) + n) / 2) * ((nu : ℝ) ^ ((nu : ℝ) / 2) * (nu : ℝ) ^ ((n : ℝ) / 2)) := by
    rw [sqrt_pow' (by positivity), rpow_half _ (by positivity), ← Real.rpow_add hn0, ← add_div, show (((n + nu : ℕ) : ℝ)) = (nu : ℝ) + n by push_cast; ring,
      ← Real.mul_rpow (by positivity) hn0.le]
    congr 1
    field_simp
  rw [e1, e2, e3, Real.rpow_neg (by positivity)]
  have hp : Real.pi ^ ((n : ℝ) / 2) ≠ 0 := (Real.rpow_pos_of_pos Real.pi_pos _).ne'
  have h2 : (2 : ℝ) ^ ((n : ℝ) / 2) ≠ 0 := (Real.rpow_pos_of_pos (by norm_num) _).ne'
  have hv : (nu : ℝ) ^ ((n : ℝ) / 2) ≠ 0 := (Real.rpow_pos_of_pos hn0 _).ne'
  have hv2 : (nu : ℝ) ^ ((nu : ℝ) / 2) ≠ 0 := (Real.rpow_pos_of_pos hn0 _).ne'
  have hsd : √d ≠ 0 := (Real.sqrt_pos.2 hd).ne'
  have hfn : tFac n nu ^ n ≠ 0 := (pow_pos hf n).ne'
  have hR : (1 + q / nu) ^ (((nu : ℝ) + n) / 2) ≠ 0 := (Real.rpow_pos_of_pos (by positivity) _).ne'
  generalize (1 + q / nu) ^ (((nu : ℝ) + n) / 2) = R at hR ⊢
  generalize Real.pi ^ ((n : ℝ) / 2) = P at hp ⊢
  generalize (2 : ℝ) ^ ((n : ℝ) / 2) = W at h2 ⊢
  generalize (nu : ℝ) ^ ((n : ℝ) / 2) = V at hv ⊢
  generalize (nu : ℝ) ^ ((nu : ℝ) / 2) = V2 at hv2 ⊢
  generalize tFac n nu ^ n = F at hfn ⊢
  generalize √d = D at hsd ⊢
  field_simp

/-- C151, the part that holds, `sample`, `pdf` and `pdfq` of an object, for every positive definite matrix and every number of degrees of freedom, after any earlier calls that extended the table of the gamma function: what `sample` makes of independent standard normal deviates and a gamma deviate has the t density whose matrix is (n + nu)/nu times the inverse of the Hessian matrix; `pdf` is that density times a factor that is the same everywhere, exactly 1 if the dimension is even and n + nu ≤ 64, and within 1 part in 1e7 of 1 always; `pdfq` of the quadratic form is `pdf`.  Missing: `sample_q`, see `C151_violated_sample_q`. -/
theorem C151_law_partial (n nu : ℕ) (hnu : 1 ≤ nu) (mu : Arr) (H L0 : Arr2) (h0 : Arr) (fortran : Bool) (rest : ℕ → ℝ) (ns : List ℕ) (hsym : (mat n H)ᵀ = mat n H)
    (m : MVT) (aft : Arr2) (t' : GTable) (h : MVT.make n nu mu H fortran L0 h0 (after (GTable.start rest) ns) = .ok (m, aft, t')) :
    ((normals n).prod (gammaMeasure ((nu : ℝ) / 2) 1)).map (fun p => vec n (m.sample (ext p.1) p.2)) =
      volume.withDensity (fun x => ENNReal.ofReal (tPdf nu ((((n : ℝ) + nu) / nu) • (mat n H)⁻¹) (vec n mu) x)) ∧
    (∃ r : ℝ, |r - 1| ≤ 1 / 10 ^ 7 ∧ (n % 2 = 0 → nu + n ≤ 64 → r = 1) ∧ ∀ x, m.pdf x = r * tPdf nu ((((n : ℝ) + nu) / nu) • (mat n H)⁻¹) (vec n mu) (vec n x)) ∧
    ∀ x, m.pdf x = m.pdfq ((vec n x - vec n mu) ⬝ᵥ ((((n : ℝ) + nu) / nu) • (mat n H)⁻¹)⁻¹ *ᵥ (vec n x - vec n mu)) := by
  have hg := good_after (good_start rest) ns
  obtain ⟨e1, e2, e3, e4, e5, e6, hf, _, hn⟩ := mvt_ok hnu hg hsym h
  have hn0 : (0 : ℝ) < nu := by exact_mod_cast hnu
  set A := (((n : ℝ) + nu) / nu) • (mat n H)⁻¹ with hA
  have hpdf : ∀ x, m.pdf x = m.pdfq ((vec n x - vec n mu) ⬝ᵥ A⁻¹ *ᵥ (vec n x - vec n mu)) := fun x => by
    rw [MVT.pdf, MVT.pdfq, mvtden, e3, e2, qform_eq hf]
  refine ⟨?_, ?_, hpdf⟩
  · have hsamp : ∀ z g, vec n (m.sample z g) = vec n mu + (1 / √(2 * g / nu)) • (mat n m.L *ᵥ vec n z) := by
      intro z g
      have := samp_vec n mu m.L hf.upper z
      have h2 : mat n m.L *ᵥ vec n z = vec n (mvnsamp n mu m.L z) - vec n mu := by rw [this]; simp
      rw [h2, MVT.sample, mvtsamp, e1, e2, e3]
      rfl
    simp only [hsamp, vec_ext]
    exact law_t hnu hf _
  · obtain ⟨r1, q1, b1, c1, d1, _⟩ := call_near hg (nu + n) (by omega)
    obtain ⟨r2, q2, b2, c2, d2, _⟩ := call_near (call_spec hg (nu + n) (by omega)).1 nu hnu
    have hr2 : 0 < r2 := by have := (abs_le.1 b2).1; norm_num at this ⊢; linarith
    refine ⟨r1 / r2, ?_, fun ha hb => ?_, fun x => ?_⟩
    · have h1 := abs_le.1 b1
      have h2 := abs_le.1 b2
      rw [abs_le]
      constructor
      · rw [le_sub_iff_add_le, le_div_iff₀ hr2]; norm_num at h1 h2 ⊢; linarith
      · rw [sub_le_iff_le_add, div_le_iff₀ hr2]; norm_num at h1 h2 ⊢; linarith
    · rcases Nat.mod_two_eq_zero_or_one nu with hp | hp
      · rw [c1 (by omega) hb, c2 hp (by omega), div_one]
      · rw [d1 (by omega) hb, d2 hp (by omega), div_self]
        have : 0 < √Real.pi := by positivity
        positivity
    · have hG : Real.Gamma ((nu : ℝ) / 2) ≠ 0 := (Real.Gamma_pos_of_pos (by positivity)).ne'
      have hdA : A.det = (tFac n nu ^ 2) ^ n * (mat n H)⁻¹.det := by rw [hA, Matrix.det_smul, Fintype.card_fin, tFac_sq n hnu]
      have hd : 0 < (mat n H)⁻¹.det := by
        have h1 : 0 < A.det := by rw [hf.det_sq]; exact pow_pos hf.det_pos 2
        rw [hdA] at h1
        have h2 : 0 < (tFac n nu ^ 2) ^ n := pow_pos (pow_pos (tFac_pos n hnu) 2) n
        exact (mul_pos_iff_of_pos_left h2).1 h1
      have hq : 0 ≤ (vec n x - vec n mu) ⬝ᵥ A⁻¹ *ᵥ (vec n x - vec n mu) := by
        by_cases hx : vec n x - vec n mu = 0
        · simp [hx]
        · exact (hf.pd.inv.2 _ hx).le
      rw [hpdf, MVT.pdfq, mvtdenq, e1, e3, hn, q1, q2, pdf_alg hnu hd hq (mul_ne_zero hr2.ne' hG), tPdf, hdA, show (((nu + n : ℕ) : ℝ)) = (nu : ℝ) + n by push_cast; rfl]
      field_simp

/-- A case meeting the hypotheses: correlated coordinates, three degrees of freedom. -/
example (mu : Arr) (L0 : Arr2) (h0 : Arr) (rest : ℕ → ℝ) (ns : List ℕ) : ∃ m aft t',
    MVT.make 2 3 mu (fun i j => if i = 0 then (if j = 0 then 4 else 1) else (if j = 0 then 1 else 2)) false L0 h0 (after (GTable.start rest) ns) = .ok (m, aft, t') := by
  have hp := mat2_pd (a := 4) (b := 1) (c := 2) (by norm_num) (by norm_num)
  obtain ⟨m, aft, t', hm, _⟩ := (C150_constructor_partial 2 3 (by norm_num) mu _ L0 h0 false rest ns hp.1).1 hp
  exact ⟨m, aft, t', hm⟩

/-- `sample_q` of the t distribution never returns a sample: it reads a variable that does not exist. -/
theorem C151_violated_sample_q (m : MVT) (z : Arr) (g : ℝ) : m.sampleQ z g = .error .name := rfl

end Verif.Mvnt
