import Verif.Mvnt.LawLemmas
import Mathlib.Tactic.FinCases

/-!
# Properties C148 and C149: the multivariate normal distribution

`PD A` says that `A` is symmetric and positive definite, `Factor n A M` that `M` is lower triangular, has a positive diagonal, and that `M Mᵀ = A` (Verif/Mvnt/CholLemmas.lean); `normals n` is the law of `n` independent standard normal deviates (Verif/Mvnt/LawLemmas.lean).
-/

set_option linter.unusedSectionVars false

namespace Verif.Mvnt

open Finset Matrix MeasureTheory ProbabilityTheory
open scoped ENNReal

/-! ## Specification -/

/-- An array holding a vector. -/
def ext {n : ℕ} (z : Fin n → ℝ) : Arr := fun i => if h : i < n then z ⟨i, h⟩ else 0

/-- The density of the normal distribution. -/
noncomputable def normalPdf {n : ℕ} (A : Matrix (Fin n) (Fin n) ℝ) (mu x : Fin n → ℝ) : ℝ :=
  1 / √((2 * Real.pi) ^ n * A.det) * Real.exp (-((x - mu) ⬝ᵥ A⁻¹ *ᵥ (x - mu)) / 2)

theorem vec_ext {n : ℕ} (z : Fin n → ℝ) : vec n (ext z) = z := by
  ext i; simp [vec, ext]

/-! ## Lemmas -/

theorem cholCol_congr {S S' : Arr2} {i : ℕ} (js : List ℕ) (h : ∀ j ∈ js, S i j = S' i j) (L : Arr2) : cholCol S i js L = cholCol S' i js L := by
  induction js generalizing L with
  | nil => rfl
  | cons j js ih =>
    rw [cholCol, cholCol, h j (by simp)]
    exact ih (fun j hj => h j (by simp [hj])) _

theorem cholLoop_congr {n : ℕ} {S S' : Arr2} (h : ∀ i j, i ≤ j → j < n → S i j = S' i j) (is : List ℕ) (his : ∀ i ∈ is, i < n) (st : Arr2 × ℝ) :
    cholLoop n S is st = cholLoop n S' is st := by
  induction is generalizing st with
  | nil => rfl
  | cons i is ih =>
    obtain ⟨L, d⟩ := st
    have hi := his i (by simp)
    rw [cholLoop, cholLoop, h i i le_rfl hi]
    rw [cholCol_congr _ fun j hj => h i j (by rw [List.mem_range'_1] at hj; omega) (by rw [List.mem_range'_1] at hj; omega)]
    simp only [ih fun i hi => his i (by simp [hi])]

theorem two_pi_rpow (n : ℕ) : (2 * Real.pi) ^ ((n : ℝ) / 2) = √((2 * Real.pi) ^ n) := by
  rw [Real.sqrt_eq_rpow, ← Real.rpow_natCast, ← Real.rpow_mul (by positivity)]
  congr 1; ring

theorem mvnini_spec {n : ℕ} {S L0 : Arr2} {h0 : Arr} (hsym : (mat n S)ᵀ = mat n S) :
    (PD (mat n S) → ∃ L nrm, mvnini n S false L0 h0 = .ok (S, L, nrm)) ∧ (¬PD (mat n S) → mvnini n S false L0 h0 = .error 1) ∧
    ∀ S' L nrm, mvnini n S false L0 h0 = .ok (S', L, nrm) → S' = S ∧ Factor n (mat n S) (mat n L) ∧ nrm = 1 / √((2 * Real.pi) ^ n * (mat n S).det) := by
  obtain ⟨h1, h2⟩ := chol_spec (n := n) (S := S) (L0 := L0) hsym
  have hm : mvnini n S false L0 h0 = match cholLoop n S (List.range n) (L0, 1) with
    | none => .error 1
    | some (L, d1) => .ok (S, L, 1 / ((2 * Real.pi) ^ ((n : ℝ) / 2) * √d1)) := by
    rw [mvnini]
    simp only [Bool.false_eq_true, if_false]
    rcases cholLoop n S (List.range n) (L0, 1) with _ | ⟨L, d⟩ <;> rfl
  rw [hm]
  refine ⟨fun h => ?_, fun h => ?_, fun S' L nrm h => ?_⟩
  · obtain ⟨L, d, hL⟩ := h2.1 h
    rw [hL]; exact ⟨_, _, rfl⟩
  · rcases hL : cholLoop n S (List.range n) (L0, 1) with _ | ⟨L, d⟩
    · rfl
    · exact absurd (h2.2 ⟨L, d, hL⟩) h
  · rcases hL : cholLoop n S (List.range n) (L0, 1) with _ | ⟨L', d⟩
    · rw [hL] at h; cases h
    · rw [hL] at h
      simp only [Except.ok.injEq, Prod.mk.injEq] at h
      obtain ⟨rfl, rfl, rfl⟩ := h
      obtain ⟨hf, hd⟩ := h1 _ _ hL
      refine ⟨rfl, hf, ?_⟩
      rw [two_pi_rpow, hd, Real.sqrt_mul (by positivity)]

theorem make_ok {n : ℕ} {mu : Arr} {S L0 : Arr2} {h0 : Arr} {onNone : Except Err MVN} {m : MVN} (hsym : (mat n S)ᵀ = mat n S)
    (h : MVN.make n mu (some S) none L0 h0 onNone = .ok m) :
    m.mu = mu ∧ m.ndim = n ∧ Factor n (mat n S) (mat n m.L) ∧ m.nrm = 1 / √((2 * Real.pi) ^ n * (mat n S).det) := by
  obtain ⟨_, _, h3⟩ := mvnini_spec (L0 := L0) (h0 := h0) hsym
  simp only [MVN.make] at h
  rcases hi : mvnini n S false L0 h0 with e | ⟨S', L, nrm⟩
  · simp [hi] at h
  · simp [hi] at h
    obtain ⟨_, hf, hn⟩ := h3 _ _ _ hi
    rw [← h]
    exact ⟨rfl, rfl, hf, hn⟩

/-! ## C148: the constructor -/

/-- C148, the part that holds, `mvnt.MVN(mu, covar)` for every mean and every symmetric covariance: if the covariance is positive definite there is an object, whose decomposition is lower triangular with a positive diagonal and multiplies to the covariance, and whose norm is that of the density; otherwise there is `RuntimeError`.  The entries below the diagonal and what the output arrays held before are not looked at.  With both a covariance and its inverse there is `ValueError`, with neither the covariance is the unit matrix.  Missing: construction from an inverse covariance, see `C148_violated_inverse`. -/
theorem C148_constructor_partial (n : ℕ) (mu : Arr) (S L0 : Arr2) (h0 : Arr) (onNone : Except Err MVN) (hsym : (mat n S)ᵀ = mat n S) :
    (PD (mat n S) → ∃ m, MVN.make n mu (some S) none L0 h0 onNone = .ok m ∧ m.mu = mu ∧ m.ndim = n ∧
      Factor n (mat n S) (mat n m.L) ∧ m.nrm = 1 / √((2 * Real.pi) ^ n * (mat n S).det)) ∧
    (¬PD (mat n S) → MVN.make n mu (some S) none L0 h0 onNone = .error .runtime) ∧
    (∀ S', (∀ i j, i ≤ j → j < n → S' i j = S i j) → MVN.make n mu (some S') none L0 h0 onNone = MVN.make n mu (some S) none L0 h0 onNone) ∧
    (∀ P, MVN.make n mu (some S) (some P) L0 h0 onNone = .error .value) ∧
    MVN.make n mu none none L0 h0 onNone = MVN.make n mu (some fun i j => if i = j then 1 else 0) none L0 h0 onNone := by
  obtain ⟨h1, h2, h3⟩ := mvnini_spec (L0 := L0) (h0 := h0) hsym
  refine ⟨fun h => ?_, fun h => ?_, fun S' hS => ?_, fun P => by simp [MVN.make], by simp [MVN.make]⟩
  · obtain ⟨L, nrm, hm⟩ := h1 h
    have hmk : MVN.make n mu (some S) none L0 h0 onNone = .ok ⟨mu, n, L, nrm⟩ := by simp [MVN.make, hm]
    exact ⟨_, hmk, make_ok hsym hmk⟩
  · simp [MVN.make, h2 h]
  · have : cholLoop n S' (List.range n) (L0, 1) = cholLoop n S (List.range n) (L0, 1) :=
      cholLoop_congr hS _ (fun i hi => List.mem_range.1 hi) _
    simp only [MVN.make, mvnini, this, Option.isNone_some, Option.isSome_none, Bool.false_eq_true, false_and, if_false]
    rcases cholLoop n S (List.range n) (L0, 1) with _ | ⟨L, d⟩ <;> rfl

theorem mat2_pd {a b c : ℝ} (ha : 0 < a) (hd : b ^ 2 < a * c) : PD (mat 2 fun i j => if i = 0 then (if j = 0 then a else b) else (if j = 0 then b else c)) := by
  refine ⟨by ext i j; fin_cases i <;> fin_cases j <;> rfl, fun v hv => ?_⟩
  have h1 : (v ⬝ᵥ (mat 2 fun i j => if i = 0 then (if j = 0 then a else b) else (if j = 0 then b else c)) *ᵥ v) = a * v 0 ^ 2 + 2 * b * (v 0 * v 1) + c * v 1 ^ 2 := by
    simp [mat, dotProduct, mulVec, Fin.sum_univ_two]; ring
  rw [h1]
  have h2 : a * (a * v 0 ^ 2 + 2 * b * (v 0 * v 1) + c * v 1 ^ 2) = (a * v 0 + b * v 1) ^ 2 + (a * c - b ^ 2) * v 1 ^ 2 := by ring
  have h3 : 0 < (a * v 0 + b * v 1) ^ 2 + (a * c - b ^ 2) * v 1 ^ 2 := by
    by_cases hv1 : v 1 = 0
    · have hv0 : v 0 ≠ 0 := fun h => hv (by ext i; fin_cases i <;> simp_all)
      rw [hv1]
      have : 0 < (a * v 0) ^ 2 := by positivity
      nlinarith
    · have : 0 < v 1 ^ 2 := by positivity
      have : 0 < (a * c - b ^ 2) * v 1 ^ 2 := mul_pos (by linarith) this
      nlinarith [sq_nonneg (a * v 0 + b * v 1)]
  rw [← h2] at h3
  exact (mul_pos_iff_of_pos_left ha).1 h3

/-- A case meeting the hypotheses: correlated coordinates; and a matrix that is not positive definite. -/
example : PD (mat 2 fun i j => if i = 0 then (if j = 0 then 4 else 1) else (if j = 0 then 1 else 2)) := mat2_pd (by norm_num) (by norm_num)
example : ¬PD (mat 2 fun _ _ => 1) := fun h => by
  have := h.2 ![1, -1] (by intro h; have := congrFun h 0; simp at this)
  simp [mat, dotProduct, mulVec, Fin.sum_univ_two] at this

/-- The object made from an inverse covariance does not depend on it: whatever the extension module makes of the `None` it is handed, the decomposition is not that of the inverse of the matrix given. -/
theorem C148_violated_inverse (mu : Arr) (L0 : Arr2) (h0 : Arr) (onNone : Except Err MVN) :
    ¬∀ P, PD (mat 1 P) → ∃ m, MVN.make 1 mu none (some P) L0 h0 onNone = .ok m ∧ Factor 1 (mat 1 P)⁻¹ (mat 1 m.L) := by
  intro h
  have hpd : ∀ c : ℝ, 0 < c → PD (mat 1 fun _ _ => c) := fun c hc => by
    refine ⟨by ext i j; rfl, fun v hv => ?_⟩
    have hv0 : v 0 ≠ 0 := fun h => hv (by ext i; rw [Subsingleton.elim i 0, h]; rfl)
    simp only [mat, dotProduct, mulVec, Fin.sum_univ_one]
    have : 0 < v 0 ^ 2 := by positivity
    nlinarith [mul_pos hc this]
  obtain ⟨m1, e1, f1⟩ := h (fun _ _ => 1) (hpd 1 one_pos)
  obtain ⟨m2, e2, f2⟩ := h (fun _ _ => 4) (hpd 4 (by norm_num))
  have he : m1 = m2 := by
    have : (Except.ok m1 : Except Err MVN) = .ok m2 := by rw [← e1, ← e2]; simp [MVN.make]
    simpa using this
  have h3 := congrArg Matrix.det (f1.eq.symm.trans (he ▸ f2.eq))
  rw [Matrix.det_nonsing_inv, Matrix.det_nonsing_inv] at h3
  simp [mat, Ring.inverse_eq_inv'] at h3

/-! ## C149: samples and the density -/

/-- C149, `sample`, `sample_q`, `pdf` and `pdfq` of an object, for every positive definite covariance: what `sample` makes of independent standard normal deviates has exactly the density that `pdf` returns, which is the normal one with that mean and covariance; `sample_q` returns the same sample together with its quadratic form, and `pdfq` of that is `pdf` of the sample. -/
theorem C149_law (n : ℕ) (mu : Arr) (S L0 : Arr2) (h0 : Arr) (onNone : Except Err MVN) (m : MVN) (hsym : (mat n S)ᵀ = mat n S)
    (h : MVN.make n mu (some S) none L0 h0 onNone = .ok m) :
    (∀ x, m.pdf x = normalPdf (mat n S) (vec n mu) (vec n x)) ∧
    (normals n).map (fun z => vec n (m.sample (ext z))) = volume.withDensity (fun x => ENNReal.ofReal (m.pdf (ext x))) ∧
    ∀ z, (m.sampleQ z).1 = m.sample z ∧
      (m.sampleQ z).2 = (vec n (m.sample z) - vec n mu) ⬝ᵥ (mat n S)⁻¹ *ᵥ (vec n (m.sample z) - vec n mu) ∧
      m.pdfq (m.sampleQ z).2 = m.pdf (m.sample z) := by
  obtain ⟨hmu, hn, hf, hnrm⟩ := make_ok hsym h
  have hpdf : ∀ x, m.pdf x = normalPdf (mat n S) (vec n mu) (vec n x) := by
    intro x
    rw [MVN.pdf, mvnden, hn, hmu, qform_eq hf, hnrm, normalPdf]
  have hsamp : ∀ z, vec n (m.sample z) = vec n mu + mat n m.L *ᵥ vec n z := by
    intro z
    rw [MVN.sample, hn, hmu, samp_vec n mu m.L hf.upper]
  have hq : ∀ z, (m.sampleQ z).2 = (vec n (m.sample z) - vec n mu) ⬝ᵥ (mat n S)⁻¹ *ᵥ (vec n (m.sample z) - vec n mu) := by
    intro z
    rw [hsamp, add_sub_cancel_left, quad_factor hf, MVN.sampleQ, hn, hmu, sampq_snd]
  refine ⟨hpdf, ?_, fun z => ⟨rfl, hq z, ?_⟩⟩
  · simp only [hsamp, vec_ext, hpdf]
    rw [law_affine hf.det_pos (fun z => quad_factor hf z)]
    congr 1
    ext x
    rw [normalPdf, hf.det_sq, Real.sqrt_mul (by positivity), Real.sqrt_sq hf.det_pos.le]
  · rw [hq, hpdf, MVN.pdfq, hnrm, normalPdf]

/-- A case meeting the hypotheses: correlated coordinates. -/
example (mu : Arr) (L0 : Arr2) (h0 : Arr) (o : Except Err MVN) :
    ∃ m, MVN.make 2 mu (some fun i j => if i = 0 then (if j = 0 then 4 else 1) else (if j = 0 then 1 else 2)) none L0 h0 o = .ok m := by
  have hp := mat2_pd (a := 4) (b := 1) (c := 2) (by norm_num) (by norm_num)
  obtain ⟨m, hm, _⟩ := (C148_constructor_partial 2 mu _ L0 h0 o hp.1).1 hp
  exact ⟨m, hm⟩

end Verif.Mvnt
