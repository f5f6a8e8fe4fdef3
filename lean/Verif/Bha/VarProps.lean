import Verif.Bha.VarLemmas

/-!
# C120: uncertainties of a harmonic analysis
-/

set_option linter.unusedSectionVars false

namespace Verif.Bha

open Real Verif.Vba Finset MeasureTheory

/-! ## Specification -/

/-- The variance of `√(a² + b²)` for amplitudes `a`, `b` with covariances `c`, to first order: the quadratic form of the gradient. -/
noncomputable def propagated (a b c11 c12 c22 : ℝ) : ℝ :=
  (a / √(a ^ 2 + b ^ 2)) ^ 2 * c11 + 2 * (a / √(a ^ 2 + b ^ 2)) * (b / √(a ^ 2 + b ^ 2)) * c12 + (b / √(a ^ 2 + b ^ 2)) ^ 2 * c22

/-! ## C120 -/

/-- **C120** (covariances).  After an analysis, `covar()` is the variance times the inverse of the matrix of the products of the cosines and sines. -/
theorem C120_covar {t : Series} {l : List ℝ} {s : Fit} (h : Holds t l s) (var : ℝ) : ∀ p < 2 * l.length, ∀ q < 2 * l.length,
    ∑ j ∈ range (2 * l.length), s.covar l.length var p j * s.stats.metric j q = if p = q then var else 0 := by
  intro p hp q hq
  have := h.2.1.covar p hp q hq
  unfold Fit.covar
  rw [show ∑ j ∈ range (2 * l.length), Vba.covar (2 * l.length) s.stats.L p j * var * s.stats.metric j q = var * ∑ j ∈ range (2 * l.length), Vba.covar (2 * l.length) s.stats.L p j * s.stats.metric j q by
    rw [mul_sum]; exact sum_congr rfl fun _ _ => by ring, this]
  split_ifs <;> simp

theorem sigmas_get {t : Series} {l : List ℝ} {s : Fit} (h : Holds t l s) (var : ℝ) {i : ℕ} (hi : i < l.length) :
    (s.sigmas l.length var).getD i 0 = √(propagated (s.stats.A (2 * i)) (s.stats.A (2 * i + 1)) (s.covar l.length var (2 * i) (2 * i)) 0 (s.covar l.length var (2 * i + 1) (2 * i + 1))) := by
  have hh : s.hamps.getD i 0 = √(s.stats.A (2 * i) ^ 2 + s.stats.A (2 * i + 1) ^ 2) := by
    rw [h.2.2.2, List.getD_eq_getElem _ _ (by simpa using hi)]
    simp
  unfold Fit.sigmas
  simp only
  rw [List.getD_eq_getElem _ _ (by simpa using hi)]
  simp only [List.getElem_map, List.getElem_range, hh]
  unfold propagated
  congr 1
  ring

/-- **C120** (partial).  The uncertainty of the amplitude of a sinusoid is the propagated one if the covariance of its cosine and sine amplitudes vanishes.  Missing: the covariance is left out of the sum, so that the property fails otherwise. -/
theorem C120_sigmas_partial {t : Series} {l : List ℝ} {s : Fit} (h : Holds t l s) (var : ℝ) {i : ℕ} (hi : i < l.length) (hc : s.covar l.length var (2 * i) (2 * i + 1) = 0) :
    (s.sigmas l.length var).getD i 0 = √(propagated (s.stats.A (2 * i)) (s.stats.A (2 * i + 1)) (s.covar l.length var (2 * i) (2 * i)) (s.covar l.length var (2 * i) (2 * i + 1)) (s.covar l.length var (2 * i + 1) (2 * i + 1))) := by
  rw [sigmas_get h var hi, hc]

theorem multiplet_varest {junk : Arr1} {t : Series} {mode : Mode} {ints : Bool} {flist : List ℝ} {s : Fit} (h : multiplet junk t mode ints flist = .ok s) :
    s.varest = (∑ k ∈ range t.n, t.samples k ^ 2 - s.stats.S) / ((t.n : ℝ) - flist.length - 2) := by
  unfold multiplet at h
  split at h
  · cases h
  · dsimp only at h
    split at h
    · cases h
    · simp only [Except.ok.injEq] at h
      rw [← h]

/-- **C120** (partial).  The variance estimate is that multiple of the posterior mean of the variance which counts one amplitude per sinusoid.  Missing: there are two, so that it is the posterior mean for no sinusoids only. -/
theorem C120_variance_partial {junk : Arr1} {t : Series} {mode : Mode} {ints : Bool} {flist l : List ℝ} {s : Fit} (h : multiplet junk t mode ints flist = .ok s) (hl : l.length = flist.length) (hh : Holds t l s)
    (hn : 2 * l.length + 2 < t.n) (hq : ∑ k ∈ range t.n, t.samples k ^ 2 ≠ s.stats.S) :
    s.varest * ((t.n : ℝ) - l.length - 2) = meanVar (fun i => 2 * π * l.getD i 0 * t.dt) l.length t.n t.samples * ((t.n : ℝ) - 2 * l.length - 2) := by
  have he := hh.2.1.explained
  have h0 : 0 ≤ resid (fun i => 2 * π * l.getD i 0 * t.dt) l.length t.n t.samples s.stats.A := sum_nonneg fun _ _ => sq_nonneg _
  have hpos : 0 < resid (fun i => 2 * π * l.getD i 0 * t.dt) l.length t.n t.samples s.stats.A := by
    refine lt_of_le_of_ne h0 fun hz => hq ?_
    linarith
  have hn' : (2 * l.length + 2 : ℝ) < t.n := by exact_mod_cast hn
  rw [meanVar_eq hh.2.1 hn hpos, multiplet_varest h, ← hl, he, div_mul_cancel₀ _ (by have : (0 : ℝ) ≤ l.length := Nat.cast_nonneg _; linarith), div_mul_cancel₀ _ (by linarith)]

/-- **C120 fails**: whenever there are sinusoids (and enough samples, and the fit is not perfect), the variance estimate is smaller than the posterior mean of the variance. -/
theorem C120_violated_variance {junk : Arr1} {t : Series} {mode : Mode} {ints : Bool} {flist l : List ℝ} {s : Fit} (h : multiplet junk t mode ints flist = .ok s) (hl : l.length = flist.length) (hh : Holds t l s)
    (hn : 2 * l.length + 2 < t.n) (hq : ∑ k ∈ range t.n, t.samples k ^ 2 ≠ s.stats.S) (h1 : l ≠ []) :
    0 < s.varest ∧ s.varest < meanVar (fun i => 2 * π * l.getD i 0 * t.dt) l.length t.n t.samples := by
  have he := hh.2.1.explained
  have h0 : 0 ≤ resid (fun i => 2 * π * l.getD i 0 * t.dt) l.length t.n t.samples s.stats.A := sum_nonneg fun _ _ => sq_nonneg _
  have hpos : 0 < resid (fun i => 2 * π * l.getD i 0 * t.dt) l.length t.n t.samples s.stats.A := by
    refine lt_of_le_of_ne h0 fun hz => hq ?_
    linarith
  have hn' : (2 * l.length + 2 : ℝ) < t.n := by exact_mod_cast hn
  have hlpos : (0 : ℝ) < l.length := by exact_mod_cast List.length_pos_iff.2 h1
  rw [meanVar_eq hh.2.1 hn hpos, multiplet_varest h, ← hl, he]
  refine ⟨div_pos hpos (by linarith), ?_⟩
  exact div_lt_div_of_pos_left hpos (by linarith) (by linarith)

/-- Two samples, one sinusoid. -/
noncomputable def two : Series := ⟨2, fun k => if k = 0 then 1 else (1 + √3) / 2, 1, false, 2⟩

/-- **C120 fails**: two samples of `cos(π k / 3) + sin(π k / 3)` have the fitted amplitudes 1 and 1; their covariance is `-√3/3`, and the uncertainty of the amplitude that `sigmas()` returns is `√(4/3)`, not the propagated `√(4/3 - √3/3)`. -/
theorem C120_violated_sigmas (junk : Arr1) : ∃ s, multiplet junk two .exact false [1 / 6] = .ok s ∧ s.stats.A 0 = 1 ∧ s.stats.A 1 = 1 ∧ (s.sigmas 1 1).getD 0 0 = √(4 / 3) ∧
    propagated (s.stats.A 0) (s.stats.A 1) (s.covar 1 1 0 0) (s.covar 1 1 0 1) (s.covar 1 1 1 1) = 4 / 3 - √3 / 3 := by
  obtain ⟨a, -⟩ := C119_exact junk (t := two) false (flist := [1 / 6]) one_pos ⟨by simp, by norm_num [two]⟩
  obtain ⟨s, hs, hh⟩ := a (by simp [two])
  have hg0 : (fun i => 2 * π * [(1 / 6 : ℝ)].getD i 0 * two.dt) 0 = π / 3 := by simp [two]; ring
  set gam : ℕ → ℝ := fun i => 2 * π * [(1 / 6 : ℝ)].getD i 0 * two.dt with hgam
  have hF : Fits gam 1 2 two.samples s.stats := hh.2.1
  have h3 : √3 ^ 2 = 3 := sq_sqrt (by norm_num)
  have hz : resid gam 1 2 two.samples (fun _ => 1) = 0 := by
    unfold resid
    simp only [sum_range_succ, sum_range_zero, hg0, two]
    norm_num
    ring
  have hA : ∀ p < 2, s.stats.A p = 1 := by
    intro p hp
    by_contra hne
    have := hF.best (fun _ => 1) ⟨p, hp, fun h => hne h.symm⟩
    rw [hz] at this
    exact absurd this (not_lt.2 (sum_nonneg fun _ _ => sq_nonneg _))
  have hA0 := hA 0 (by norm_num)
  have hA1 := hA 1 (by norm_num)
  obtain ⟨m1, m2, m3, m4⟩ := hF.metric 0 one_pos 0 one_pos
  simp only [sum_range_succ, sum_range_zero, hg0, mul_zero, Nat.cast_zero, Nat.cast_one, mul_one, zero_add, cos_zero, sin_zero, cos_pi_div_three, sin_pi_div_three] at m1 m2 m3 m4
  have c := hF.covar
  simp only [show 2 * 1 = 2 from rfl, sum_range_succ, sum_range_zero, zero_add] at c
  have c00 := c 0 (by norm_num) 0 (by norm_num)
  have c01 := c 0 (by norm_num) 1 (by norm_num)
  have c10 := c 1 (by norm_num) 0 (by norm_num)
  have c11 := c 1 (by norm_num) 1 (by norm_num)
  rw [m1, m3, if_pos rfl] at c00
  rw [m2, m4, if_neg (by norm_num)] at c01
  rw [m1, m3, if_neg (by norm_num)] at c10
  rw [m2, m4, if_pos rfl] at c11
  set K := Vba.covar 2 s.stats.L with hK
  have k01 : K 0 1 = -(√3 / 3) := by linear_combination (5 / 3) * c01 - (√3 / 3) * c00 - (K 0 1 / 3) * h3
  have k00 : K 0 0 = 1 := by
    rw [k01] at c00
    linear_combination (4 / 5) * c00 + (1 / 15) * h3
  have k11 : K 1 1 = 5 / 3 := by linear_combination (5 / 3) * c11 - (√3 / 3) * c10 - (K 1 1 / 3) * h3
  have hcov : ∀ p q, s.covar 1 1 p q = K p q := fun p q => by unfold Fit.covar; rw [hK]; simp
  have hr : √(2 : ℝ) ^ 2 = 2 := sq_sqrt (by norm_num)
  have h2 : (1 / √2 : ℝ) ^ 2 = 1 / 2 := by rw [div_pow, hr]; norm_num
  refine ⟨s, hs, hA0, hA1, ?_, ?_⟩
  · have := sigmas_get (i := 0) hh 1 (by simp)
    simp only [List.length_cons, List.length_nil, zero_add, mul_zero] at this
    rw [this, hA0, hA1, hcov, hcov, k00, k11]
    unfold propagated
    congr 1
    rw [show (1 : ℝ) ^ 2 + 1 ^ 2 = 2 by norm_num, h2]
    norm_num
  · rw [hA0, hA1, hcov, hcov, hcov, k00, k01, k11]
    unfold propagated
    rw [show (1 : ℝ) ^ 2 + 1 ^ 2 = 2 by norm_num, mul_assoc 2, ← sq, h2]
    ring

/-- The hypotheses on the variance hold for seven samples, one of which is not zero. -/
example (junk : Arr1) : ∃ s, multiplet junk ⟨7, fun k => if k = 0 then 1 else 0, 1, false, 7⟩ .exact false [1 / 6] = .ok s ∧ Holds ⟨7, fun k => if k = 0 then 1 else 0, 1, false, 7⟩ [1 / 6] s ∧ 2 * [(1 / 6 : ℝ)].length + 2 < 7 ∧ (∑ k ∈ range 7, (if k = 0 then (1 : ℝ) else 0) ^ 2) ≠ s.stats.S := by
  obtain ⟨a, -⟩ := C119_exact junk (t := ⟨7, fun k => if k = 0 then 1 else 0, 1, false, 7⟩) false (flist := [1 / 6]) one_pos ⟨by simp, by norm_num⟩
  obtain ⟨s, hs, hh⟩ := a (by simp)
  refine ⟨s, hs, hh, by simp, fun hS => ?_⟩
  have he := hh.2.1.explained
  simp only at he
  rw [hS, sub_self] at he
  -- a perfect fit is impossible
  have hz := (sum_eq_zero_iff_of_nonneg fun k _ => sq_nonneg _).1 he.symm
  have z0 := hz 0 (by simp)
  have z1 := hz 3 (by simp)
  simp at z0 z1
  have e1 : 2 * π * 6⁻¹ * 3 = π := by ring
  rw [e1, cos_pi, sin_pi] at z1
  linarith

end Verif.Bha
