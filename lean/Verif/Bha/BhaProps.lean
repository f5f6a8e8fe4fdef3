import Verif.Bha.BhaLemmas
import Mathlib.LinearAlgebra.Vandermonde
import Mathlib.Analysis.Real.Pi.Bounds
import Mathlib.Analysis.SpecialFunctions.Complex.Circle
import Mathlib.LinearAlgebra.Dimension.Constructions

/-!
# C118: the harmonic analyses fit sinusoids
-/

set_option linter.unusedSectionVars false

namespace Verif.Bha

open Real Verif.Vba Finset

/-! ## Specification -/

/-- The sum of squared differences of `N` samples and `m` sinusoids of angular frequencies `gam` per sample with cosine amplitudes `B 0`, `B 2`, ... and sine amplitudes `B 1`, `B 3`, ... -/
noncomputable def resid (gam : ℕ → ℝ) (m N : ℕ) (d : ℕ → ℝ) (B : ℕ → ℝ) : ℝ :=
  ∑ k ∈ range N, (d k - ∑ i ∈ range m, (B (2 * i) * cos (gam i * k) + B (2 * i + 1) * sin (gam i * k))) ^ 2

/-- The projections of the samples on the cosines and sines. -/
def Projections (gam : ℕ → ℝ) (m N : ℕ) (d P : ℕ → ℝ) : Prop :=
  ∀ i < m, P (2 * i) = ∑ k ∈ range N, cos (gam i * k) * d k ∧ P (2 * i + 1) = ∑ k ∈ range N, sin (gam i * k) * d k

/-- Distinct frequencies strictly between zero and the Nyquist frequency. -/
def Resolvable (gam : ℕ → ℝ) (m : ℕ) : Prop := (∀ i < m, 0 < gam i ∧ gam i < π) ∧ ∀ i < m, ∀ j < m, gam i = gam j → i = j

/-- What an analysis should return: the products of the cosines and sines, a lower triangular root of them, the root of their determinant, the amplitudes of the fit, which is better than any other and whose residuals are orthogonal to the sinusoids, and what the fit explains. -/
structure Fits (gam : ℕ → ℝ) (m N : ℕ) (d : ℕ → ℝ) (r : Stats) : Prop where
  metric : ∀ i < m, ∀ j < m, r.metric (2 * i) (2 * j) = ∑ k ∈ range N, cos (gam i * k) * cos (gam j * k) ∧
    r.metric (2 * i) (2 * j + 1) = ∑ k ∈ range N, cos (gam i * k) * sin (gam j * k) ∧
    r.metric (2 * i + 1) (2 * j) = ∑ k ∈ range N, sin (gam i * k) * cos (gam j * k) ∧
    r.metric (2 * i + 1) (2 * j + 1) = ∑ k ∈ range N, sin (gam i * k) * sin (gam j * k)
  lower : ∀ p q, p < q → q < 2 * m → r.L p q = 0
  diag : ∀ p < 2 * m, 0 < r.L p p
  root : ∀ p < 2 * m, ∀ q < 2 * m, ∑ s ∈ range (2 * m), r.L p s * r.L q s = r.metric p q
  rdet : 0 < r.rdet ∧ r.rdet ^ 2 = (mat (2 * m) (2 * m) r.metric).det
  best : ∀ B : ℕ → ℝ, (∃ p < 2 * m, B p ≠ r.A p) → resid gam m N d r.A < resid gam m N d B
  normal : ∀ i < m, ∑ k ∈ range N, cos (gam i * k) * (d k - ∑ i ∈ range m, (r.A (2 * i) * cos (gam i * k) + r.A (2 * i + 1) * sin (gam i * k))) = 0 ∧
    ∑ k ∈ range N, sin (gam i * k) * (d k - ∑ i ∈ range m, (r.A (2 * i) * cos (gam i * k) + r.A (2 * i + 1) * sin (gam i * k))) = 0
  explained : ∑ k ∈ range N, d k ^ 2 - r.S = resid gam m N d r.A
  covar : ∀ p < 2 * m, ∀ q < 2 * m, ∑ s ∈ range (2 * m), covar (2 * m) r.L p s * r.metric s q = if p = q then 1 else 0

/-! ## Lemmas -/

theorem sum_pairs (f : ℕ → ℝ) (m : ℕ) : ∑ p ∈ range (2 * m), f p = ∑ i ∈ range m, (f (2 * i) + f (2 * i + 1)) := by
  induction m with
  | zero => simp
  | succ m ih => rw [show 2 * (m + 1) = 2 * m + 1 + 1 by ring, sum_range_succ, sum_range_succ, ih, sum_range_succ]; ring

theorem sinusoids_even (gam : ℕ → ℝ) (i k : ℕ) : sinusoids gam (2 * i) k = cos (gam i * k) := by
  unfold sinusoids; rw [if_pos (by omega), show 2 * i / 2 = i by omega]

theorem sinusoids_odd (gam : ℕ → ℝ) (i k : ℕ) : sinusoids gam (2 * i + 1) k = sin (gam i * k) := by
  unfold sinusoids; rw [if_neg (by omega), show (2 * i + 1) / 2 = i by omega]

theorem chisq_resid (gam : ℕ → ℝ) (m N : ℕ) (d B : ℕ → ℝ) : chisq (2 * m) N (sinusoids gam) d (vec (2 * m) B) = resid gam m N d B := by
  unfold chisq resid vec
  rw [Finset.sum_range]
  refine sum_congr rfl fun k _ => ?_
  rw [← Finset.sum_range fun a => B a * sinusoids gam a k, sum_pairs]
  simp only [sinusoids_even, sinusoids_odd]

theorem fits_of {junk : Arr1} {gam : ℕ → ℝ} {m N : ℕ} {d : ℕ → ℝ} {r : Stats} (h : metricAnalysis junk (2 * m) N N (sinusoids gam) d = .ok r) : Fits gam m N d r := by
  obtain ⟨h1, h2, h3, h4, h5, h6, h7, h8, h9⟩ := C64_analysis h
  obtain ⟨c1, c2⟩ := C66_minimum h
  obtain ⟨v1, v2⟩ := C67_metric h
  have hm : ∀ p q, p < 2 * m → q < 2 * m → r.metric p q = gram gam N p q := by
    intro p q hp hq
    have := congrFun (congrFun h1 ⟨p, hp⟩) ⟨q, hq⟩
    rw [Matrix.mul_apply] at this
    simp only [mat, Matrix.transpose_apply] at this
    rw [this, gram, Finset.sum_range]
  refine ⟨?_, ?_, ?_, ?_, ⟨h7, h8⟩, ?_, ?_, ?_, ?_⟩
  · intro i hi j hj
    rw [hm _ _ (by omega) (by omega), hm _ _ (by omega) (by omega), hm _ _ (by omega) (by omega), hm _ _ (by omega) (by omega)]
    exact gram_block gam N i j
  · intro p q hpq hq
    exact h3 ⟨p, by omega⟩ ⟨q, hq⟩ hpq
  · intro p hp
    exact h4 ⟨p, hp⟩
  · intro p hp q hq
    have := congrFun (congrFun h5 ⟨p, hp⟩) ⟨q, hq⟩
    rw [Matrix.mul_apply] at this
    simp only [mat, Matrix.transpose_apply] at this
    rw [← this, Finset.sum_range]
  · rintro B ⟨p, hp, hne⟩
    have := c2 (vec (2 * m) B) fun he => hne (congrFun he ⟨p, hp⟩)
    rwa [chisq_resid, chisq_resid] at this
  · have hno : ∀ p < 2 * m, ∑ k ∈ range N, sinusoids gam p k * (d k - ∑ i ∈ range m, (r.A (2 * i) * cos (gam i * k) + r.A (2 * i + 1) * sin (gam i * k))) = 0 := by
      intro p hp
      have e := congrFun (h6.trans h2) ⟨p, hp⟩
      rw [h1] at e
      simp only [Matrix.mulVec, dotProduct, Matrix.mul_apply, Matrix.transpose_apply, mat, vec] at e
      have e1 : ∀ k : ℕ, ∑ i ∈ range m, (r.A (2 * i) * cos (gam i * k) + r.A (2 * i + 1) * sin (gam i * k)) = ∑ q ∈ range (2 * m), r.A q * sinusoids gam q k := by
        intro k
        rw [sum_pairs]
        simp only [sinusoids_even, sinusoids_odd]
      simp only [e1, mul_sub, sum_sub_distrib, mul_sum]
      rw [sub_eq_zero, Finset.sum_range fun k => sinusoids gam p k * d k, ← e, sum_comm, Finset.sum_range]
      refine sum_congr rfl fun q _ => ?_
      rw [sum_mul, Finset.sum_range]
      refine sum_congr rfl fun k _ => by ring
    intro i hi
    have a := hno (2 * i) (by omega)
    have b := hno (2 * i + 1) (by omega)
    simp only [sinusoids_even, sinusoids_odd] at a b
    exact ⟨a, b⟩
  · rw [chisq_resid] at c1
    rw [← c1, Finset.sum_range]
    simp only [sq]
  · intro p hp q hq
    have : mat (2 * m) (2 * m) (Vba.covar (2 * m) r.L) * mat (2 * m) (2 * m) r.metric = 1 := by
      rw [v1]
      exact Matrix.nonsing_inv_mul _ (Ne.isUnit v2)
    have := congrFun (congrFun this ⟨p, hp⟩) ⟨q, hq⟩
    rw [Matrix.mul_apply, Matrix.one_apply] at this
    simp only [mat, Fin.mk.injEq] at this
    rw [← this, Finset.sum_range]

/-- Results only depend on what is inside of the projections. -/
theorem fits_P {gam : ℕ → ℝ} {m N : ℕ} {d : ℕ → ℝ} {r : Stats} (h : Fits gam m N d r) (P : Arr1) : Fits gam m N d { r with P := P } :=
  ⟨h.metric, h.lower, h.diag, h.root, h.rdet, h.best, h.normal, h.explained, h.covar⟩

theorem fine_of {gam g : ℕ → ℝ} {hgp hgm : ℕ → ℕ → ℝ} {m : ℕ} (hr : Resolvable gam m) (h1 : ∀ i < m, g (i + 1) = gam i)
    (h2 : ∀ i j, i < j → j < m → 2 * hgp (i + 1) (j + 1) = gam i + gam j) (h3 : ∀ i j, i < j → j < m → 2 * hgm (i + 1) (j + 1) = gam j - gam i) : Fine gam g hgp hgm m := by
  refine ⟨h1, h2, h3, ?_, ?_, ?_⟩
  · intro i hi
    exact (sin_pos_of_pos_of_lt_pi (hr.1 i hi).1 (hr.1 i hi).2).ne'
  · intro i j hij hj
    have a := hr.1 i (by omega)
    have b := hr.1 j hj
    exact (sin_pos_of_pos_of_lt_pi (by linarith) (by linarith)).ne'
  · intro i j hij hj
    have a := hr.1 i (by omega)
    have b := hr.1 j hj
    have hne : gam j - gam i ≠ 0 := fun h => by
      have := hr.2 i (by omega) j hj (by linarith)
      omega
    rcases lt_or_gt_of_ne hne with h | h
    · exact (sin_neg_of_neg_of_neg_pi_lt (by linarith) (by linarith)).ne
    · exact (sin_pos_of_pos_of_lt_pi (by linarith) (by linarith)).ne'

/-- What the extension functions do for frequencies that can be resolved. -/
theorem run_eq {junk : Arr1} {gam g : ℕ → ℝ} {hgp hgm : ℕ → ℕ → ℝ} {m N : ℕ} {d P : ℕ → ℝ} (hf : Fine gam g hgp hgm m) (hP : Projections gam m N d P) :
    (match metricB m N g hgp hgm with
      | .error e => .error e
      | .ok G => match analyse junk (2 * m) G P with
        | .error e => .error (.exc e)
        | .ok r => .ok r : Except Stop Stats) = match metricAnalysis junk (2 * m) N N (sinusoids gam) d with
      | .error e => .error (.exc e)
      | .ok r => .ok { r with P := P } := by
  rw [metricB_eq hf]
  dsimp only
  have hp : ∀ a < 2 * m, P a = proj (2 * m) N (sinusoids gam) d a := by
    intro a ha
    rw [proj_val _ _ _ _ ha]
    obtain ⟨i, hi⟩ : ∃ i, a = 2 * i ∨ a = 2 * i + 1 := ⟨a / 2, by omega⟩
    rcases hi with rfl | rfl
    · rw [(hP i (by omega)).1]
      simp only [sinusoids_even]
    · rw [(hP i (by omega)).2]
      simp only [sinusoids_odd]
  rw [analyse_congr junk _ hp, analyse_metric]
  cases metricAnalysis junk (2 * m) N N (sinusoids gam) d <;> rfl

/-- Cosines and sines of distinct frequencies below the Nyquist frequency are independent on enough samples. -/
theorem independent {gam : ℕ → ℝ} {m N : ℕ} (hr : Resolvable gam m) (hN : 2 * m ≤ N) : LinearIndependent ℝ fun a => mat (2 * m) N (sinusoids gam) a := by
  rw [Fintype.linearIndependent_iff]
  intro c hc
  set B : ℕ → ℝ := fun p => if h : p < 2 * m then c ⟨p, h⟩ else 0 with hB
  have hBc : ∀ a : Fin (2 * m), B a = c a := fun a => by simp [hB]
  have hz : ∀ k < N, ∑ i ∈ range m, (B (2 * i) * cos (gam i * k) + B (2 * i + 1) * sin (gam i * k)) = 0 := by
    intro k hk
    have := congrFun hc ⟨k, hk⟩
    simp only [Finset.sum_apply, Pi.smul_apply, smul_eq_mul, mat, Pi.zero_apply] at this
    rw [← this]
    have e : ∑ a : Fin (2 * m), c a * sinusoids gam a k = ∑ a : Fin (2 * m), B a * sinusoids gam a k := sum_congr rfl fun a _ => by rw [hBc]
    rw [e, ← Finset.sum_range fun a => B a * sinusoids gam a k, sum_pairs]
    simp only [sinusoids_even, sinusoids_odd]
  -- the exponentials
  set th : ℕ → ℝ := fun p => if p % 2 = 0 then gam (p / 2) else -gam (p / 2) with hth
  set z : Fin (2 * m) → ℂ := fun p => Complex.exp (th p * Complex.I) with hzd
  set v : Fin (2 * m) → ℂ := fun p => if (p : ℕ) % 2 = 0 then ((B (2 * (p / 2)) : ℂ) - B (2 * (p / 2) + 1) * Complex.I) / 2 else ((B (2 * (p / 2)) : ℂ) + B (2 * (p / 2) + 1) * Complex.I) / 2 with hv
  have hinj : Function.Injective z := by
    intro p q hpq
    have hb : ∀ p : Fin (2 * m), th p ∈ Set.Ioc (-π) π ∧ th p ≠ 0 ∧ (0 < th p ↔ (p : ℕ) % 2 = 0) ∧ |th p| = gam (p / 2) := by
      intro p
      have a := hr.1 (p / 2) (by omega)
      simp only [hth]
      split_ifs with h
      · exact ⟨⟨by linarith [pi_pos], a.2.le⟩, a.1.ne', ⟨fun _ => h, fun _ => a.1⟩, abs_of_pos a.1⟩
      · exact ⟨⟨by linarith, by linarith [pi_pos]⟩, by linarith, ⟨fun h' => by linarith, fun h' => absurd h' h⟩, by rw [abs_neg, abs_of_pos a.1]⟩
    have he : th p = th q := by
      have h1 := congrArg Complex.arg hpq
      simp only [hzd] at h1
      rwa [Complex.arg_exp_mul_I, Complex.arg_exp_mul_I, (toIocMod_eq_self _).2, (toIocMod_eq_self _).2] at h1
      · rw [show -π + 2 * π = π by ring]; exact (hb q).1
      · rw [show -π + 2 * π = π by ring]; exact (hb p).1
    have e1 := (hb p).2.2.2
    rw [he, (hb q).2.2.2] at e1
    have e2 := hr.2 _ (by omega) _ (by omega) e1
    have e3 := (hb p).2.2.1
    rw [he] at e3
    have e4 := e3.symm.trans (hb q).2.2.1
    ext
    omega
  have hpow : ∀ k : Fin (2 * m), ∑ p, v p * z p ^ (k : ℕ) = 0 := by
    intro k
    set F : ℕ → ℂ := fun p => (if p % 2 = 0 then ((B (2 * (p / 2)) : ℂ) - B (2 * (p / 2) + 1) * Complex.I) / 2 else ((B (2 * (p / 2)) : ℂ) + B (2 * (p / 2) + 1) * Complex.I) / 2) * Complex.exp (th p * Complex.I) ^ (k : ℕ) with hF
    have e : ∑ p, v p * z p ^ (k : ℕ) = ∑ p : Fin (2 * m), F p := rfl
    have pairs : ∀ m : ℕ, ∑ p ∈ range (2 * m), F p = ∑ i ∈ range m, (F (2 * i) + F (2 * i + 1)) := by
      intro m
      induction m with
      | zero => simp
      | succ m ih => rw [show 2 * (m + 1) = 2 * m + 1 + 1 by ring, sum_range_succ, sum_range_succ, ih, sum_range_succ]; ring
    rw [e, ← Finset.sum_range F, pairs]
    have hk := hz k (by omega)
    have hk' : ((∑ i ∈ range m, (B (2 * i) * cos (gam i * k) + B (2 * i + 1) * sin (gam i * k)) : ℝ) : ℂ) = 0 := by rw [hk]; rfl
    rw [← hk']
    push_cast
    refine sum_congr rfl fun i _ => ?_
    simp only [hF, hth]
    rw [if_pos (by omega), if_pos (by omega), if_neg (by omega), if_neg (by omega), show 2 * i / 2 = i by omega, show (2 * i + 1) / 2 = i by omega, ← Complex.exp_nat_mul, ← Complex.exp_nat_mul]
    rw [show ((k : ℕ) : ℂ) * ((gam i : ℂ) * Complex.I) = ((gam i : ℂ) * (k : ℕ)) * Complex.I by ring, show ((k : ℕ) : ℂ) * (((-gam i : ℝ) : ℂ) * Complex.I) = -((gam i : ℂ) * (k : ℕ)) * Complex.I by push_cast; ring]
    rw [Complex.exp_mul_I, Complex.exp_mul_I, Complex.cos_neg, Complex.sin_neg]
    linear_combination (-(B (2 * i + 1) : ℂ) * Complex.sin ((gam i : ℂ) * (k : ℕ))) * Complex.I_sq
  have hv0 : v = 0 := by
    have hdet : (Matrix.vandermonde z).det ≠ 0 := Matrix.det_vandermonde_ne_zero_iff.2 hinj
    refine Matrix.eq_zero_of_vecMul_eq_zero hdet ?_
    ext k
    simp only [Matrix.vecMul, dotProduct, Matrix.vandermonde_apply, Pi.zero_apply]
    exact hpow k
  intro a
  rw [← hBc]
  have hi : (a : ℕ) / 2 < m := by omega
  have w1 := congrFun hv0 ⟨2 * (a / 2), by omega⟩
  have w2 := congrFun hv0 ⟨2 * (a / 2) + 1, by omega⟩
  simp only [hv, Pi.zero_apply] at w1 w2
  rw [if_pos (by omega), show 2 * ((a : ℕ) / 2) / 2 = a / 2 by omega] at w1
  rw [if_neg (by omega), show (2 * ((a : ℕ) / 2) + 1) / 2 = a / 2 by omega] at w2
  have w3 : (B (2 * (a / 2)) : ℂ) = 0 := by linear_combination w1 + w2
  have w4 : (B (2 * (a / 2) + 1) : ℂ) = 0 := by linear_combination Complex.I * (w1 - w2) + (B (2 * (a / 2) + 1) : ℂ) * Complex.I_sq
  rcases Nat.mod_two_eq_zero_or_one a with h | h
  · rw [show 2 * ((a : ℕ) / 2) = a by omega] at w3
    exact_mod_cast w3
  · rw [show 2 * ((a : ℕ) / 2) + 1 = a by omega] at w4
    exact_mod_cast w4

theorem analysis_sinusoids (junk : Arr1) {gam : ℕ → ℝ} {m N : ℕ} (hr : Resolvable gam m) (d : ℕ → ℝ) :
    (2 * m ≤ N → ∃ r, metricAnalysis junk (2 * m) N N (sinusoids gam) d = .ok r) ∧ (N < 2 * m → metricAnalysis junk (2 * m) N N (sinusoids gam) d = .error .value) := by
  have h := C65_degenerate junk (2 * m) N (sinusoids gam) d
  constructor
  · intro hN
    cases hr' : metricAnalysis junk (2 * m) N N (sinusoids gam) d with
    | ok r => exact ⟨r, rfl⟩
    | error e => exact absurd (independent hr hN) (h.1.1 (h.2.1 ⟨e, hr'⟩))
  · intro hN
    refine h.1.2 fun hi => ?_
    have := hi.fintype_card_le_finrank
    simp at this
    omega

/-! ## C118 -/

/-- **C118** (multiplets).  For distinct frequencies strictly between zero and the Nyquist frequency and the projections of any samples, `multipletAnalysis` returns the least squares fit of the sinusoids if there are at least as many samples as amplitudes, with the other quantities described in `Fits`;
if there are fewer samples it raises a ValueError.  It also raises one if the number of projections is wrong.
Missing: equal or zero frequencies, which give 0/0 and no ValueError (`C118_violated_equal`,
`C118_violated_zero`). -/
theorem C118_multiplet_partial (junk : Arr1) {gam : ℕ → ℝ} {m N : ℕ} {d P : ℕ → ℝ} (hr : Resolvable gam m) (hP : Projections gam m N d P) :
    (2 * m ≤ N → ∃ r, multipletAnalysis junk N m gam (2 * m) P = .ok r ∧ Fits gam m N d r) ∧
    (N < 2 * m → multipletAnalysis junk N m gam (2 * m) P = .error (.exc .value)) ∧
    ∀ nproj, nproj ≠ 2 * m → multipletAnalysis junk N m gam nproj P = .error (.exc .value) := by
  have hf := fine_of (g := fun i => gam (i - 1)) (hgp := fun i j => 0.5 * (gam (i - 1) + gam (j - 1))) (hgm := fun i j => 0.5 * (gam (j - 1) - gam (i - 1))) hr (fun i _ => rfl)
    (fun i j _ _ => by simp only [Nat.add_sub_cancel]; ring) (fun i j _ _ => by simp only [Nat.add_sub_cancel]; ring)
  have he : multipletAnalysis junk N m gam (2 * m) P = match metricAnalysis junk (2 * m) N N (sinusoids gam) d with
      | .error e => .error (.exc e)
      | .ok r => .ok { r with P := P } := by
    rw [← run_eq hf hP]
    unfold multipletAnalysis
    rw [if_neg (by simp)]
    rfl
  obtain ⟨a1, a2⟩ := analysis_sinusoids junk (N := N) hr d
  refine ⟨fun hN => ?_, fun hN => ?_, fun np hnp => ?_⟩
  · obtain ⟨r, hr'⟩ := a1 hN
    rw [he, hr']
    exact ⟨_, rfl, fits_P (fits_of hr') P⟩
  · rw [he, a2 hN]
  · unfold multipletAnalysis
    rw [if_pos (Ne.symm hnp)]

/-- **C118** (harmonics).  The same for `harmonicAnalysis` and the frequencies `gamma`, `2 gamma`, ..., for a positive fundamental whose harmonics all lie below the Nyquist frequency.
Missing: a fundamental of zero (`C118_violated_zero`). -/
theorem C118_harmonics_partial (junk : Arr1) {gamma : ℝ} {m N : ℕ} {d P : ℕ → ℝ} (h0 : 0 < gamma) (h1 : m * gamma < π) (hP : Projections (fun i => (i + 1) * gamma) m N d P) :
    (2 * m ≤ N → ∃ r, harmonicAnalysis junk m N gamma (2 * m) P = .ok r ∧ Fits (fun i => (i + 1) * gamma) m N d r) ∧
    (N < 2 * m → harmonicAnalysis junk m N gamma (2 * m) P = .error (.exc .value)) ∧
    ∀ nproj, nproj ≠ 2 * m → harmonicAnalysis junk m N gamma nproj P = .error (.exc .value) := by
  have hr : Resolvable (fun i => (i + 1) * gamma) m := by
    constructor
    · intro i hi
      have : ((i : ℝ) + 1) ≤ m := by exact_mod_cast hi
      exact ⟨by positivity, lt_of_le_of_lt (mul_le_mul_of_nonneg_right this h0.le) h1⟩
    · intro i _ j _ hij
      have := mul_right_cancel₀ h0.ne' hij
      exact_mod_cast add_right_cancel this
  have hf := fine_of (g := fun i => i * gamma) (hgp := fun i j => 0.5 * (i + j) * gamma) (hgm := fun i j => 0.5 * (j - i) * gamma) hr (fun i _ => by push_cast; rfl)
    (fun i j _ _ => by push_cast; ring) (fun i j _ _ => by push_cast; ring)
  have he : harmonicAnalysis junk m N gamma (2 * m) P = match metricAnalysis junk (2 * m) N N (sinusoids fun i => (i + 1) * gamma) d with
      | .error e => .error (.exc e)
      | .ok r => .ok { r with P := P } := by
    rw [← run_eq hf hP]
    unfold harmonicAnalysis
    rw [if_neg (by simp)]
    rfl
  obtain ⟨a1, a2⟩ := analysis_sinusoids junk (N := N) hr d
  refine ⟨fun hN => ?_, fun hN => ?_, fun np hnp => ?_⟩
  · obtain ⟨r, hr'⟩ := a1 hN
    rw [he, hr']
    exact ⟨_, rfl, fits_P (fits_of hr') P⟩
  · rw [he, a2 hN]
  · unfold harmonicAnalysis
    rw [if_pos (Ne.symm hnp)]

/-- **C118 fails** for frequencies that are not distinct: the singular metric is not reported with the ValueError of `metricAnalysis`; it contains quotients 0/0. -/
theorem C118_violated_equal (junk : Arr1) (N : ℕ) (gamma : ℝ) (d P : ℕ → ℝ) :
    multipletAnalysis junk N 2 (fun _ => gamma) 4 P = .error .nan ∧ metricAnalysis junk 4 N N (sinusoids fun _ => gamma) d = .error .value := by
  constructor
  · unfold multipletAnalysis metricB
    rw [if_neg (by simp)]
    simp only [List.range', List.foldlM_cons, List.foldlM_nil]
    by_cases h : sin gamma = 0
    · simp [blockBody, sameSums, h, bind, Except.bind]
    · simp [blockBody, sameSums, diffSums, h, bind, Except.bind]
  · rw [(C65_degenerate junk 4 N _ d).1, Fintype.linearIndependent_iff]
    intro h
    have := h ![1, 0, -1, 0] (by
      ext k
      simp [Fin.sum_univ_four, mat, sinusoids]) 0
    simp at this

/-- **C118 fails** for a frequency of zero (a constant offset), for the same reason. -/
theorem C118_violated_zero (junk : Arr1) (N : ℕ) (d P : ℕ → ℝ) :
    multipletAnalysis junk N 1 (fun _ => 0) 2 P = .error .nan ∧ metricAnalysis junk 2 N N (sinusoids fun _ => 0) d = .error .value := by
  constructor
  · unfold multipletAnalysis metricB
    rw [if_neg (by simp)]
    simp [List.range', blockBody, sameSums, bind, Except.bind]
  · rw [(C65_degenerate junk 2 N _ d).1, Fintype.linearIndependent_iff]
    intro h
    have := h ![0, 1] (by
      ext k
      simp [Fin.sum_univ_two, mat, sinusoids]) 1
    simp at this

/-- The hypotheses hold for two frequencies and any samples. -/
example (d : ℕ → ℝ) : Resolvable (fun i => i + 1) 2 ∧ ∃ P, Projections (fun i => (i : ℝ) + 1) 2 8 d P := by
  refine ⟨⟨?_, ?_⟩, ?_⟩
  · intro i hi
    have : (i : ℝ) ≤ 1 := by exact_mod_cast (by omega : i ≤ 1)
    exact ⟨by positivity, by linarith [pi_gt_three]⟩
  · intro i _ j _ h
    exact_mod_cast add_right_cancel h
  · refine ⟨proj 4 8 (sinusoids fun i => (i : ℝ) + 1) d, fun i hi => ?_⟩
    rw [proj_val _ _ _ _ (by omega), proj_val _ _ _ _ (by omega)]
    simp only [sinusoids_even, sinusoids_odd, and_self]

example (d : ℕ → ℝ) : 0 < (1 : ℝ) ∧ ((3 : ℕ) : ℝ) * 1 < π ∧ ∃ P, Projections (fun i => ((i : ℝ) + 1) * 1) 3 8 d P := by
  refine ⟨one_pos, by norm_num; exact pi_gt_three, proj 6 8 (sinusoids fun i => ((i : ℝ) + 1) * 1) d, fun i hi => ?_⟩
  rw [proj_val _ _ _ _ (by omega), proj_val _ _ _ _ (by omega)]
  simp only [sinusoids_even, sinusoids_odd, and_self]

end Verif.Bha
