import Verif.Gauss.VbaLemmas

/-!
# The metric of a linear model: C64 to C67
-/

set_option linter.unusedSectionVars false
set_option linter.unusedSimpArgs false

namespace Verif.Vba

open Finset Matrix

/-- The matrix and the vector that arrays stand for. -/
def mat (n m : ℕ) (A : Arr2) : Matrix (Fin n) (Fin m) ℝ := fun i j => A i j
def vec (n : ℕ) (x : Arr1) : Fin n → ℝ := fun i => x i

/-! ## From loops to matrices -/

theorem metric_mat (n N : ℕ) (D : Arr2) : mat n n (metric n N D) = mat n N D * (mat n N D)ᵀ := by
  ext i j
  rw [Matrix.mul_apply]
  simp only [mat, Matrix.transpose_apply]
  rw [metric_val n N D i.2 j.2, Finset.sum_range]

theorem proj_vec (n N : ℕ) (D : Arr2) (d : Arr1) : vec n (proj n N D d) = mat n N D *ᵥ vec N d := by
  ext i
  simp only [Matrix.mulVec, dotProduct, mat, vec]
  rw [proj_val n N D d i.2, Finset.sum_range]

theorem metric_symm (n N : ℕ) (D : Arr2) {i j : ℕ} (hi : i < n) (hj : j < n) : metric n N D i j = metric n N D j i := by
  rw [metric_val n N D hi hj, metric_val n N D hj hi]
  exact sum_congr rfl fun _ _ => mul_comm _ _

/-- The lower triangular matrix of a factorisation. -/
theorem chol_mul {n N : ℕ} {D : Arr2} {s : Chol} (h : CholInv n (metric n N D) n s) :
    mat n n (tidy n s.diag s.cf) * (mat n n (tidy n s.diag s.cf))ᵀ = mat n n (metric n N D) := by
  have hT : ∀ i j : Fin n, i ≤ j → ∑ m : Fin n, tidy n s.diag s.cf i m * tidy n s.diag s.cf j m = metric n N D i j := by
    intro i j hij
    have hij' : (i : ℕ) ≤ j := hij
    rw [← Finset.sum_range (fun m => tidy n s.diag s.cf i m * tidy n s.diag s.cf j m)]
    rw [← Finset.sum_range_add_sum_Ico _ (show (i : ℕ) + 1 ≤ n from i.2)]
    have h0 : ∑ m ∈ Finset.Ico ((i : ℕ) + 1) n, tidy n s.diag s.cf i m * tidy n s.diag s.cf j m = 0 := by
      refine sum_eq_zero fun m hm => ?_
      rw [mem_Ico] at hm
      rw [tidy_val n _ _ i.2 hm.2, if_pos (by omega), zero_mul]
    rw [h0, add_zero, sum_range_succ]
    have h1 : ∑ m ∈ range (i : ℕ), tidy n s.diag s.cf i m * tidy n s.diag s.cf j m = ∑ m ∈ range (i : ℕ), s.cf i m * s.cf j m := by
      refine sum_congr rfl fun m hm => ?_
      rw [mem_range] at hm
      rw [tidy_val n _ _ i.2 (by omega), tidy_val n _ _ j.2 (by omega), if_neg (by omega), if_neg (by omega), if_neg (by omega), if_neg (by omega)]
    rw [h1, tidy_val n _ _ i.2 i.2, if_neg (lt_irrefl _), if_pos rfl]
    rcases hij'.eq_or_lt with h' | h'
    · have : i = j := Fin.ext h'
      subst this
      rw [tidy_val n _ _ i.2 i.2, if_neg (lt_irrefl _), if_pos rfl, h.dia i i.2 i.2]
    · rw [tidy_val n _ _ j.2 i.2, if_neg (by omega), if_neg (by omega), h.low i i.2 j h' j.2]
  ext i j
  rw [Matrix.mul_apply]
  simp only [mat, Matrix.transpose_apply]
  rcases le_total i j with hij | hij
  · exact hT i j hij
  · rw [metric_symm n N D i.2 j.2, ← hT j i hij]
    exact sum_congr rfl fun _ _ => mul_comm _ _

theorem tidy_diag {n : ℕ} (diag : Arr1) (cf : Arr2) {i : ℕ} (hi : i < n) : tidy n diag cf i i = diag i := by
  rw [tidy_val n _ _ hi hi, if_neg (lt_irrefl _), if_pos rfl]

theorem tidy_up {n : ℕ} (diag : Arr1) (cf : Arr2) {i j : ℕ} (hij : i < j) (hj : j < n) : tidy n diag cf i j = 0 := by
  rw [tidy_val n _ _ (by omega) hj, if_pos hij]

theorem lower_det {n : ℕ} {L : Arr2} (hup : ∀ i j, i < j → j < n → L i j = 0) : (mat n n L).det = ∏ i ∈ range n, L i i := by
  rw [Matrix.det_of_lowerTriangular]
  · rw [Finset.prod_range]; rfl
  · intro i j hij
    exact hup i j (by simpa using hij) j.2

theorem amps_solve {n : ℕ} {L : Arr2} (hup : ∀ i j, i < j → j < n → L i j = 0) (hd : ∀ i < n, L i i ≠ 0) (p A0 : Arr1) :
    (mat n n L * (mat n n L)ᵀ) *ᵥ vec n (backward n L (forward n L p A0)) = vec n p := by
  have h1 : (mat n n L)ᵀ *ᵥ vec n (backward n L (forward n L p A0)) = vec n (forward n L p A0) := by
    ext i
    simp only [Matrix.mulVec, dotProduct, mat, vec, Matrix.transpose_apply]
    rw [← Finset.sum_range (fun b => L b i * backward n L (forward n L p A0) b), ← backward_spec n L (forward n L p A0) hd i.2,
      ← Finset.sum_range_add_sum_Ico _ (show (i : ℕ) ≤ n from i.2.le)]
    rw [sum_eq_zero (s := range (i : ℕ)), zero_add]
    intro b hb
    rw [mem_range] at hb
    rw [hup b i hb i.2, zero_mul]
  have h2 : mat n n L *ᵥ vec n (forward n L p A0) = vec n p := by
    ext i
    simp only [Matrix.mulVec, dotProduct, mat, vec]
    rw [← Finset.sum_range (fun b => L i b * forward n L p A0 b), ← forward_spec n L p A0 hd i.2,
      ← Finset.sum_range_add_sum_Ico _ (show (i : ℕ) + 1 ≤ n from i.2)]
    rw [sum_eq_zero (s := Finset.Ico _ _), add_zero]
    intro b hb
    rw [mem_Ico] at hb
    rw [hup i b (by omega) hb.2, zero_mul]
  rw [← Matrix.mulVec_mulVec, h1, h2]

theorem metricAnalysis_ok {junk : Arr1} {n N N' : ℕ} {D : Arr2} {d : Arr1} {r : Stats} (h : metricAnalysis junk n N N' D d = .ok r) :
    N = N' ∧ ∃ s, CholInv n (metric n N D) n s ∧ r.metric = metric n N D ∧ r.L = tidy n s.diag s.cf ∧ r.rdet = s.rdet ∧ r.P = proj n N D d ∧
      r.A = backward n r.L (forward n r.L r.P fun _ => 0) ∧ r.S = ∑ a ∈ range n, r.A a * r.P a := by
  unfold metricAnalysis at h
  by_cases hN : N ≠ N'
  · rw [if_pos hN] at h; cases h
  rw [if_neg hN] at h
  push Not at hN
  dsimp only at h
  cases hc : chol n ⟨metric n N D, junk, 1⟩ with
  | error e => rw [hc] at h; cases h
  | ok s =>
    rw [hc] at h
    simp only [Except.ok.injEq] at h
    subst h
    refine ⟨hN, s, (chol_spec n _ junk).1 s hc, rfl, rfl, rfl, rfl, rfl, ?_⟩
    dsimp only
    rw [forUp_add 0 n (Nat.zero_le _), zero_add, Finset.range_eq_Ico]

/-! ## C64 -/

/-- **C64.**  If the analysis succeeds, the metric is `D Dᵀ` for the design matrix `D`, the projections are `D d`, `L` is lower triangular with a positive diagonal and `L Lᵀ` is the metric,
the amplitudes solve the normal equations, the positive number returned is the root of the determinant of the metric, and the sufficient statistic is `A · P`. -/
theorem C64_analysis {junk : Arr1} {n N N' : ℕ} {D : Arr2} {d : Arr1} {r : Stats} (h : metricAnalysis junk n N N' D d = .ok r) :
    mat n n r.metric = mat n N D * (mat n N D)ᵀ ∧ vec n r.P = mat n N D *ᵥ vec N d ∧
    (∀ i j : Fin n, i < j → mat n n r.L i j = 0) ∧ (∀ i : Fin n, 0 < mat n n r.L i i) ∧ mat n n r.L * (mat n n r.L)ᵀ = mat n n r.metric ∧
    mat n n r.metric *ᵥ vec n r.A = vec n r.P ∧
    0 < r.rdet ∧ r.rdet ^ 2 = (mat n n r.metric).det ∧
    r.S = vec n r.A ⬝ᵥ vec n r.P := by
  obtain ⟨-, s, hinv, e1, e2, e3, e4, e5, e6⟩ := metricAnalysis_ok h
  have hup : ∀ i j, i < j → j < n → r.L i j = 0 := fun i j hij hj => by rw [e2]; exact tidy_up _ _ hij hj
  have hdi : ∀ i < n, r.L i i = s.diag i := fun i hi => by rw [e2]; exact tidy_diag _ _ hi
  have hpos : ∀ i < n, 0 < r.L i i := fun i hi => by rw [hdi i hi]; exact hinv.pos i hi
  have hLL : mat n n r.L * (mat n n r.L)ᵀ = mat n n r.metric := by rw [e1, e2]; exact chol_mul hinv
  have hdet : r.rdet = ∏ i ∈ range n, r.L i i := by
    rw [e3, hinv.det]
    exact prod_congr rfl fun i hi => (hdi i (mem_range.1 hi)).symm
  refine ⟨by rw [e1]; exact metric_mat n N D, by rw [e4]; exact proj_vec n N D d, fun i j hij => hup i j hij j.2, fun i => hpos i i.2, hLL, ?_, ?_, ?_, ?_⟩
  · rw [← hLL, e5]
    exact amps_solve hup (fun i hi => (hpos i hi).ne') _ _
  · rw [hdet]; exact prod_pos fun i hi => hpos i (mem_range.1 hi)
  · rw [← hLL, Matrix.det_mul, Matrix.det_transpose, lower_det hup, hdet]; ring
  · rw [e6, Finset.sum_range]; rfl

/-! ## C65 -/

/-- A pivot that is not positive gives a combination of the rows that vanishes. -/
theorem pivot_dep {n N : ℕ} {D : Arr2} {a : ℕ} {s : Chol} (ha : a < n) (h : CholInv n (metric n N D) a s)
    (hp : metric n N D a a - ∑ m ∈ range a, s.cf a m * s.cf a m ≤ 0) : ∃ x : ℕ → ℝ, x a = 1 ∧ (∀ i, a < i → x i = 0) ∧ ∀ k < N, ∑ i ∈ range (a + 1), x i * D i k = 0 := by
  -- the leading block
  set B : Arr2 := fun i j => if i < j then 0 else if i = j then s.diag i else s.cf i j with hB
  have hdet : (mat a a B).det ≠ 0 := by
    rw [lower_det (by intro i j hij _; simp [hB, hij])]
    refine (prod_pos fun i hi => ?_).ne'
    simp only [hB, lt_irrefl, if_false, if_true]
    exact h.pos i (mem_range.1 hi)
  -- a solution of `Bᵀ y = -(row a)`
  set y : Fin a → ℝ := (mat a a B)ᵀ⁻¹ *ᵥ (fun m : Fin a => -s.cf a m) with hy
  have hsol : (mat a a B)ᵀ *ᵥ y = fun m : Fin a => -s.cf a m := by
    rw [hy, Matrix.mulVec_mulVec, Matrix.mul_nonsing_inv _ (by rw [Matrix.det_transpose]; exact hdet.isUnit), Matrix.one_mulVec]
  set x : ℕ → ℝ := fun i => if hi : i < a then y ⟨i, hi⟩ else if i = a then 1 else 0 with hx
  have hxa : x a = 1 := by simp [hx]
  have hcol : ∀ m < a, ∑ i ∈ range a, x i * B i m = -s.cf a m := by
    intro m hm
    have := congrFun hsol ⟨m, hm⟩
    simp only [Matrix.mulVec, dotProduct, mat, Matrix.transpose_apply] at this
    rw [← this, Finset.sum_range]
    refine sum_congr rfl fun i _ => ?_
    simp only [hx, i.2, dif_pos]; ring
  refine ⟨x, hxa, fun i hi => by simp only [hx]; rw [dif_neg (by omega), if_neg (by omega)], ?_⟩
  -- the metric in terms of the block, extended by row `a`
  set C : Arr2 := fun i m => if i = a then s.cf a m else B i m with hC
  have hG : ∀ i j, i ≤ j → j ≤ a → metric n N D i j = ∑ m ∈ range a, C i m * C j m + if i = a then metric n N D a a - ∑ m ∈ range a, s.cf a m * s.cf a m else 0 := by
    intro i j hij hj
    by_cases hia : i = a
    · have hja : j = a := by omega
      subst hia; subst hja
      simp only [hC, if_true]; ring
    · rw [if_neg hia, add_zero]
      have hi : i < a := by omega
      rw [← Finset.sum_range_add_sum_Ico _ (show i + 1 ≤ a from hi)]
      rw [sum_eq_zero (s := Finset.Ico _ _), add_zero, sum_range_succ]
      · have h1 : ∑ m ∈ range i, C i m * C j m = ∑ m ∈ range i, s.cf i m * s.cf j m := by
          refine sum_congr rfl fun m hm => ?_
          rw [mem_range] at hm
          simp only [hC, hB, if_neg hia]
          rw [if_neg (by omega), if_neg (by omega)]
          split_ifs with h2 h3 h4
          · rw [h2]
          · omega
          · omega
          · rfl
        have h2 : C i i = s.diag i := by simp [hC, hB, hia]
        rw [h1, h2]
        rcases hij.eq_or_lt with h' | h'
        · subst h'
          rw [h.dia i hi (by omega), h2]
        · rw [h.low i hi j h' (by omega)]
          congr 2
          simp only [hC, hB]
          split_ifs with h3 h4 h5
          · rw [h3]
          · omega
          · omega
          · rfl
      · intro m hm
        rw [mem_Ico] at hm
        have : C i m = 0 := by simp only [hC, hB, if_neg hia]; rw [if_pos (by omega)]
        rw [this, zero_mul]
  have hG' : ∀ i j, i ≤ a → j ≤ a → metric n N D i j = ∑ m ∈ range a, C i m * C j m + if i = a ∧ j = a then metric n N D a a - ∑ m ∈ range a, s.cf a m * s.cf a m else 0 := by
    intro i j hi hj
    rcases le_total i j with hij | hij
    · rw [hG i j hij hj]
      by_cases hia : i = a
      · rw [if_pos hia, if_pos ⟨hia, by omega⟩]
      · rw [if_neg hia, if_neg (by omega)]
    · rw [metric_symm n N D (by omega) (by omega), hG j i hij hi]
      congr 1
      · exact sum_congr rfl fun _ _ => mul_comm _ _
      · by_cases hja : j = a
        · rw [if_pos hja, if_pos ⟨by omega, hja⟩]
        · rw [if_neg hja, if_neg (by omega)]
  -- the quadratic form
  have hz : ∀ m < a, ∑ i ∈ range (a + 1), x i * C i m = 0 := by
    intro m hm
    rw [sum_range_succ, hxa]
    have : ∑ i ∈ range a, x i * C i m = ∑ i ∈ range a, x i * B i m := by
      refine sum_congr rfl fun i hi => ?_
      rw [mem_range] at hi
      simp only [hC]; rw [if_neg (by omega)]
    rw [this, hcol m hm]
    simp [hC]
  have hq : ∑ k ∈ range N, (∑ i ∈ range (a + 1), x i * D i k) ^ 2 = metric n N D a a - ∑ m ∈ range a, s.cf a m * s.cf a m := by
    have e1 : ∑ k ∈ range N, (∑ i ∈ range (a + 1), x i * D i k) ^ 2 = ∑ i ∈ range (a + 1), ∑ j ∈ range (a + 1), x i * x j * metric n N D i j := by
      calc ∑ k ∈ range N, (∑ i ∈ range (a + 1), x i * D i k) ^ 2 = ∑ k ∈ range N, ∑ i ∈ range (a + 1), ∑ j ∈ range (a + 1), x i * x j * (D i k * D j k) := by
            refine sum_congr rfl fun k _ => ?_
            rw [sq, sum_mul_sum]
            refine sum_congr rfl fun i _ => sum_congr rfl fun j _ => ?_
            ring
        _ = ∑ i ∈ range (a + 1), ∑ j ∈ range (a + 1), ∑ k ∈ range N, x i * x j * (D i k * D j k) := by
            rw [sum_comm]
            refine sum_congr rfl fun i _ => ?_
            rw [sum_comm]
        _ = _ := by
            refine sum_congr rfl fun i hi => sum_congr rfl fun j hj => ?_
            rw [mem_range] at hi hj
            rw [metric_val n N D (by omega) (by omega), mul_sum]
    have e2 : ∑ i ∈ range (a + 1), ∑ j ∈ range (a + 1), x i * x j * metric n N D i j =
        ∑ m ∈ range a, (∑ i ∈ range (a + 1), x i * C i m) ^ 2 + (metric n N D a a - ∑ m ∈ range a, s.cf a m * s.cf a m) := by
      calc ∑ i ∈ range (a + 1), ∑ j ∈ range (a + 1), x i * x j * metric n N D i j
          = ∑ i ∈ range (a + 1), ∑ j ∈ range (a + 1), (∑ m ∈ range a, x i * x j * (C i m * C j m) +
              (if i = a ∧ j = a then x i * x j * (metric n N D a a - ∑ m ∈ range a, s.cf a m * s.cf a m) else 0)) := by
            refine sum_congr rfl fun i hi => sum_congr rfl fun j hj => ?_
            rw [mem_range] at hi hj
            rw [hG' i j (by omega) (by omega), mul_add, mul_sum]
            congr 1
            split_ifs <;> simp
        _ = ∑ i ∈ range (a + 1), ∑ j ∈ range (a + 1), ∑ m ∈ range a, x i * x j * (C i m * C j m) +
            ∑ i ∈ range (a + 1), ∑ j ∈ range (a + 1), (if i = a ∧ j = a then x i * x j * (metric n N D a a - ∑ m ∈ range a, s.cf a m * s.cf a m) else 0) := by
            rw [← sum_add_distrib]
            refine sum_congr rfl fun i _ => ?_
            rw [sum_add_distrib]
        _ = _ := by
            congr 1
            · calc ∑ i ∈ range (a + 1), ∑ j ∈ range (a + 1), ∑ m ∈ range a, x i * x j * (C i m * C j m)
                  = ∑ m ∈ range a, ∑ i ∈ range (a + 1), ∑ j ∈ range (a + 1), x i * x j * (C i m * C j m) := by
                    rw [sum_comm]
                    conv_rhs => rw [sum_comm]
                    rw [sum_comm]
                    refine sum_congr rfl fun i _ => ?_
                    rw [sum_comm]
                _ = _ := by
                    refine sum_congr rfl fun m _ => ?_
                    rw [sq, sum_mul_sum]
                    refine sum_congr rfl fun i _ => sum_congr rfl fun j _ => ?_
                    ring
            · rw [sum_eq_single a, sum_eq_single a]
              · rw [if_pos ⟨rfl, rfl⟩, hxa]; ring
              · intro j _ hj; rw [if_neg (by tauto)]
              · intro hn; exact absurd (mem_range.2 (by omega)) hn
              · intro i _ hi
                exact sum_eq_zero fun j _ => by rw [if_neg (by tauto)]
              · intro hn; exact absurd (mem_range.2 (by omega)) hn
    rw [e1, e2, sum_eq_zero fun m hm => by rw [hz m (mem_range.1 hm)]; ring, zero_add]
  intro k hk
  have hle : ∑ k ∈ range N, (∑ i ∈ range (a + 1), x i * D i k) ^ 2 ≤ 0 := by rw [hq]; exact hp
  have := (sum_eq_zero_iff_of_nonneg (fun k _ => sq_nonneg (∑ i ∈ range (a + 1), x i * D i k))).1 (le_antisymm hle (sum_nonneg fun k _ => sq_nonneg _)) k (mem_range.2 hk)
  exact pow_eq_zero_iff (two_ne_zero) |>.1 this

/-- **C65.**  For a design matrix with as many columns as there are samples, the analysis raises (a ValueError) exactly if the rows of the design matrix are linearly dependent. -/
theorem C65_degenerate (junk : Arr1) (n N : ℕ) (D : Arr2) (d : Arr1) :
    (metricAnalysis junk n N N D d = .error .value ↔ ¬ LinearIndependent ℝ fun a => mat n N D a) ∧
    ((∃ e, metricAnalysis junk n N N D d = .error e) ↔ metricAnalysis junk n N N D d = .error .value) := by
  have hval : ∀ e, metricAnalysis junk n N N D d = .error e → e = .value := by
    intro e he
    unfold metricAnalysis at he
    rw [if_neg (by simp)] at he
    dsimp only at he
    cases hc : chol n ⟨metric n N D, junk, 1⟩ with
    | error e' =>
      rw [hc] at he
      simp only [Except.error.injEq] at he
      rw [← he]; exact ((chol_spec n _ junk).2 e' hc).1
    | ok s => rw [hc] at he; cases he
  refine ⟨⟨?_, ?_⟩, ⟨fun ⟨e, he⟩ => by rw [he, hval e he], fun h => ⟨_, h⟩⟩⟩
  · intro he hli
    unfold metricAnalysis at he
    rw [if_neg (by simp)] at he
    dsimp only at he
    cases hc : chol n ⟨metric n N D, junk, 1⟩ with
    | error e' =>
      obtain ⟨-, a, s, ha, hinv, hp⟩ := (chol_spec n _ junk).2 e' hc
      obtain ⟨x, hxa, hx0, hsum⟩ := pivot_dep ha hinv hp
      rw [Fintype.linearIndependent_iff] at hli
      have := hli (fun i => x i) (by
        ext k
        simp only [Finset.sum_apply, Pi.smul_apply, smul_eq_mul, mat, Pi.zero_apply]
        rw [← Finset.sum_range (fun i => x i * D i k), ← Finset.sum_range_add_sum_Ico _ (show a + 1 ≤ n from ha), hsum k k.2, zero_add]
        refine sum_eq_zero fun i hi => ?_
        rw [mem_Ico] at hi
        rw [hx0 i (by omega), zero_mul]) ⟨a, ha⟩
      rw [hxa] at this
      exact one_ne_zero this
    | ok s => rw [hc] at he; cases he
  · intro hli
    by_contra hne
    apply hli
    cases hr : metricAnalysis junk n N N D d with
    | error e => exact absurd (by rw [hr, hval e hr]) hne
    | ok r =>
      obtain ⟨hm, -, hup, hpos, hLL, -⟩ := C64_analysis hr
      have hdet : (mat n n r.metric).det ≠ 0 := by
        have h9 := C64_analysis hr
        rw [← h9.2.2.2.2.2.2.2.1]
        exact pow_ne_zero _ h9.2.2.2.2.2.2.1.ne'
      rw [Fintype.linearIndependent_iff]
      intro x hx
      have hDx : (mat n N D)ᵀ *ᵥ x = 0 := by
        rw [← hx]
        ext k
        simp only [Matrix.mulVec, dotProduct, Matrix.transpose_apply, Finset.sum_apply, Pi.smul_apply, smul_eq_mul]
        exact sum_congr rfl fun _ _ => mul_comm _ _
      have hGx : mat n n r.metric *ᵥ x = 0 := by
        rw [hm, ← Matrix.mulVec_mulVec, hDx, Matrix.mulVec_zero]
      have := Matrix.eq_zero_of_mulVec_eq_zero hdet hGx
      intro i
      rw [this]; rfl

/-- **C65** (positive definite).  It raises exactly if the metric is not positive definite. -/
theorem C65_posdef (junk : Arr1) (n N : ℕ) (D : Arr2) (d : Arr1) :
    metricAnalysis junk n N N D d = .error .value ↔ ¬ (mat n N D * (mat n N D)ᵀ).PosDef := by
  rw [(C65_degenerate junk n N D d).1, not_iff_not]
  constructor
  · intro hli
    have hq : ∀ x : Fin n → ℝ, x ⬝ᵥ ((mat n N D * (mat n N D)ᵀ) *ᵥ x) = ((mat n N D)ᵀ *ᵥ x) ⬝ᵥ ((mat n N D)ᵀ *ᵥ x) := by
      intro x
      rw [← Matrix.mulVec_mulVec, Matrix.dotProduct_mulVec, ← Matrix.mulVec_transpose]
    rw [Matrix.posDef_iff_dotProduct_mulVec]
    refine ⟨?_, ?_⟩
    · rw [Matrix.IsHermitian, Matrix.conjTranspose_eq_transpose_of_trivial, Matrix.transpose_mul, Matrix.transpose_transpose]
    · intro x hx
      simp only [star_trivial]
      rw [hq]
      have hne : (mat n N D)ᵀ *ᵥ x ≠ 0 := by
        intro h0
        apply hx
        rw [Fintype.linearIndependent_iff] at hli
        have := hli x (by
          rw [← h0]
          ext k
          simp only [Matrix.mulVec, dotProduct, Matrix.transpose_apply, Finset.sum_apply, Pi.smul_apply, smul_eq_mul]
          exact sum_congr rfl fun _ _ => mul_comm _ _)
        ext i; exact this i
      obtain ⟨k, hk⟩ := Function.ne_iff.1 hne
      rw [dotProduct]
      exact Finset.sum_pos' (fun i _ => mul_self_nonneg _) ⟨k, mem_univ _, mul_self_pos.2 hk⟩
  · intro hpd
    rw [Fintype.linearIndependent_iff]
    intro x hx
    by_contra hc
    push Not at hc
    obtain ⟨i, hi⟩ := hc
    have hDx : (mat n N D)ᵀ *ᵥ x = 0 := by
      rw [← hx]
      ext k
      simp only [Matrix.mulVec, dotProduct, Matrix.transpose_apply, Finset.sum_apply, Pi.smul_apply, smul_eq_mul]
      exact sum_congr rfl fun _ _ => mul_comm _ _
    rw [Matrix.posDef_iff_dotProduct_mulVec] at hpd
    have := hpd.2 (x := x) (fun h0 => hi (by rw [h0]; rfl))
    rw [← Matrix.mulVec_mulVec, hDx, Matrix.mulVec_zero, dotProduct_zero] at this
    exact lt_irrefl _ this

/-- Sizes that do not match raise a ValueError. -/
theorem C65_sizes (junk : Arr1) (n N N' : ℕ) (D : Arr2) (d : Arr1) (h : N ≠ N') : metricAnalysis junk n N N' D d = .error .value := by
  unfold metricAnalysis; rw [if_pos h]

/-- Two orthogonal rows are analysed, and two equal rows are refused. -/
example (junk d : Arr1) : ∃ r, metricAnalysis junk 2 2 2 (fun i j => if i = j then 1 else 0) d = .ok r := by
  have h : LinearIndependent ℝ fun a => mat 2 2 (fun i j => if i = j then 1 else 0) a := by
    rw [Fintype.linearIndependent_iff]
    intro g hg i
    have := congrFun hg i
    fin_cases i <;> simpa [mat, Fin.sum_univ_two] using this
  have := (C65_degenerate junk 2 2 (fun i j => if i = j then 1 else 0) d)
  cases hr : metricAnalysis junk 2 2 2 (fun i j => if i = j then 1 else 0) d with
  | ok r => exact ⟨r, rfl⟩
  | error e => exact absurd h (this.1.1 (this.2.1 ⟨e, hr⟩))

example (junk d : Arr1) : metricAnalysis junk 2 2 2 (fun _ _ => 1) d = .error .value := by
  rw [(C65_degenerate junk 2 2 (fun _ _ => 1) d).1, Fintype.linearIndependent_iff]
  intro h
  have := h (fun i => if i = 0 then 1 else -1) (by ext k; simp [mat, Fin.sum_univ_two]) 0
  simp at this

/-! ## C66 -/

/-- The sum of the squared differences of the data and the model with amplitudes `B`. -/
def chisq (n N : ℕ) (D : Arr2) (d : Arr1) (B : Fin n → ℝ) : ℝ := ∑ k : Fin N, (d k - ∑ a : Fin n, B a * D a k) ^ 2

/-- **C66.**  If the analysis succeeds, `d · d - S` is the sum of the squared residuals at the returned amplitudes, and every other choice of amplitudes gives a larger sum. -/
theorem C66_minimum {junk : Arr1} {n N N' : ℕ} {D : Arr2} {d : Arr1} {r : Stats} (h : metricAnalysis junk n N N' D d = .ok r) :
    (∑ k : Fin N, d k * d k) - r.S = chisq n N D d (vec n r.A) ∧ ∀ B, B ≠ vec n r.A → chisq n N D d (vec n r.A) < chisq n N D d B := by
  obtain ⟨hm, hP, -, -, -, hA, hr0, hdet, hS⟩ := C64_analysis h
  have hchi : ∀ B, chisq n N D d B = (∑ k : Fin N, d k * d k) - 2 * (B ⬝ᵥ vec n r.P) + B ⬝ᵥ (mat n n r.metric *ᵥ B) := by
    intro B
    have e1 : B ⬝ᵥ vec n r.P = ∑ k : Fin N, (∑ a : Fin n, B a * D a k) * d k := by
      rw [hP, Matrix.dotProduct_mulVec]
      simp only [Matrix.vecMul, dotProduct, mat, vec]
    have e2 : B ⬝ᵥ (mat n n r.metric *ᵥ B) = ∑ k : Fin N, (∑ a : Fin n, B a * D a k) * ∑ a : Fin n, B a * D a k := by
      rw [hm, ← Matrix.mulVec_mulVec, Matrix.dotProduct_mulVec]
      simp only [Matrix.vecMul, Matrix.mulVec, dotProduct, mat, Matrix.transpose_apply]
      refine sum_congr rfl fun k _ => ?_
      congr 1
      exact sum_congr rfl fun _ _ => mul_comm _ _
    rw [e1, e2, chisq, mul_sum, ← sum_sub_distrib, ← sum_add_distrib]
    refine sum_congr rfl fun k _ => ?_
    ring
  refine ⟨by rw [hchi, hA, hS]; ring, ?_⟩
  intro B hB
  have hdiff : chisq n N D d B - chisq n N D d (vec n r.A) = (B - vec n r.A) ⬝ᵥ (mat n n r.metric *ᵥ (B - vec n r.A)) := by
    have hsym : vec n r.A ⬝ᵥ (mat n n r.metric *ᵥ B) = B ⬝ᵥ vec n r.P := by
      rw [← hA, Matrix.dotProduct_mulVec, ← Matrix.mulVec_transpose, hm, Matrix.transpose_mul, Matrix.transpose_transpose, dotProduct_comm]
    rw [hchi, hchi, Matrix.mulVec_sub, dotProduct_sub, sub_dotProduct, sub_dotProduct, hsym, hA]
    ring
  have hq : (B - vec n r.A) ⬝ᵥ (mat n n r.metric *ᵥ (B - vec n r.A)) = ((mat n N D)ᵀ *ᵥ (B - vec n r.A)) ⬝ᵥ ((mat n N D)ᵀ *ᵥ (B - vec n r.A)) := by
    rw [hm, ← Matrix.mulVec_mulVec, Matrix.dotProduct_mulVec, ← Matrix.mulVec_transpose]
  have hne : (mat n N D)ᵀ *ᵥ (B - vec n r.A) ≠ 0 := by
    intro h0
    have : mat n n r.metric *ᵥ (B - vec n r.A) = 0 := by rw [hm, ← Matrix.mulVec_mulVec, h0, Matrix.mulVec_zero]
    have h9 := Matrix.eq_zero_of_mulVec_eq_zero (by rw [← hdet]; exact pow_ne_zero _ hr0.ne') this
    exact hB (sub_eq_zero.1 h9)
  obtain ⟨k, hk⟩ := Function.ne_iff.1 hne
  have : 0 < ((mat n N D)ᵀ *ᵥ (B - vec n r.A)) ⬝ᵥ ((mat n N D)ᵀ *ᵥ (B - vec n r.A)) := by
    rw [dotProduct]
    exact Finset.sum_pos' (fun i _ => mul_self_nonneg _) ⟨k, mem_univ _, mul_self_pos.2 hk⟩
  linarith

/-! ## C67 -/

/-- **C67.**  For a lower triangular matrix `L` without zeros on its diagonal, `covar(L)` is symmetric and is the inverse of `L Lᵀ`.  (What the array holds above the diagonal does not matter.) -/
theorem C67_covar {n : ℕ} {L : Arr2} (hd : ∀ i < n, L i i ≠ 0) :
    let T : Matrix (Fin n) (Fin n) ℝ := fun i j => if j ≤ i then L i j else 0
    (mat n n (covar n L))ᵀ = mat n n (covar n L) ∧ mat n n (covar n L) * (T * Tᵀ) = 1 ∧ (T * Tᵀ) * mat n n (covar n L) = 1 := by
  intro T
  have h1 := covar1_spec n L hd
  set K0 := covar1 n L with hK0
  set K : Matrix (Fin n) (Fin n) ℝ := fun i j => if j ≤ i then K0 i j else 0 with hK
  have hTK : T * K = 1 := by
    ext i j
    rw [Matrix.mul_apply]
    have e : ∑ m : Fin n, T i m * K m j = ∑ m ∈ range n, (if m ≤ i then L i m else 0) * (if (j : ℕ) ≤ m then K0 m j else 0) := by
      rw [Finset.sum_range]
      rfl
    rw [e]
    rcases lt_trichotomy i j with hij | hij | hij
    · rw [sum_eq_zero, Matrix.one_apply_ne hij.ne]
      intro m _
      have hij' : (i : ℕ) < j := hij
      by_cases hm : m ≤ i
      · rw [if_neg (show ¬ (j : ℕ) ≤ m by omega), mul_zero]
      · rw [if_neg hm, zero_mul]
    · subst hij
      rw [sum_eq_single (i : ℕ), Matrix.one_apply_eq]
      · rw [if_pos le_rfl, if_pos le_rfl, h1.1 i i.2, mul_one_div_cancel (hd i i.2)]
      · intro m _ hm
        by_cases hmi : m ≤ i
        · rw [if_neg (show ¬ (i : ℕ) ≤ m by omega), mul_zero]
        · rw [if_neg hmi, zero_mul]
      · intro hn; exact absurd (mem_range.2 i.2) hn
    · have hij' : (j : ℕ) < i := hij
      rw [Matrix.one_apply_ne hij.ne']
      refine Eq.trans ?_ (h1.2 j i hij' i.2)
      have hsub : Finset.Ico (j : ℕ) (i + 1) ⊆ range n := by
        intro m hm
        rw [mem_Ico] at hm
        rw [mem_range]
        have := i.2
        omega
      rw [← sum_subset hsub]
      · refine sum_congr rfl fun m hm => ?_
        rw [mem_Ico] at hm
        rw [if_pos (show m ≤ i by omega), if_pos hm.1]
      · intro m _ hm
        rw [mem_Ico] at hm
        by_cases hmi : m ≤ i
        · rw [if_neg (show ¬ (j : ℕ) ≤ m by omega), mul_zero]
        · rw [if_neg hmi, zero_mul]
  have hcov : mat n n (covar n L) = Kᵀ * K := by
    have hC : ∀ i j : Fin n, i ≤ j → covar2 n K0 i j = (Kᵀ * K) i j := by
      intro i j hij
      have hij' : (i : ℕ) ≤ j := hij
      rw [covar2_spec n K0 i j hij j.2, Matrix.mul_apply]
      have e : ∑ m : Fin n, Kᵀ i m * K m j = ∑ m ∈ range n, (if (i : ℕ) ≤ m then K0 m i else 0) * (if (j : ℕ) ≤ m then K0 m j else 0) := by
        rw [Finset.sum_range]
        rfl
      rw [e]
      have hsub : Finset.Ico (j : ℕ) n ⊆ range n := by
        intro m hm
        rw [mem_Ico] at hm
        rw [mem_range]; omega
      rw [← sum_subset hsub]
      · refine sum_congr rfl fun m hm => ?_
        rw [mem_Ico] at hm
        rw [if_pos (show (i : ℕ) ≤ m by omega), if_pos hm.1]
      · intro m hm' hm
        rw [mem_Ico] at hm
        rw [mem_range] at hm'
        rw [if_neg (show ¬ (j : ℕ) ≤ m by omega), mul_zero]
    ext i j
    simp only [mat, covar]
    rw [covar3_spec n _ i j i.2 j.2]
    split_ifs with hij
    · exact hC i j hij
    · rw [hC j i (by omega)]
      have : (Kᵀ * K)ᵀ = Kᵀ * K := by rw [Matrix.transpose_mul, Matrix.transpose_transpose]
      rw [← Matrix.transpose_apply (Kᵀ * K), this]
  have hKT : K * T = 1 := mul_eq_one_comm.1 hTK
  have hKTt : Tᵀ * Kᵀ = 1 := by rw [← Matrix.transpose_mul, hKT, Matrix.transpose_one]
  have hTT : (T * Tᵀ) * (Kᵀ * K) = 1 := by
    rw [Matrix.mul_assoc, ← Matrix.mul_assoc Tᵀ, hKTt, Matrix.one_mul, hTK]
  refine ⟨by rw [hcov, Matrix.transpose_mul, Matrix.transpose_transpose], ?_, by rw [hcov]; exact hTT⟩
  rw [hcov]
  exact mul_eq_one_comm.1 hTT

/-- **C67** (after an analysis).  The covariance computed from the factor that an analysis returned is the inverse of its metric. -/
theorem C67_metric {junk : Arr1} {n N N' : ℕ} {D : Arr2} {d : Arr1} {r : Stats} (h : metricAnalysis junk n N N' D d = .ok r) :
    mat n n (covar n r.L) = (mat n n r.metric)⁻¹ ∧ (mat n n r.metric).det ≠ 0 := by
  obtain ⟨-, -, hup, hpos, hLL, -, hr0, hdet, -⟩ := C64_analysis h
  obtain ⟨-, h1, -⟩ := C67_covar (n := n) (L := r.L) (fun i hi => (hpos ⟨i, hi⟩).ne')
  have hT : (fun i j => if j ≤ i then r.L i j else 0 : Matrix (Fin n) (Fin n) ℝ) = mat n n r.L := by
    ext i j
    by_cases hij : j ≤ i
    · simp [hij, mat]
    · rw [if_neg hij, hup i j (not_le.1 hij)]
  rw [hT, hLL] at h1
  exact ⟨(Matrix.inv_eq_left_inv h1).symm, by rw [← hdet]; exact pow_ne_zero _ hr0.ne'⟩

example : (mat 3 3 (covar 3 fun i j => i + j + 1))ᵀ = mat 3 3 (covar 3 fun i j => i + j + 1) :=
  (C67_covar (n := 3) (L := fun i j => i + j + 1) (fun _ _ => by positivity)).1

end Verif.Vba
