import Verif.Quad.Fcc
import Verif.Quad.CcfProps

/-!
# C231: fast Clenshaw-Curtis rule; C232: fast Chebyshev transform
-/

namespace Verif.Quad

open Real Finset

/-! ## The transform of symmetric columns -/

theorem mirror_symm {N : ℕ} (c : ℕ → ℝ) {j : ℕ} (h0 : 0 < j) (h : j < 2 * N) : mirror N c (2 * N - j) = mirror N c j := by
  unfold mirror
  split_ifs with h1 h2 h2
  · rw [show 2 * N - j = j by omega]
  · rfl
  · rw [show 2 * N - (2 * N - j) = j by omega]
  · omega

theorem fcF_eq (N : ℕ) (c : ℕ → ℝ) (k : ℕ) :
    fcF N c k = (∑ j ∈ range (2 * N), mirror N c j * cos (2 * π * j * k / (2 * N : ℕ))) / (2 * N : ℕ) := by
  unfold fcF
  exact ifft_re (2 * N) (mirror N c) k

theorem fcF_symm {N : ℕ} (hN : 1 ≤ N) (c : ℕ → ℝ) {k : ℕ} (hk : k ≤ 2 * N) : fcF N c (2 * N - k) = fcF N c k := by
  rw [fcF_eq, fcF_eq]
  congr 1
  refine sum_congr rfl fun j _ => ?_
  congr 1
  have hn0 : ((2 * N : ℕ) : ℝ) ≠ 0 := by positivity
  have : 2 * π * j * ((2 * N - k : ℕ) : ℝ) / (2 * N : ℕ) = (j : ℝ) * (2 * π) - 2 * π * j * k / (2 * N : ℕ) := by
    rw [Nat.cast_sub hk]; field_simp
  rw [this, Real.cos_nat_mul_two_pi_sub]

/-- Inversion of the transform of a symmetric array. -/
theorem transform_inv {n i : ℕ} (hn : 2 ≤ n) (hi : i < n) (d : ℕ → ℝ) (hd : ∀ j, 0 < j → j < n → d (n - j) = d j) :
    ∑ k ∈ range n, (∑ j ∈ range n, d j * cos (2 * π * j * k / n)) / n * cos (2 * π * i * k / n) = d i := by
  have hn0 : (n : ℝ) ≠ 0 := by positivity
  have e : ∀ k ∈ range n, (∑ j ∈ range n, d j * cos (2 * π * j * k / n)) / n * cos (2 * π * i * k / n) =
      ∑ j ∈ range n, (d j / (2 * n)) * (cos (2 * π * ((j : ℤ) - i : ℤ) * k / n) + cos (2 * π * ((j : ℤ) + i : ℤ) * k / n)) := by
    intro k hk
    rw [sum_div, sum_mul]
    refine sum_congr rfl fun j _ => ?_
    have e1 : 2 * π * (((j : ℤ) - i : ℤ) : ℝ) * k / n = 2 * π * j * k / n - 2 * π * i * k / n := by push_cast; ring
    have e2 : 2 * π * (((j : ℤ) + i : ℤ) : ℝ) * k / n = 2 * π * j * k / n + 2 * π * i * k / n := by push_cast; ring
    rw [e1, e2, cos_add, cos_sub]
    field_simp
    ring
  rw [sum_congr rfl e, sum_comm]
  have e' : ∀ j ∈ range n, ∑ k ∈ range n, (d j / (2 * n)) * (cos (2 * π * ((j : ℤ) - i : ℤ) * k / n) + cos (2 * π * ((j : ℤ) + i : ℤ) * k / n)) =
      (if j = i then d j / 2 else 0) + (if j = (n - i) % n then d j / 2 else 0) := by
    intro j hj
    have hj' := mem_range.1 hj
    rw [← mul_sum, sum_add_distrib, sum_cos_period (by omega), sum_cos_period (by omega)]
    have h1 : ((n : ℤ) ∣ (j : ℤ) - i) ↔ j = i := by
      constructor
      · intro ⟨c, hc⟩
        rcases lt_trichotomy c 0 with h | h | h
        · nlinarith
        · subst h; omega
        · nlinarith
      · rintro rfl; simp
    have h2 : ((n : ℤ) ∣ (j : ℤ) + i) ↔ j = (n - i) % n := by
      rcases Nat.eq_zero_or_pos i with rfl | hi0
      · rw [Nat.sub_zero, Nat.mod_self]
        have := h1
        simpa using this
      · rw [Nat.mod_eq_of_lt (by omega)]
        constructor
        · intro ⟨c, hc⟩
          have : c = 1 := by
            rcases lt_trichotomy c 1 with h | h | h
            · nlinarith
            · exact h
            · nlinarith
          subst this; omega
        · intro h; refine ⟨1, ?_⟩; omega
    simp only [h1, h2]
    split_ifs <;> field_simp <;> ring
  rw [sum_congr rfl e', sum_add_distrib, sum_ite_eq', sum_ite_eq', if_pos (mem_range.2 hi), if_pos (mem_range.2 (Nat.mod_lt _ (by omega)))]
  rcases Nat.eq_zero_or_pos i with rfl | hi0
  · rw [Nat.sub_zero, Nat.mod_self]; ring
  · rw [Nat.mod_eq_of_lt (by omega), hd i hi0 hi]; ring

/-- A symmetric sum over a period, folded. -/
theorem fold_sum {N : ℕ} (hN : 1 ≤ N) (g : ℕ → ℝ) (hg : ∀ k, N < k → k < 2 * N → g k = g (2 * N - k)) :
    ∑ k ∈ range (2 * N), g k = ∑ k ∈ range (N + 1), (if k = 0 ∨ k = N then g k else 2 * g k) := by
  obtain ⟨M, rfl⟩ : ∃ M, N = M + 1 := ⟨N - 1, by omega⟩
  rw [show 2 * (M + 1) = (M + 2) + M by ring, sum_range_add]
  have e1 : ∑ x ∈ range M, g (M + 2 + x) = ∑ x ∈ range M, g (x + 1) := by
    rw [← sum_range_reflect]
    refine sum_congr rfl fun x hx => ?_
    have := mem_range.1 hx
    rw [hg _ (by omega) (by omega)]
    congr 1; omega
  rw [e1, show M + 1 + 1 = M + 2 from rfl, sum_range_succ _ (M + 1), sum_range_succ' _ M, sum_range_succ (n := M + 1), sum_range_succ' _ M]
  have e2 : ∑ k ∈ range M, (if k + 1 = 0 ∨ k + 1 = M + 1 then g (k + 1) else 2 * g (k + 1)) = ∑ k ∈ range M, 2 * g (k + 1) := by
    refine sum_congr rfl fun x hx => ?_
    have := mem_range.1 hx
    rw [if_neg (by omega)]
  rw [e2, ← mul_sum, if_pos (Or.inl rfl), if_pos (Or.inr rfl)]
  ring

theorem fcF_fold {N i : ℕ} (hN : 1 ≤ N) (hi : i ≤ N) (c : ℕ → ℝ) :
    ∑ k ∈ range (N + 1), (if k = 0 ∨ k = N then fcF N c k else 2 * fcF N c k) * cos (i * (π * k / N)) = c i := by
  have hn0 : (N : ℝ) ≠ 0 := by positivity
  have ec : ∀ k : ℕ, cos (i * (π * k / N)) = cos (2 * π * i * k / (2 * N : ℕ)) := by
    intro k; congr 1; push_cast; field_simp
  have h := transform_inv (n := 2 * N) (i := i) (by omega) (by omega) (mirror N c) (fun j h0 h => mirror_symm c h0 h)
  rw [fold_sum hN] at h
  · rw [show mirror N c i = c i by simp [mirror, hi]] at h
    rw [← h]
    refine sum_congr rfl fun k _ => ?_
    rw [ec k, fcF_eq]
    split_ifs <;> ring
  · intro k h1 h2
    rw [← fcF_eq, ← fcF_eq, fcF_symm hN c (by omega)]
    congr 1
    have : 2 * π * i * ((2 * N - k : ℕ) : ℝ) / (2 * N : ℕ) = (i : ℝ) * (2 * π) - 2 * π * i * k / (2 * N : ℕ) := by
      rw [Nat.cast_sub (by omega)]; push_cast; field_simp
    rw [this, Real.cos_nat_mul_two_pi_sub]

/-! ## C231 -/

theorem fcC1_eq (j : ℕ) : fcC1 j = ∫ t in (0 : ℝ)..π, cos (j * t) * sin t := by
  rw [integral_cos_sin, fcC1]
  rcases Nat.mod_two_eq_zero_or_one j with h | h
  · rw [if_neg (by omega), if_pos h]
    split_ifs with h0
    · subst h0; norm_num
    · rfl
  · rw [if_pos h, if_neg (by omega)]

theorem fcX_eq {N : ℕ} (hN : 2 ≤ N) (a b : ℝ) (k : ℕ) : fcX N a b k = 0.5 * (b - a) * cos (π * k / N) + 0.5 * (a + b) := by
  have hn0 : (N : ℝ) ≠ 0 := by positivity
  have : fcF N fcC2 k = cos (π * k / N) / N := by
    rw [fcF_eq]
    have e : ∀ j ∈ range (2 * N), mirror N fcC2 j * cos (2 * π * j * k / (2 * N : ℕ)) =
        (if j = 1 then cos (π * k / N) else 0) + (if j = 2 * N - 1 then cos (π * k / N) else 0) := by
      intro j hj
      have hj' := mem_range.1 hj
      unfold mirror fcC2
      by_cases h1 : j = 1
      · subst h1
        rw [if_pos (by omega), if_pos rfl, if_pos rfl, if_neg (by omega), one_mul, add_zero]
        congr 1; push_cast; field_simp
      · by_cases h2 : j = 2 * N - 1
        · subst h2
          rw [if_neg (by omega), if_pos (by omega), if_neg h1, if_pos rfl, one_mul, zero_add]
          have : 2 * π * ((2 * N - 1 : ℕ) : ℝ) * k / (2 * N : ℕ) = (k : ℝ) * (2 * π) - π * k / N := by
            rw [Nat.cast_sub (by omega)]; push_cast; field_simp
          rw [this, Real.cos_nat_mul_two_pi_sub]
        · rw [if_neg h1, if_neg h1, if_neg h2, if_neg (show ¬ 2 * N - j = 1 by omega)]
          simp
    rw [sum_congr rfl e, sum_add_distrib, sum_ite_eq', sum_ite_eq', if_pos (mem_range.2 (by omega)), if_pos (mem_range.2 (by omega))]
    push_cast
    field_simp
    ring
  rw [fcX, this]
  field_simp
  ring

/-- **C231** (partial): from three points on, in any interval, the nodes are the extreme points of the Chebyshev polynomial moved to the interval, from the upper end to the lower, and the rule integrates exactly every polynomial whose degree is below the number of points. Missing: two points, see `C231_violated_two`. -/
theorem C231_fclencurt_partial (N : ℕ) (hN : 2 ≤ N) (a b : ℝ) :
    fcX N a b 0 = b ∧ fcX N a b N = a ∧
    (∀ k, fcX N a b k = (a + b) / 2 + (b - a) / 2 * cos (π * k / N)) ∧
    ∀ p : Polynomial ℝ, p.natDegree ≤ N → ∑ k ∈ range (N + 1), fcW N a b k * p.eval (fcX N a b k) = ∫ x in a..b, p.eval x := by
  have hn0 : (N : ℝ) ≠ 0 := by positivity
  refine ⟨?_, ?_, fun k => by rw [fcX_eq hN]; ring, ?_⟩
  · rw [fcX_eq hN]; simp; ring
  · rw [fcX_eq hN, mul_div_assoc, div_self hn0, mul_one, cos_pi]; ring
  · intro p hp
    rw [integral_poly_scale]
    have hq : (p.comp (Polynomial.C (0.5 * (b - a)) * Polynomial.X + Polynomial.C (0.5 * (a + b)))).natDegree ≤ N := by
      refine Polynomial.natDegree_comp_le.trans ?_
      have : (Polynomial.C (0.5 * (b - a)) * Polynomial.X + Polynomial.C (0.5 * (a + b))).natDegree ≤ 1 := Polynomial.natDegree_linear_le
      calc p.natDegree * _ ≤ p.natDegree * 1 := Nat.mul_le_mul_left _ this
        _ ≤ N := by omega
    have := exact_poly (N := N + 1) (n := N)
      (w := fun k => if k = 0 ∨ k = N then fcF N fcC1 k else 2 * fcF N fcC1 k) (th := fun k => π * k / N)
      (fun j hj => by rw [fcF_fold (by omega) hj, fcC1_eq]) _ hq
    simp only [Polynomial.eval_comp, Polynomial.eval_add, Polynomial.eval_mul, Polynomial.eval_C, Polynomial.eval_X] at this
    rw [← this, mul_sum]
    refine sum_congr rfl fun k _ => ?_
    rw [fcX_eq hN, fcW]
    ring

/-- **C231** (violated): with two points the nodes are not the ends of the interval but a quarter of it inside. -/
theorem C231_violated_two (a b : ℝ) :
    fcX 1 a b 0 = (a + 3 * b) / 4 ∧ fcX 1 a b 1 = (3 * a + b) / 4 := by
  have h0 : fcF 1 fcC2 0 = 1 / 2 := by
    rw [fcF_eq]; simp [sum_range_succ, mirror, fcC2]
  have h1 : fcF 1 fcC2 1 = -1 / 2 := by
    rw [fcF_eq]
    simp [sum_range_succ, mirror, fcC2]
  constructor
  · rw [fcX, h0]; norm_num; ring
  · rw [fcX, h1]; norm_num; ring

/-- The rule with five points integrates `x^4` over `[0,2]`. -/
example : ∑ k ∈ range 5, fcW 4 0 2 k * (Polynomial.X ^ 4 : Polynomial ℝ).eval (fcX 4 0 2 k) = ∫ x in (0 : ℝ)..2, (Polynomial.X ^ 4 : Polynomial ℝ).eval x :=
  (C231_fclencurt_partial 4 (by norm_num) 0 2).2.2.2 _ (by simp)

/-! ## C232 -/

theorem fft_re (n : ℕ) (d : ℕ → ℝ) (k : ℕ) :
    (fft n (fun j => (d j : ℂ)) k).re = ∑ j ∈ range n, d j * cos (2 * π * j * k / n) := by
  unfold fft
  rw [Complex.re_sum]
  refine sum_congr rfl fun j _ => ?_
  rw [Complex.re_ofReal_mul]
  congr 1
  rw [show -(2 * π * Complex.I * j * k / n : ℂ) = ((-(2 * π * j * k / n) : ℝ) : ℂ) * Complex.I by push_cast; ring,
    Complex.exp_ofReal_mul_I_re, cos_neg]

/-- The value at the node `cos(kπ/M)` of the Chebyshev series with the coefficients `B`. -/
noncomputable def chebSeries (M : ℕ) (B : ℕ → ℝ) (k : ℕ) : ℝ := ∑ j ∈ range (M + 1), B j * cos (j * (π * k / M))

theorem toNodal_eq {M : ℕ} (hM : 1 ≤ M) (B : ℕ → ℝ) (k : ℕ) :
    toNodal M B k = chebSeries M B k - B M / 2 * (-1) ^ k := by
  have hn0 : (M : ℝ) ≠ 0 := by positivity
  unfold toNodal chebSeries
  rw [fft_re, fold_sum hM]
  · obtain ⟨L, rfl⟩ : ∃ L, M = L + 1 := ⟨M - 1, by omega⟩
    rw [sum_range_succ, sum_range_succ (n := L + 1), if_pos (Or.inr rfl), if_neg (by omega)]
    have eM : cos (2 * π * (L + 1 : ℕ) * k / (2 * (L + 1) : ℕ)) = (-1) ^ k := by
      rw [← cos_nat_mul_pi]; congr 1; push_cast; field_simp
    have eM' : cos ((L + 1 : ℕ) * (π * k / (L + 1 : ℕ))) = (-1) ^ k := by
      rw [← cos_nat_mul_pi]; congr 1; field_simp
    rw [eM, eM', show mirror (L + 1) B (L + 1) = B (L + 1) by simp [mirror]]
    have : ∀ j ∈ range (L + 1), (if j = 0 ∨ j = L + 1 then (if j = 0 then B 0 else mirror (L + 1) B j / 2) * cos (2 * π * j * k / (2 * (L + 1) : ℕ))
        else 2 * ((if j = 0 then B 0 else mirror (L + 1) B j / 2) * cos (2 * π * j * k / (2 * (L + 1) : ℕ)))) = B j * cos (j * (π * k / (L + 1 : ℕ))) := by
      intro j hj
      have hj' := mem_range.1 hj
      have ec : cos (2 * π * j * k / (2 * (L + 1) : ℕ)) = cos (j * (π * k / (L + 1 : ℕ))) := by
        congr 1; push_cast; field_simp
      rw [ec]
      by_cases h0 : j = 0
      · subst h0; simp
      · rw [if_neg (by omega), if_neg h0, show mirror (L + 1) B j = B j by simp [mirror, hj'.le]]
        ring
    rw [sum_congr rfl this]
    ring
  · intro j h1 h2
    rw [if_neg (by omega), if_neg (by omega), mirror_symm B (by omega) h2]
    congr 1
    have : 2 * π * ((2 * M - j : ℕ) : ℝ) * k / (2 * M : ℕ) = (k : ℝ) * (2 * π) - 2 * π * j * k / (2 * M : ℕ) := by
      rw [Nat.cast_sub (by omega)]; push_cast; field_simp
    rw [this, Real.cos_nat_mul_two_pi_sub]

theorem toSpectral_series {M : ℕ} (hM : 1 ≤ M) (A : ℕ → ℝ) (k : ℕ) (hk : k ≤ M) :
    chebSeries M (toSpectral M A) k = A k := by
  rw [← fcF_fold hM hk A, chebSeries]
  refine sum_congr rfl fun j _ => ?_
  rw [toSpectral]
  congr 2
  ring

/-- **C232** (partial): for every number of nodes and all data, the coefficients of the forward transform are those of the Chebyshev series through the data; the backward transform gives the values of the series if its highest coefficient is zero; so the two transforms together give the data back if and only if the highest coefficient of the data is zero. Missing: all other data. -/
theorem C232_transform_partial (M : ℕ) (hM : 1 ≤ M) :
    (∀ A : ℕ → ℝ, ∀ k ≤ M, chebSeries M (toSpectral M A) k = A k) ∧
    (∀ B : ℕ → ℝ, B M = 0 → ∀ k, toNodal M B k = chebSeries M B k) ∧
    ∀ A : ℕ → ℝ, (∀ k ≤ M, toNodal M (toSpectral M A) k = A k) ↔ toSpectral M A M = 0 := by
  refine ⟨fun A k hk => toSpectral_series hM A k hk, fun B hB k => by rw [toNodal_eq hM, hB]; ring, fun A => ⟨fun h => ?_, fun h k hk => ?_⟩⟩
  · have := h 0 (Nat.zero_le _)
    rw [toNodal_eq hM, toSpectral_series hM A 0 (Nat.zero_le _)] at this
    simp at this
    linarith
  · rw [toNodal_eq hM, toSpectral_series hM A k hk, h]; ring

/-- **C232** (violated): the highest polynomial itself, `T_M` with the values 1, -1, 1, ... at the nodes, comes back halved, for every number of nodes. -/
theorem C232_violated_highest (M : ℕ) (hM : 1 ≤ M) (k : ℕ) :
    chebSeries M (fun j => if j = M then 1 else 0) k = (-1) ^ k ∧
    toNodal M (fun j => if j = M then 1 else 0) k = (-1) ^ k / 2 := by
  have hn0 : (M : ℝ) ≠ 0 := by positivity
  have h : chebSeries M (fun j => if j = M then 1 else 0) k = (-1) ^ k := by
    unfold chebSeries
    simp only
    rw [sum_range_succ, if_pos rfl, sum_eq_zero, zero_add, one_mul, ← cos_nat_mul_pi]
    · congr 1; field_simp
    · intro j hj
      have := mem_range.1 hj
      rw [if_neg (by omega), zero_mul]
  refine ⟨h, ?_⟩
  rw [toNodal_eq hM, h]
  simp only [if_true]
  ring

/-- Constant data satisfy the condition of `C232_transform_partial`: with three nodes the highest coefficient of a constant is zero. -/
example : toSpectral 2 (fun _ => 1) 2 = 0 := by
  rw [toSpectral, if_pos (Or.inr rfl), fcF_eq]
  have h1 : cos (2 * π * 1 * 2 / 4) = -1 := by rw [← cos_pi]; congr 1; ring
  have h2 : cos (2 * π * 2 * 2 / 4) = 1 := by rw [← cos_two_pi]; congr 1; ring
  have h3 : cos (2 * π * 3 * 2 / 4) = -1 := by
    rw [show 2 * π * 3 * 2 / 4 = π + 2 * π by ring, cos_add_two_pi, cos_pi]
  simp [sum_range_succ, mirror]
  norm_num at h1 h2 h3 ⊢
  linarith

end Verif.Quad
