import Verif.Quad.Ccf
import Verif.Quad.TrigLemmas

/-!
# The weights of Fejer's first rule
-/

set_option linter.unusedSectionVars false

namespace Verif.Quad

open Real Finset

/-- The angles of the nodes, in increasing order. -/
noncomputable def f1Th (N k : ℕ) : ℝ := π * (k + 1 / 2) / N

/-- A term of the sum for a weight. -/
noncomputable def f1R (N k j : ℕ) : ℝ := if j < N - N / 2 then 2 / (1 - 4 * (j : ℝ) ^ 2) * cos (2 * j * f1Th N k) else 0

theorem f1V0_term {N : ℕ} (k j : ℕ) :
    (f1V0 N j * Complex.exp (2 * π * Complex.I * j * k / N)).re = f1R N k j := by
  unfold f1V0 f1R
  simp only []
  split_ifs with h
  · have e : 2 * Complex.exp (Complex.I * π * j / N) / (1 - 4 * (j : ℂ) ^ 2) * Complex.exp (2 * π * Complex.I * j * k / N) =
        ((2 / (1 - 4 * (j : ℝ) ^ 2) : ℝ) : ℂ) * Complex.exp (((2 * j * f1Th N k : ℝ) : ℂ) * Complex.I) := by
      have : (((2 * j * f1Th N k : ℝ) : ℂ) * Complex.I) = Complex.I * π * j / N + 2 * π * Complex.I * j * k / N := by
        unfold f1Th; push_cast; ring
      rw [this, Complex.exp_add]
      push_cast
      ring
    rw [e, Complex.re_ofReal_mul, Complex.exp_ofReal_mul_I_re]
  · simp

theorem f1Wt_eq {N : ℕ} (hN : 0 < N) (k : ℕ) :
    f1Wt N k = (2 * ∑ j ∈ range (N - N / 2), 2 / (1 - 4 * (j : ℝ) ^ 2) * cos (2 * j * f1Th N k) - 2) / N := by
  have hN0 : (N : ℝ) ≠ 0 := by positivity
  have hN1 : (N : ℂ) ≠ 0 := by exact_mod_cast hN.ne'
  unfold f1Wt ifft
  rw [show ((N : ℕ) : ℂ) = ((N : ℝ) : ℂ) by simp, Complex.div_ofReal_re, Complex.re_sum]
  congr 1
  have e : ∀ j ∈ range N, (f1V1 N j * Complex.exp (2 * π * Complex.I * j * k / ((N : ℝ) : ℂ))).re = f1R N k j + f1R N k (N - j) := by
    intro j hj
    have hj' := mem_range.1 hj
    unfold f1V1
    rw [add_mul, Complex.add_re, show (((N : ℝ) : ℂ)) = (N : ℂ) by simp, f1V0_term, ← f1V0_term k (N - j)]
    congr 1
    rw [← Complex.conj_re (f1V0 N (N - j) * _), map_mul]
    congr 2
    rw [← Complex.exp_conj]
    have h1 : (starRingEnd ℂ) (2 * π * Complex.I * ((N - j : ℕ) : ℂ) * k / N) = 2 * π * Complex.I * j * k / N - ((k : ℕ) : ℂ) * (2 * π * Complex.I) := by
      simp only [map_div₀, map_mul, Complex.conj_ofReal, Complex.conj_I, map_natCast]
      rw [Nat.cast_sub hj'.le]
      have : (starRingEnd ℂ) 2 = 2 := by
        rw [show (2 : ℂ) = ((2 : ℕ) : ℂ) by simp, map_natCast]
      rw [this]
      field_simp
      ring
    rw [h1, Complex.exp_sub, Complex.exp_nat_mul_two_pi_mul_I, div_one]
  rw [sum_congr rfl e, sum_add_distrib]
  have hrev : ∑ j ∈ range N, f1R N k (N - j) = ∑ j ∈ range N, f1R N k (j + 1) := by
    rw [← sum_range_reflect (fun j => f1R N k (j + 1))]
    refine sum_congr rfl fun j hj => ?_
    have := mem_range.1 hj
    congr 1; omega
  have hs : ∑ j ∈ range N, f1R N k (j + 1) = ∑ j ∈ range N, f1R N k j + f1R N k N - f1R N k 0 := by
    have := sum_range_succ (fun j => f1R N k j) N
    rw [sum_range_succ'] at this
    linarith
  have h0 : f1R N k 0 = 2 := by unfold f1R; rw [if_pos (by omega)]; simp
  have hn : f1R N k N = 0 ∨ N = 1 ∧ f1R N k N = 0 := by
    left; unfold f1R
    rw [if_neg (by omega)]
  have hn' : f1R N k N = 0 := by rcases hn with h | h; exacts [h, h.2]
  have hm : ∑ j ∈ range N, f1R N k j = ∑ j ∈ range (N - N / 2), 2 / (1 - 4 * (j : ℝ) ^ 2) * cos (2 * j * f1Th N k) := by
    have hN' : N = (N - N / 2) + N / 2 := by omega
    have h := sum_range_add (fun j => f1R N k j) (N - N / 2) (N / 2)
    rw [← hN'] at h
    rw [h]
    have z : ∑ x ∈ range (N / 2), f1R N k (N - N / 2 + x) = 0 := by
      refine sum_eq_zero fun x _ => ?_
      unfold f1R; rw [if_neg (by omega)]
    rw [z, add_zero]
    refine sum_congr rfl fun j hj => ?_
    unfold f1R; rw [if_pos (mem_range.1 hj)]
  rw [hrev, hs, h0, hn', hm]; ring

/-- Sums of cosines over the nodes. -/
theorem f1_sum {N : ℕ} (hN : 0 < N) (a : ℤ) (ha : a.natAbs < N) :
    ∑ k ∈ range N, cos (2 * a * f1Th N k) = if a = 0 then (N : ℝ) else 0 := by
  have hN0 : (N : ℝ) ≠ 0 := by positivity
  split_ifs with h
  · subst h; simp
  · have hs : sin (π * a / N) ≠ 0 := by
      intro h0
      obtain ⟨m, hm⟩ := Real.sin_eq_zero_iff.1 h0
      have : (m : ℝ) * N = a := by
        have hp := Real.pi_ne_zero
        field_simp at hm
        linarith
      have h2 : m * (N : ℤ) = a := by exact_mod_cast this
      have h3 : m.natAbs * N = a.natAbs := by rw [← h2, Int.natAbs_mul, Int.natAbs_natCast]
      have h4 : m.natAbs = 0 := by
        by_contra hc
        have : 1 ≤ m.natAbs := Nat.one_le_iff_ne_zero.2 hc
        nlinarith
      rw [h4] at h3
      omega
    have h1 := Bha.sum_cos (π * a / N) N
    have h2 := Bha.sum_sin (π * a / N) N
    have e : (N : ℝ) * (π * a / N) = a * π := by field_simp
    rw [e, Real.sin_int_mul_pi, mul_zero] at h1 h2
    have h1' := (mul_eq_zero.1 h1).resolve_left hs
    have h2' := (mul_eq_zero.1 h2).resolve_left hs
    have : ∀ k ∈ range N, cos (2 * a * f1Th N k) = cos (π * a / N) * cos (2 * (π * a / N) * k) - sin (π * a / N) * sin (2 * (π * a / N) * k) := by
      intro k _
      rw [← cos_add]
      congr 1
      unfold f1Th; field_simp; ring
    rw [sum_congr rfl this, sum_sub_distrib, ← mul_sum, ← mul_sum, h1', h2']
    ring

theorem f1Th_rev {N k : ℕ} (hN : 0 < N) (hk : k < N) : f1Th N (N - 1 - k) = π - f1Th N k := by
  have hN0 : (N : ℝ) ≠ 0 := by positivity
  unfold f1Th
  have : ((N - 1 - k : ℕ) : ℝ) = N - 1 - k := by
    rw [Nat.cast_sub (by omega), Nat.cast_sub (by omega)]; simp
  rw [this]; field_simp; ring

theorem f1Wt_symm {N k : ℕ} (hN : 0 < N) (hk : k < N) : f1Wt N (N - 1 - k) = f1Wt N k := by
  rw [f1Wt_eq hN, f1Wt_eq hN, f1Th_rev hN hk]
  congr 3
  refine sum_congr rfl fun j _ => ?_
  congr 1
  have : 2 * (j : ℝ) * (π - f1Th N k) = (j : ℝ) * (2 * π) - 2 * j * f1Th N k := by ring
  rw [this, Real.cos_nat_mul_two_pi_sub]

theorem f1Wt_even {N i : ℕ} (hN : 0 < N) (hi : 2 * i < N) :
    ∑ k ∈ range N, f1Wt N k * cos (2 * i * f1Th N k) = 2 / (1 - 4 * (i : ℝ) ^ 2) := by
  have hN0 : (N : ℝ) ≠ 0 := by positivity
  have e : ∀ k ∈ range N, f1Wt N k * cos (2 * i * f1Th N k) =
      (∑ j ∈ range (N - N / 2), (2 / (1 - 4 * (j : ℝ) ^ 2) / N) * (cos (2 * (((j : ℤ) - i : ℤ) : ℝ) * f1Th N k) + cos (2 * (((j : ℤ) + i : ℤ) : ℝ) * f1Th N k)))
        - 2 / N * cos (2 * ((i : ℤ) : ℝ) * f1Th N k) := by
    intro k _
    rw [f1Wt_eq hN, sub_div, sub_mul, Int.cast_natCast]
    congr 1
    rw [mul_sum, sum_div, sum_mul]
    refine sum_congr rfl fun j _ => ?_
    have e1 : 2 * (((j : ℤ) - i : ℤ) : ℝ) * f1Th N k = 2 * j * f1Th N k - 2 * i * f1Th N k := by push_cast; ring
    have e2 : 2 * (((j : ℤ) + i : ℤ) : ℝ) * f1Th N k = 2 * j * f1Th N k + 2 * i * f1Th N k := by push_cast; ring
    rw [e1, e2, cos_add, cos_sub]
    ring
  rw [sum_congr rfl e, sum_sub_distrib, sum_comm, ← mul_sum, f1_sum hN _ (by simpa using (by omega : i < N))]
  have e' : ∀ j ∈ range (N - N / 2), ∑ k ∈ range N, (2 / (1 - 4 * (j : ℝ) ^ 2) / N) * (cos (2 * (((j : ℤ) - i : ℤ) : ℝ) * f1Th N k) + cos (2 * (((j : ℤ) + i : ℤ) : ℝ) * f1Th N k)) =
      if j = i then 2 / (1 - 4 * (j : ℝ) ^ 2) * (if i = 0 then 2 else 1) else 0 := by
    intro j hj
    have hj' := mem_range.1 hj
    rw [← mul_sum, sum_add_distrib, f1_sum hN _ (by omega), f1_sum hN _ (by omega)]
    have h1 : ((j : ℤ) - i = 0) ↔ j = i := by omega
    simp only [h1]
    by_cases hji : j = i
    · subst hji
      rw [if_pos rfl, if_pos rfl]
      by_cases h0 : j = 0
      · subst h0; simp; field_simp; norm_num
      · rw [if_neg (by omega), if_neg h0]; field_simp; ring
    · rw [if_neg hji, if_neg hji, if_neg (by omega)]; ring
  rw [sum_congr rfl e', sum_ite_eq', if_pos (mem_range.2 (by omega))]
  by_cases h0 : i = 0
  · subst h0; simp; field_simp; norm_num
  · rw [if_neg h0, if_neg (by exact_mod_cast h0)]; ring

/-- Exactness for the cosines. -/
theorem f1Wt_cos {N : ℕ} (hN : 0 < N) (j : ℕ) (hj : j < N) :
    ∑ k ∈ range N, f1Wt N k * cos (j * f1Th N k) = ∫ t in (0 : ℝ)..π, cos (j * t) * sin t := by
  rw [integral_cos_sin]
  split_ifs with h
  · obtain ⟨i, rfl⟩ : ∃ i, j = 2 * i := ⟨j / 2, by omega⟩
    have := f1Wt_even hN (i := i) (by omega)
    have e : ((2 * i : ℕ) : ℝ) = 2 * i := by push_cast; rfl
    rw [e, this]; congr 1; ring
  · have hr := sum_range_reflect (fun k => f1Wt N k * cos (j * f1Th N k)) N
    have : ∑ k ∈ range N, f1Wt N (N - 1 - k) * cos (j * f1Th N (N - 1 - k)) = - ∑ k ∈ range N, f1Wt N k * cos (j * f1Th N k) := by
      rw [← sum_neg_distrib]
      refine sum_congr rfl fun k hk => ?_
      have hk' := mem_range.1 hk
      rw [f1Wt_symm hN hk', f1Th_rev hN hk', mul_sub, Real.cos_nat_mul_pi_sub, Odd.neg_one_pow (Nat.odd_iff.2 (by omega))]; ring
    linarith

theorem f1Node_eq {N k : ℕ} (hN : 0 < N) (hk : k < N) : f1Node N k = cos (f1Th N (N - 1 - k)) := by
  unfold f1Node f1Th
  congr 3
  rw [Nat.cast_sub hk.le, Nat.cast_sub (by omega), Nat.cast_sub (by omega)]; push_cast; ring

/-- The rule on [-1, 1] is exact. -/
theorem f1_exact {N n : ℕ} (hN : N = n + 1) (p : Polynomial ℝ) (hp : p.natDegree ≤ n) :
    ∑ k ∈ range N, f1Wt N k * p.eval (f1Node N k) = ∫ x in (-1 : ℝ)..1, p.eval x := by
  have hN0 : 0 < N := by omega
  rw [← exact_poly (N := N) (n := n) (w := f1Wt N) (th := f1Th N) (fun j hj => f1Wt_cos hN0 j (by omega)) p hp]
  rw [← sum_range_reflect (fun k => f1Wt N k * p.eval (cos (f1Th N k)))]
  refine sum_congr rfl fun k hk => ?_
  have hk' := mem_range.1 hk
  rw [f1Node_eq hN0 hk', f1Wt_symm hN0 hk']

theorem f1_tele (m : ℕ) : ∑ j ∈ range (m + 1), 2 / (1 - 4 * (j : ℝ) ^ 2) = 1 + 1 / (2 * (m : ℝ) + 1) := by
  induction m with
  | zero => norm_num
  | succ m ih =>
    rw [sum_range_succ, ih]
    have h1 : (2 * (m : ℝ) + 1) ≠ 0 := by positivity
    have h2 : (2 * ((m + 1 : ℕ) : ℝ) + 1) ≠ 0 := by positivity
    have h3 : (1 - 4 * ((m + 1 : ℕ) : ℝ) ^ 2) = -((2 * (m : ℝ) + 1) * (2 * ((m + 1 : ℕ) : ℝ) + 1)) := by push_cast; ring
    rw [h3]
    field_simp
    push_cast
    ring

/-- The weights are positive. -/
theorem f1Wt_pos {N : ℕ} (hN : 0 < N) (k : ℕ) : 0 < f1Wt N k := by
  have hN0 : (0 : ℝ) < N := by positivity
  rw [f1Wt_eq hN]
  apply div_pos _ hN0
  obtain ⟨m, hm⟩ : ∃ m, N - N / 2 = m + 1 := ⟨N - N / 2 - 1, by omega⟩
  rw [hm]
  have h : ∑ j ∈ range (m + 1), 2 / (1 - 4 * (j : ℝ) ^ 2) ≤ ∑ j ∈ range (m + 1), 2 / (1 - 4 * (j : ℝ) ^ 2) * cos (2 * j * f1Th N k) := by
    refine sum_le_sum fun j _ => ?_
    rcases Nat.eq_zero_or_pos j with rfl | hj
    · simp
    · have hj1 : (1 : ℝ) ≤ j := by exact_mod_cast hj
      have h2 : 2 / (1 - 4 * (j : ℝ) ^ 2) ≤ 0 := by
        apply div_nonpos_of_nonneg_of_nonpos (by norm_num); nlinarith
      have := Real.cos_le_one (2 * j * f1Th N k)
      nlinarith
  rw [f1_tele] at h
  have : 0 < 1 / (2 * (m : ℝ) + 1) := by positivity
  linarith

theorem f1Node_lt {N i j : ℕ} (hij : i < j) (hj : j < N) : f1Node N i < f1Node N j := by
  have hN0 : (0 : ℝ) < N := by exact_mod_cast (by omega : 0 < N)
  have hc : ((N - j : ℕ) : ℝ) < ((N - i : ℕ) : ℝ) := by exact_mod_cast (by omega : N - j < N - i)
  have hc1 : (1 : ℝ) ≤ ((N - j : ℕ) : ℝ) := by exact_mod_cast (by omega : 1 ≤ N - j)
  have hc2 : ((N - i : ℕ) : ℝ) ≤ N := by exact_mod_cast Nat.sub_le N i
  unfold f1Node
  apply Real.cos_lt_cos_of_nonneg_of_le_pi
  · apply div_nonneg _ hN0.le
    apply mul_nonneg Real.pi_pos.le
    norm_num; linarith
  · rw [div_le_iff₀ hN0]
    apply mul_le_mul_of_nonneg_left _ Real.pi_pos.le
    norm_num; linarith
  · apply div_lt_div_of_pos_right _ hN0
    apply mul_lt_mul_of_pos_left _ Real.pi_pos
    linarith

theorem f1Node_inside {N k : ℕ} (hk : k < N) : -1 < f1Node N k ∧ f1Node N k < 1 := by
  have hN0 : (0 : ℝ) < N := by exact_mod_cast (by omega : 0 < N)
  have hc1 : (1 : ℝ) ≤ ((N - k : ℕ) : ℝ) := by exact_mod_cast (by omega : 1 ≤ N - k)
  have hc2 : ((N - k : ℕ) : ℝ) ≤ N := by exact_mod_cast Nat.sub_le N k
  have h1 : 0 < π * (((N - k : ℕ) : ℝ) - 0.5) / N := by
    apply div_pos _ hN0
    apply mul_pos Real.pi_pos; norm_num; linarith
  have h2 : π * (((N - k : ℕ) : ℝ) - 0.5) / N < π := by
    rw [div_lt_iff₀ hN0]
    apply mul_lt_mul_of_pos_left _ Real.pi_pos
    norm_num; linarith
  unfold f1Node
  constructor
  · rw [← cos_pi]
    exact Real.cos_lt_cos_of_nonneg_of_le_pi h1.le le_rfl h2
  · rw [← cos_zero]
    exact Real.cos_lt_cos_of_nonneg_of_le_pi le_rfl h2.le h1

end Verif.Quad
