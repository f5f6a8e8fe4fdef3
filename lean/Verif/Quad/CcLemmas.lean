import Verif.Quad.Ccf
import Verif.Quad.TrigLemmas

/-!
# The weights of the Clenshaw-Curtis rule
-/

set_option linter.unusedSectionVars false

namespace Verif.Quad

open Real Finset

/-- The real part of an inverse transform of real numbers. -/
theorem ifft_re (n : ℕ) (d : ℕ → ℝ) (k : ℕ) :
    (ifft n (fun j => (d j : ℂ)) k).re = (∑ j ∈ range n, d j * cos (2 * π * j * k / n)) / n := by
  unfold ifft
  rw [show ((n : ℕ) : ℂ) = ((n : ℝ) : ℂ) by simp, Complex.div_ofReal_re, Complex.re_sum]
  congr 1
  refine sum_congr rfl fun j _ => ?_
  rw [Complex.re_ofReal_mul]
  have : 2 * (π : ℂ) * Complex.I * j * k / ((n : ℝ) : ℂ) = ((2 * π * j * k / n : ℝ) : ℂ) * Complex.I := by
    push_cast; ring
  rw [this, Complex.exp_ofReal_mul_I_re]

/-- The transform of the weights. -/
noncomputable def ccD (n j : ℕ) : ℝ := ccV2 n j + ccG n j

/-- The denominator of `g`. -/
noncomputable def ccDen (n : ℕ) : ℝ := (n : ℝ) ^ 2 - 1 + ((n % 2 : ℕ) : ℝ)

theorem ccDen_pos {n : ℕ} (hn : 2 ≤ n) : 0 < ccDen n := by
  unfold ccDen
  have h2 : (2 : ℝ) ≤ n := by exact_mod_cast hn
  have : (0 : ℝ) ≤ ((n % 2 : ℕ) : ℝ) := by positivity
  nlinarith

theorem ccD_symm {n j : ℕ} (hj : 0 < j) (hjn : j < n) : ccD n (n - j) = ccD n j := by
  have e : n - (n - j) = j := by omega
  unfold ccD ccV2 ccG ccG0
  rw [e]
  have h1 : (n - j = n / 2) ↔ (j = n - n / 2) := by omega
  have h2 : (n - j = n - n / 2) ↔ (j = n / 2) := by omega
  simp only [h1, h2]
  ring

theorem ccV0_sum (l : ℕ) : ∑ j ∈ range l, 2 / odds j / (odds j - 2) = -1 - 1 / (2 * (l : ℝ) - 1) := by
  induction l with
  | zero => norm_num
  | succ l ih =>
    rw [sum_range_succ, ih]
    unfold odds
    have h1 : (2 * (l : ℝ) - 1) ≠ 0 := by
      intro h
      have : (2 * (l : ℤ)) = 1 := by
        have h' : (2 * (l : ℝ)) = 1 := by linarith
        exact_mod_cast h'
      omega
    have h2 : (1 + 2 * (l : ℝ)) ≠ 0 := by positivity
    have h3 : (1 + 2 * (l : ℝ) - 2) ≠ 0 := by intro h; apply h1; linarith
    have h4 : (2 * (l + 1 : ℝ) - 1) ≠ 0 := by intro h; apply h2; linarith
    push_cast
    field_simp
    ring

theorem ccV0_total {n : ℕ} (hn : 2 ≤ n) : ∑ j ∈ range n, ccV0 n j = -1 := by
  have hl : n / 2 + 1 ≤ n := by omega
  obtain ⟨r, hr⟩ := Nat.exists_eq_add_of_le hl
  have : ∑ j ∈ range n, ccV0 n j = ∑ j ∈ range (n / 2 + 1), ccV0 n j := by
    have hs := sum_range_add (fun j => ccV0 n j) (n / 2 + 1) r
    rw [← hr] at hs
    rw [hs]
    have : ∑ x ∈ range r, ccV0 n (n / 2 + 1 + x) = 0 := by
      refine sum_eq_zero fun x _ => ?_
      unfold ccV0
      simp only []
      rw [if_neg (by omega), if_neg (by omega)]
    rw [this, add_zero]
  rw [this, sum_range_succ]
  have e1 : ∑ j ∈ range (n / 2), ccV0 n j = ∑ j ∈ range (n / 2), 2 / odds j / (odds j - 2) := by
    refine sum_congr rfl fun j hj => ?_
    unfold ccV0
    simp only []
    rw [if_pos (mem_range.1 hj)]
  have e2 : ccV0 n (n / 2) = 1 / odds (n / 2 - 1) := by
    unfold ccV0; simp
  rw [e1, e2, ccV0_sum]
  have : odds (n / 2 - 1) = 2 * ((n / 2 : ℕ) : ℝ) - 1 := by
    unfold odds
    have : 1 ≤ n / 2 := by omega
    rw [Nat.cast_sub this]; push_cast; ring
  rw [this]; ring

theorem ccD_total {n : ℕ} (hn : 2 ≤ n) : ∑ j ∈ range n, ccD n j = n / ccDen n := by
  have hv : ∑ j ∈ range n, ccV2 n j = 0 := by
    unfold ccV2
    rw [sum_sub_distrib, sum_neg_distrib]
    have hrev : ∑ j ∈ range n, ccV0 n (n - j) = ∑ j ∈ range n, ccV0 n (j + 1) := by
      rw [← sum_range_reflect (fun j => ccV0 n (j + 1))]
      refine sum_congr rfl fun j hj => ?_
      have := mem_range.1 hj
      congr 1; omega
    have hs : ∑ j ∈ range n, ccV0 n (j + 1) = ∑ j ∈ range n, ccV0 n j + ccV0 n n - ccV0 n 0 := by
      have := sum_range_succ (fun j => ccV0 n j) n
      rw [sum_range_succ'] at this
      linarith
    have h0 : ccV0 n 0 = -2 := by
      unfold ccV0; simp only []
      rw [if_pos (by omega)]; unfold odds; norm_num
    have hn' : ccV0 n n = 0 := by
      unfold ccV0; simp only []
      rw [if_neg (by omega), if_neg (by omega)]
    rw [hrev, hs, h0, hn', ccV0_total hn]; norm_num
  have hg : ∑ j ∈ range n, ccG n j = n / ccDen n := by
    unfold ccG ccDen
    rw [← sum_div]
    congr 1
    unfold ccG0
    simp only [sum_add_distrib]
    rw [sum_ite_eq', sum_ite_eq', if_pos (mem_range.2 (by omega)), if_pos (mem_range.2 (by omega))]
    simp
  unfold ccD
  rw [sum_add_distrib, hv, hg, zero_add]

/-- The transform at the frequencies that matter. -/
theorem ccD_eq {n j : ℕ} (hn : 2 ≤ n) (hj : 2 * j ≤ n) : ccD n j + 1 / ccDen n = 2 / (1 - (2 * (j : ℝ)) ^ 2) := by
  have hD := (ccDen_pos hn).ne'
  have hodd : ∀ i : ℕ, (2 * (i : ℝ) - 1) ≠ 0 := by
    intro i h
    have h' : (2 * (i : ℝ)) = 1 := by linarith
    have : 2 * (i : ℤ) = 1 := by exact_mod_cast h'
    omega
  have hodd' : ∀ i : ℕ, (2 * (i : ℝ) + 1) ≠ 0 := fun i => by positivity
  have hsq : ∀ i : ℕ, (1 - (2 * (i : ℝ)) ^ 2) ≠ 0 := by
    intro i h
    have : (2 * (i : ℝ) - 1) * (2 * i + 1) = 0 := by linarith
    rcases mul_eq_zero.1 this with h | h
    · exact hodd i h
    · exact hodd' i h
  unfold ccD ccG
  rw [show ((n : ℝ) ^ 2 - 1 + ((n % 2 : ℕ) : ℝ)) = ccDen n from rfl]
  rcases Nat.lt_or_ge j (n / 2) with h | h
  · have e1 : ccV0 n j = 2 / odds j / (odds j - 2) := by unfold ccV0; simp only []; rw [if_pos h]
    have e2 : ccV0 n (n - j) = 0 := by unfold ccV0; simp only []; rw [if_neg (by omega), if_neg (by omega)]
    have e3 : ccG0 n j = -1 := by unfold ccG0; simp only []; rw [if_neg (by omega), if_neg (by omega)]; ring
    unfold ccV2
    rw [e1, e2, e3]
    unfold odds
    have a1 := hodd j
    have a2 := hodd' j
    have a3 := hsq j
    have a4 : (1 + 2 * (j : ℝ)) ≠ 0 := by rw [add_comm]; exact a2
    have a5 : (1 + 2 * (j : ℝ) - 2) ≠ 0 := by intro h; apply a1; linarith
    have a6 : (1 - (2 * (j : ℝ)) ^ 2) = -((1 + 2 * j - 2) * (1 + 2 * j)) := by ring
    rw [a6]
    field_simp
    ring
  · have hjl : j = n / 2 := by omega
    have ho : odds (n / 2 - 1) = 2 * (j : ℝ) - 1 := by
      unfold odds
      have h1 : 1 ≤ n / 2 := by omega
      rw [Nat.cast_sub h1, ← hjl]; push_cast; ring
    have e1 : ccV0 n j = 1 / (2 * (j : ℝ) - 1) := by
      unfold ccV0; simp only []; rw [if_neg (by omega), if_pos hjl, ho]
    have a1 := hodd j
    have a2 := hodd' j
    have a3 := hsq j
    rcases Nat.even_or_odd' n with ⟨c, hc | hc⟩
    · have hj2 : n = 2 * j := by omega
      have e2 : ccV0 n (n - j) = 1 / (2 * (j : ℝ) - 1) := by
        have : n - j = j := by omega
        rw [this, e1]
      have e3 : ccG0 n j = -1 + 2 * (2 * (j : ℝ)) := by
        unfold ccG0; simp only []; rw [if_pos hjl, if_pos (by omega), hj2]; push_cast; ring
      have eD : ccDen n = -(1 - (2 * (j : ℝ)) ^ 2) := by
        unfold ccDen
        have : n % 2 = 0 := by omega
        rw [this, hj2]; push_cast; ring
      unfold ccV2
      rw [e1, e2, e3, eD]
      have : (1 - (2 * (j : ℝ)) ^ 2) = -((2 * j - 1) * (2 * j + 1)) := by ring
      rw [this]
      field_simp
      ring
    · have hj2 : n = 2 * j + 1 := by omega
      have e2 : ccV0 n (n - j) = 0 := by unfold ccV0; simp only []; rw [if_neg (by omega), if_neg (by omega)]
      have e3 : ccG0 n j = 2 * (j : ℝ) := by
        unfold ccG0; simp only []; rw [if_pos hjl, if_neg (by omega), hj2]; push_cast; ring
      have eD : ccDen n = (2 * (j : ℝ) + 1) ^ 2 := by
        unfold ccDen
        have : n % 2 = 1 := by omega
        rw [this, hj2]; push_cast; ring
      unfold ccV2
      rw [e1, e2, e3, eD]
      have : (1 - (2 * (j : ℝ)) ^ 2) = -((2 * j - 1) * (2 * j + 1)) := by ring
      rw [this]
      field_simp
      ring

theorem ccWt_lt {n k : ℕ} (hk : k < n) : ccWt n k = (∑ j ∈ range n, ccD n j * cos (2 * π * j * k / n)) / n := by
  unfold ccWt
  rw [if_pos hk, ifft_re]; rfl

theorem ccWt_zero {n : ℕ} (hn : 2 ≤ n) : ccWt n 0 = 1 / ccDen n := by
  have hn0 : (n : ℝ) ≠ 0 := by positivity
  rw [ccWt_lt (by omega)]
  simp only [Nat.cast_zero, mul_zero, zero_div, cos_zero, mul_one]
  rw [ccD_total hn]
  field_simp

theorem ccWt_last {n : ℕ} (hn : 2 ≤ n) : ccWt n n = ccWt n 0 := by
  unfold ccWt
  rw [if_neg (by omega), if_pos (by omega)]

theorem ccWt_symm {n k : ℕ} (hn : 2 ≤ n) (hk : k ≤ n) : ccWt n (n - k) = ccWt n k := by
  rcases Nat.eq_zero_or_pos k with rfl | hk0
  · rw [Nat.sub_zero, ccWt_last hn]
  rcases Nat.lt_or_ge k n with h | h
  · rw [ccWt_lt h, ccWt_lt (by omega)]
    congr 1
    refine sum_congr rfl fun j _ => ?_
    congr 1
    have hn0 : (n : ℝ) ≠ 0 := by positivity
    have : 2 * π * j * ((n - k : ℕ) : ℝ) / n = (j : ℝ) * (2 * π) - 2 * π * j * k / n := by
      rw [Nat.cast_sub hk]; field_simp
    rw [this, Real.cos_nat_mul_two_pi_sub]
  · have : k = n := by omega
    subst this
    rw [Nat.sub_self, ccWt_last hn]

/-- Inversion of the transform. -/
theorem ccWt_transform {n i : ℕ} (hn : 2 ≤ n) (hi : i < n) :
    ∑ k ∈ range n, ccWt n k * cos (2 * π * i * k / n) = ccD n i := by
  have hn0 : (n : ℝ) ≠ 0 := by positivity
  have e : ∀ k ∈ range n, ccWt n k * cos (2 * π * i * k / n) =
      ∑ j ∈ range n, (ccD n j / (2 * n)) * (cos (2 * π * ((j : ℤ) - i : ℤ) * k / n) + cos (2 * π * ((j : ℤ) + i : ℤ) * k / n)) := by
    intro k hk
    rw [ccWt_lt (mem_range.1 hk), sum_div, sum_mul]
    refine sum_congr rfl fun j _ => ?_
    have e1 : 2 * π * (((j : ℤ) - i : ℤ) : ℝ) * k / n = 2 * π * j * k / n - 2 * π * i * k / n := by push_cast; ring
    have e2 : 2 * π * (((j : ℤ) + i : ℤ) : ℝ) * k / n = 2 * π * j * k / n + 2 * π * i * k / n := by push_cast; ring
    rw [e1, e2, cos_add, cos_sub]
    field_simp
    ring
  rw [sum_congr rfl e, sum_comm]
  have e' : ∀ j ∈ range n, ∑ k ∈ range n, (ccD n j / (2 * n)) * (cos (2 * π * ((j : ℤ) - i : ℤ) * k / n) + cos (2 * π * ((j : ℤ) + i : ℤ) * k / n)) =
      (if j = i then ccD n j / 2 else 0) + (if j = (n - i) % n then ccD n j / 2 else 0) := by
    intro j hj
    have hj' := mem_range.1 hj
    rw [← mul_sum, sum_add_distrib, sum_cos_period (by omega), sum_cos_period (by omega)]
    have h1 : ((n : ℤ) ∣ (j : ℤ) - i) ↔ j = i := by
      constructor
      · intro ⟨c, hc⟩
        rcases lt_trichotomy c 0 with h | h | h
        · nlinarith
        · subst h; omega
        · nlinarith
      · rintro rfl; simp
    have h2 : ((n : ℤ) ∣ (j : ℤ) + i) ↔ j = (n - i) % n := by
      rcases Nat.eq_zero_or_pos i with rfl | hi0
      · rw [Nat.sub_zero, Nat.mod_self]
        have := h1
        simpa using this
      · rw [Nat.mod_eq_of_lt (by omega)]
        constructor
        · intro ⟨c, hc⟩
          have : c = 1 := by
            rcases lt_trichotomy c 1 with h | h | h
            · nlinarith
            · exact h
            · nlinarith
          subst this; omega
        · intro h; refine ⟨1, ?_⟩; omega
    simp only [h1, h2]
    split_ifs <;> field_simp <;> ring
  rw [sum_congr rfl e', sum_add_distrib, sum_ite_eq', sum_ite_eq', if_pos (mem_range.2 hi), if_pos (mem_range.2 (Nat.mod_lt _ (by omega)))]
  rcases Nat.eq_zero_or_pos i with rfl | hi0
  · rw [Nat.sub_zero, Nat.mod_self]; ring
  · rw [Nat.mod_eq_of_lt (by omega), ccD_symm hi0 hi]; ring

/-- Exactness for the cosines. -/
theorem ccWt_cos {n : ℕ} (hn : 2 ≤ n) (j : ℕ) (hj : j ≤ n) :
    ∑ k ∈ range (n + 1), ccWt n k * cos (j * (π * k / n)) = ∫ t in (0 : ℝ)..π, cos (j * t) * sin t := by
  rw [integral_cos_sin]
  have hn0 : (n : ℝ) ≠ 0 := by positivity
  split_ifs with h
  · obtain ⟨i, rfl⟩ : ∃ i, j = 2 * i := ⟨j / 2, by omega⟩
    have e : ∀ k : ℕ, ((2 * i : ℕ) : ℝ) * (π * k / n) = 2 * π * i * k / n := by intro k; push_cast; ring
    simp only [e]
    rw [sum_range_succ, ccWt_transform hn (by omega), ccWt_last hn, ccWt_zero hn]
    have : 2 * π * i * (n : ℝ) / n = (i : ℝ) * (2 * π) := by field_simp
    rw [this, Real.cos_nat_mul_two_pi, mul_one, ccD_eq hn hj]
    push_cast; rfl
  · have hr := sum_range_reflect (fun k => ccWt n k * cos (j * (π * k / n))) (n + 1)
    have : ∑ k ∈ range (n + 1), ccWt n (n + 1 - 1 - k) * cos (j * (π * ((n + 1 - 1 - k : ℕ) : ℝ) / n)) =
        - ∑ k ∈ range (n + 1), ccWt n k * cos (j * (π * k / n)) := by
      rw [← sum_neg_distrib]
      refine sum_congr rfl fun k hk => ?_
      have hk' : k ≤ n := by have := mem_range.1 hk; omega
      rw [show n + 1 - 1 - k = n - k by omega, ccWt_symm hn hk']
      have : (j : ℝ) * (π * ((n - k : ℕ) : ℝ) / n) = (j : ℝ) * π - j * (π * k / n) := by
        rw [Nat.cast_sub hk']; field_simp
      rw [this, Real.cos_nat_mul_pi_sub, Odd.neg_one_pow (Nat.odd_iff.2 (by omega))]; ring
    linarith

/-- The rule on [-1, 1] is exact. -/
theorem cc_exact {n : ℕ} (hn : 2 ≤ n) (p : Polynomial ℝ) (hp : p.natDegree ≤ n) :
    ∑ k ∈ range (n + 1), ccWt n k * p.eval (ccNode n k) = ∫ x in (-1 : ℝ)..1, p.eval x := by
  rw [← exact_poly (N := n + 1) (n := n) (w := ccWt n) (th := fun k => π * k / n) (fun j hj => ccWt_cos hn j hj) p hp]
  rw [← sum_range_reflect]
  refine sum_congr rfl fun k hk => ?_
  have hk' : k ≤ n := by have := mem_range.1 hk; omega
  rw [show n + 1 - 1 - k = n - k by omega, ccWt_symm hn hk']
  unfold ccNode
  rw [show n - (n - k) = k by omega]

/-- The weights are positive. -/
theorem ccWt_pos {n k : ℕ} (hn : 2 ≤ n) (hk : k ≤ n) : 0 < ccWt n k := by
  have hD := ccDen_pos hn
  have h0 : 0 < ccWt n 0 := by rw [ccWt_zero hn]; positivity
  rcases Nat.lt_or_ge k n with h | h
  · refine lt_of_lt_of_le h0 ?_
    rw [ccWt_lt h, ccWt_lt (show 0 < n by omega)]
    apply div_le_div_of_nonneg_right _ (by positivity)
    refine sum_le_sum fun j hj => ?_
    simp only [Nat.cast_zero, mul_zero, zero_div, cos_zero, mul_one]
    rcases Nat.eq_zero_or_pos j with rfl | hj0
    · simp
    · have hneg : ccD n j ≤ 0 := by
        have hj' := mem_range.1 hj
        have key : ∀ i, 0 < i → 2 * i ≤ n → ccD n i ≤ 0 := by
          intro i hi hin
          have := ccD_eq hn hin
          have h1 : 0 < 1 / ccDen n := by positivity
          have hi1 : (1 : ℝ) ≤ i := by exact_mod_cast hi
          have h2 : 2 / (1 - (2 * (i : ℝ)) ^ 2) ≤ 0 := by
            apply div_nonpos_of_nonneg_of_nonpos (by norm_num); nlinarith
          linarith
        by_cases hc : 2 * j ≤ n
        · exact key j hj0 hc
        · rw [← ccD_symm hj0 hj']; exact key _ (by omega) (by omega)
      have := Real.cos_le_one (2 * π * j * k / n)
      nlinarith
  · have : k = n := by omega
    rw [this, ccWt_last hn]; exact h0

/-- The nodes. -/
theorem ccNode_zero {n : ℕ} (hn : 0 < n) : ccNode n 0 = -1 := by
  have hn0 : (n : ℝ) ≠ 0 := by positivity
  unfold ccNode
  rw [Nat.sub_zero, mul_div_assoc, div_self hn0, mul_one, cos_pi]

theorem ccNode_last (n : ℕ) : ccNode n n = 1 := by
  unfold ccNode; simp

theorem ccNode_lt {n i j : ℕ} (hij : i < j) (hj : j ≤ n) : ccNode n i < ccNode n j := by
  have hn0 : (0 : ℝ) < n := by exact_mod_cast (by omega : 0 < n)
  unfold ccNode
  apply Real.cos_lt_cos_of_nonneg_of_le_pi
  · positivity
  · rw [div_le_iff₀ hn0]
    apply mul_le_mul_of_nonneg_left _ Real.pi_pos.le
    exact_mod_cast Nat.sub_le n i
  · apply div_lt_div_of_pos_right _ hn0
    apply mul_lt_mul_of_pos_left _ Real.pi_pos
    exact_mod_cast (by omega : n - j < n - i)

end Verif.Quad
