import Verif.Deriv.LogDet
import Mathlib.Analysis.SpecificLimits.Basic
import Mathlib.Tactic.Ring
import Mathlib.Tactic.Linarith
import Mathlib.Tactic.Positivity
import Mathlib.Tactic.NormNum

/-!
# C235: the log determinant kept as mantissa and exponent
-/

namespace Verif.Deriv.LogDet

open Real

theorem log16 : log 16 = 4 * log 2 := by
  rw [show (16 : ℝ) = 2 ^ 4 by norm_num, log_pow]
  norm_num

theorem down_ends : ∀ n (d1 d2 : ℝ), 0 < d1 → d1 < 16 ^ n → ∀ fuel, n < fuel →
    ∃ a b, down fuel d1 d2 = some (a, b) ∧ 0 < a ∧ a < 1 ∧ log a + b * log 2 = log d1 + d2 * log 2 := by
  intro n
  induction n with
  | zero =>
    intro d1 d2 h h1 fuel hf
    obtain ⟨k, rfl⟩ : ∃ k, fuel = k + 1 := ⟨fuel - 1, by omega⟩
    refine ⟨d1, d2, ?_, h, by simpa using h1, rfl⟩
    rw [down, abs_of_pos h, if_neg (by simpa using h1)]
  | succ n ih =>
    intro d1 d2 h h1 fuel hf
    obtain ⟨k, rfl⟩ : ∃ k, fuel = k + 1 := ⟨fuel - 1, by omega⟩
    rw [down, abs_of_pos h]
    split_ifs with hc
    · rw [pow_succ] at h1
      obtain ⟨a, b, e, p, q, r⟩ := ih (d1 * 0.0625) (d2 + 4) (by positivity) (by linarith) k (by omega)
      refine ⟨a, b, e, p, q, ?_⟩
      rw [r, show d1 * 0.0625 = d1 / 16 by ring, log_div h.ne' (by norm_num), log16]
      ring
    · exact ⟨d1, d2, rfl, h, not_le.mp hc, rfl⟩

theorem up_ends : ∀ n (d1 d2 : ℝ), 0 < d1 → d1 < 1 → 1 ≤ d1 * 16 ^ (n + 1) → ∀ fuel, n < fuel →
    ∃ a b, up fuel d1 d2 = some (a, b) ∧ 0.0625 ≤ a ∧ a < 1 ∧ log a + b * log 2 = log d1 + d2 * log 2 := by
  intro n
  induction n with
  | zero =>
    intro d1 d2 h h0 h1 fuel hf
    obtain ⟨k, rfl⟩ : ∃ k, fuel = k + 1 := ⟨fuel - 1, by omega⟩
    have h2 : 0.0625 ≤ d1 := by norm_num at h1 ⊢; linarith
    refine ⟨d1, d2, ?_, h2, h0, rfl⟩
    rw [up, abs_of_pos h, if_neg (not_lt.mpr h2)]
  | succ n ih =>
    intro d1 d2 h h0 h1 fuel hf
    obtain ⟨k, rfl⟩ : ∃ k, fuel = k + 1 := ⟨fuel - 1, by omega⟩
    rw [up, abs_of_pos h]
    split_ifs with hc
    · obtain ⟨a, b, e, p, q, r⟩ := ih (d1 * 16) (d2 - 4) (by positivity) (by norm_num at hc; linarith)
        (by rw [mul_assoc, ← pow_succ']; exact h1) k (by omega)
      refine ⟨a, b, e, p, q, ?_⟩
      rw [r, log_mul h.ne' (by norm_num), log16]
      ring
    · exact ⟨d1, d2, rfl, not_lt.mp hc, h0, rfl⟩

theorem up_mono : ∀ n fuel (d1 d2 : ℝ) v, up n d1 d2 = some v → n ≤ fuel → up fuel d1 d2 = some v := by
  intro n
  induction n with
  | zero => intro fuel d1 d2 v h; simp [up] at h
  | succ n ih =>
    intro fuel d1 d2 v h hf
    obtain ⟨k, rfl⟩ : ∃ k, fuel = k + 1 := ⟨fuel - 1, by omega⟩
    rw [up] at h ⊢
    split_ifs at h ⊢ with hc
    · exact ih k _ _ _ h (by omega)
    · exact h

theorem down_mono : ∀ n fuel (d1 d2 : ℝ) v, down n d1 d2 = some v → n ≤ fuel → down fuel d1 d2 = some v := by
  intro n
  induction n with
  | zero => intro fuel d1 d2 v h; simp [down] at h
  | succ n ih =>
    intro fuel d1 d2 v h hf
    obtain ⟨k, rfl⟩ : ∃ k, fuel = k + 1 := ⟨fuel - 1, by omega⟩
    rw [down] at h ⊢
    split_ifs at h ⊢ with hc
    · exact ih k _ _ _ h (by omega)
    · exact h

/-- For every positive `d1` there is a number of rounds `N` after which both loops have ended. -/
theorem norm_ends (d1 : ℝ) (h : 0 < d1) (d2 : ℝ) : ∃ N, ∀ fuel, N ≤ fuel →
    ∃ a b, norm fuel d1 d2 = some (a, b) ∧ 0.0625 ≤ a ∧ a < 1 ∧ log a + b * log 2 = log d1 + d2 * log 2 := by
  obtain ⟨n, hn⟩ := pow_unbounded_of_one_lt d1 (show (1 : ℝ) < 16 by norm_num)
  obtain ⟨a, b, e, p, q, r⟩ := down_ends n d1 d2 h hn (n + 1) (by omega)
  obtain ⟨m, hm⟩ := pow_unbounded_of_one_lt (1 / a) (show (1 : ℝ) < 16 by norm_num)
  refine ⟨n + 1 + m + 1, fun fuel hf => ?_⟩
  have e2 := down_mono (n + 1) fuel d1 d2 _ e (by omega)
  have hm' : 1 ≤ a * 16 ^ (m + 1) := by
    rw [div_lt_iff₀ p] at hm
    have : (0 : ℝ) < 16 ^ m * a := by positivity
    rw [pow_succ]
    nlinarith
  obtain ⟨c, d, e3, p3, q3, r3⟩ := up_ends m a b p q hm' fuel (by omega)
  refine ⟨c, d, ?_, p3, q3, r3.trans r⟩
  unfold norm
  rw [e2]
  exact e3

theorem norm_mono (n fuel : ℕ) (d1 d2 : ℝ) (v : ℝ × ℝ) (h : norm n d1 d2 = some v) (hf : n ≤ fuel) : norm fuel d1 d2 = some v := by
  unfold norm at h ⊢
  split at h
  · simp at h
  · rename_i a b e
    rw [down_mono n fuel _ _ _ e hf]
    exact up_mono n fuel _ _ _ h hf

theorem rows_ok (l : List ℝ) : ∀ d1 d2 : ℝ, 0 < d1 → (∀ x ∈ l, 0 < x) →
    ∃ N, ∀ fuel, N ≤ fuel → rows fuel l d1 d2 = some (true, log (d1 * l.prod) + d2 * log 2) := by
  induction l with
  | nil => intro d1 d2 h _; exact ⟨0, fun fuel _ => by simp [rows]⟩
  | cons x l ih =>
    intro d1 d2 h hl
    have hx := hl x (by simp)
    have hd : 0 < d1 * x := mul_pos h hx
    obtain ⟨N, hN⟩ := norm_ends (d1 * x) hd d2
    obtain ⟨a, b, e, p, q, r⟩ := hN N le_rfl
    have ha : 0 < a := by norm_num at p; linarith
    have hp : 0 < l.prod := List.prod_pos fun y hy => hl y (by simp [hy])
    obtain ⟨M, hM⟩ := ih a b ha fun y hy => hl y (by simp [hy])
    refine ⟨max N M, fun fuel hf => ?_⟩
    rw [rows, if_neg (not_le.mpr hx), norm_mono N fuel _ _ _ e (le_trans (le_max_left _ _) hf)]
    simp only [hM fuel (le_trans (le_max_right _ _) hf)]
    rw [log_mul ha.ne' hp.ne', List.prod_cons, ← mul_assoc, log_mul hd.ne' hp.ne']
    congr 2
    linarith

theorem rows_bad (l : List ℝ) (x : ℝ) (hx : x ≤ 0) (l' : List ℝ) : ∀ d1 d2 : ℝ, 0 < d1 → (∀ y ∈ l, 0 < y) →
    ∃ N, ∀ fuel, N ≤ fuel → rows fuel (l ++ x :: l') d1 d2 = some (false, 0) := by
  induction l with
  | nil => intro d1 d2 h _; exact ⟨0, fun fuel _ => by simp [rows, hx]⟩
  | cons y l ih =>
    intro d1 d2 h hl
    have hy := hl y (by simp)
    obtain ⟨N, hN⟩ := norm_ends (d1 * y) (mul_pos h hy) d2
    obtain ⟨a, b, e, p, q, r⟩ := hN N le_rfl
    have ha : 0 < a := by norm_num at p; linarith
    obtain ⟨M, hM⟩ := ih a b ha fun z hz => hl z (by simp [hz])
    refine ⟨max N M, fun fuel hf => ?_⟩
    rw [List.cons_append, rows, if_neg (not_le.mpr hy), norm_mono N fuel _ _ _ e (le_trans (le_max_left _ _) hf)]
    exact hM fuel (le_trans (le_max_right _ _) hf)

/-- **C235** (partial): for every number of rows and all positive diagonal elements, however large or small, the routine ends and returns the logarithm of their product. Missing: the decomposition itself, and rounding. -/
theorem C235_logdet_partial (xs : List ℝ) (h : ∀ x ∈ xs, 0 < x) :
    ∃ N, ∀ fuel, N ≤ fuel → choldet fuel xs = some (true, log xs.prod) := by
  obtain ⟨N, hN⟩ := rows_ok xs 1 0 one_pos h
  exact ⟨N, fun fuel hf => by rw [choldet, hN fuel hf]; simp⟩

/-- **C235** (partial): a diagonal element that is not positive, in any row, ends the routine with failure and a log determinant of 0. Missing: the decomposition itself. -/
theorem C235_fails_partial (xs : List ℝ) (h : ∃ x ∈ xs, x ≤ 0) :
    ∃ N, ∀ fuel, N ≤ fuel → choldet fuel xs = some (false, 0) := by
  have key : ∀ l : List ℝ, (∃ x ∈ l, x ≤ 0) → ∃ p x q, l = p ++ x :: q ∧ x ≤ 0 ∧ ∀ y ∈ p, 0 < y := by
    intro l
    induction l with
    | nil => rintro ⟨x, hx, _⟩; simp at hx
    | cons y l ih =>
      intro hl
      by_cases hy : y ≤ 0
      · exact ⟨[], y, l, rfl, hy, by simp⟩
      · obtain ⟨x, hx, hx0⟩ := hl
        rcases List.mem_cons.mp hx with rfl | hx
        · exact absurd hx0 hy
        · obtain ⟨p, x, q, rfl, h1, h2⟩ := ih ⟨x, hx, hx0⟩
          refine ⟨y :: p, x, q, rfl, h1, fun z hz => ?_⟩
          rcases List.mem_cons.mp hz with rfl | hz
          · exact not_le.mp hy
          · exact h2 z hz
  obtain ⟨p, x, q, rfl, h1, h2⟩ := key xs h
  exact rows_bad p x h1 q 1 0 one_pos h2

/-- **C235** (partial): after each row the mantissa lies in `[1/16, 1)` and mantissa and exponent stand for the same number as before, for every positive product and every exponent. Missing: rounding. -/
theorem C235_mantissa_partial (d1 : ℝ) (h : 0 < d1) (d2 : ℝ) : ∃ N, ∀ fuel, N ≤ fuel →
    ∃ a b, norm fuel d1 d2 = some (a, b) ∧ 1 / 16 ≤ a ∧ a < 1 ∧ log a + b * log 2 = log d1 + d2 * log 2 := by
  obtain ⟨N, hN⟩ := norm_ends d1 h d2
  refine ⟨N, fun fuel hf => ?_⟩
  obtain ⟨a, b, e, p, q, r⟩ := hN fuel hf
  exact ⟨a, b, e, by norm_num at p ⊢; exact p, q, r⟩

/-- A large and a small element. -/
example : ∀ x ∈ [10 ^ 300, (1 : ℝ) / 10 ^ 200], 0 < x := by
  intro x hx
  simp only [List.mem_cons, List.not_mem_nil, or_false] at hx
  rcases hx with rfl | rfl <;> positivity

/-- A negative element in the second row. -/
example : ∃ x ∈ [2, (-1 : ℝ)], x ≤ 0 := ⟨-1, by simp, by norm_num⟩

end Verif.Deriv.LogDet
