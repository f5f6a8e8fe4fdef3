import Verif.Cosmo.Rombint
import Verif.Cosmo.RombergProps

/-!
# C230: Romberg integration with a fixed number of halvings
-/

namespace Verif.Romberg

open Finset Polynomial

theorem mrange_count (s m : ℕ) (hs : 1 ≤ s) (hm : 1 ≤ m) :
    mrange (s + 1) (2 * s) (2 * s * m) = (List.range m).map fun k => s + 1 + k * (2 * s) := by
  obtain ⟨m, rfl⟩ : ∃ m', m = m' + 1 := ⟨m - 1, by omega⟩
  have h1 : 2 * s * (m + 1) = 2 * s * m + 2 * s := by ring
  unfold mrange
  rw [if_neg (by omega)]
  congr 2
  have : (2 * s * (m + 1) - (s + 1)) / (2 * s) = m := by
    apply Nat.div_eq_of_lt_le
    · rw [h1, mul_comm m]; omega
    · have e : (m + 1) * (2 * s) = 2 * s * (m + 1) := mul_comm _ _
      rw [e]; omega
  rw [this]

theorem rombIdx_eq (D n : ℕ) (h : n + 2 ≤ D) :
    rombIdx D (n + 2) = (List.range (2 ^ n)).map fun k => 2 ^ (D - (n + 2)) + 1 + k * (2 * 2 ^ (D - (n + 2))) := by
  unfold rombIdx
  rw [pow_succ', Nat.mul_div_cancel_left _ (by norm_num)]
  have e : 2 ^ (D - 1) = 2 * 2 ^ (D - (n + 2)) * 2 ^ n := by
    rw [← pow_succ', ← pow_add]; congr 1; omega
  rw [e]
  exact mrange_count _ _ Nat.one_le_two_pow Nat.one_le_two_pow

/-- **C230** (partial): every index the loop uses is one of the points where the integrand was evaluated, at every stage and for every number of digits. Missing: the rest of the claim, see `C230_rombint_partial`. -/
theorem C230_indices_partial (D i j : ℕ) (h2 : 2 ≤ i) (hi : i ≤ D) (hj : j ∈ rombIdx D i) :
    1 ≤ j ∧ j ≤ 2 ^ (D - 1) + 1 := by
  obtain ⟨n, rfl⟩ : ∃ n, i = n + 2 := ⟨i - 2, by omega⟩
  rw [rombIdx_eq D n hi, List.mem_map] at hj
  obtain ⟨k, hk, rfl⟩ := hj
  rw [List.mem_range] at hk
  have e : 2 ^ (D - 1) = 2 ^ n * (2 * 2 ^ (D - (n + 2))) := by
    rw [← pow_succ', ← pow_add]; congr 1; omega
  have := Nat.mul_le_mul_right (2 * 2 ^ (D - (n + 2))) (Nat.succ_le_of_lt hk)
  rw [Nat.succ_mul] at this
  omega

theorem rombSum_eq (f : ℝ → ℝ) (a b : ℝ) (D n : ℕ) (h : n + 2 ≤ D) :
    ((rombIdx D (n + 2)).map (romall f a b D)).sum
      = ∑ k ∈ range (2 ^ n), f (a + (k + 1 / 2) * ((b - a) / ((2 ^ n : ℕ) : ℝ))) := by
  rw [rombIdx_eq D n h, List.map_map, list_sum_range]
  refine sum_congr rfl fun k _ => ?_
  have e : (2 : ℝ) ^ (D - 1) = 2 * 2 ^ (D - (n + 2)) * 2 ^ n := by
    rw [← pow_succ', ← pow_add]; congr 1; omega
  have h1 : (2 : ℝ) ^ (D - (n + 2)) ≠ 0 := by positivity
  have h2 : (2 : ℝ) ^ n ≠ 0 := by positivity
  simp only [Function.comp, romall]
  have ei : ∀ u v : ℕ, u + 1 + v - 1 = u + v := fun u v => by omega
  rw [ei, e]
  congr 1
  push_cast
  field_simp
  ring

theorem rombRow_eq (f : ℝ → ℝ) (a b : ℝ) (n : ℕ) (prev : ℕ → ℝ) (hp : ∀ k ≤ n, prev k = extrap f a b k (n - k)) :
    ∀ k ≤ n + 1, rombRow prev (extrap f a b 0 (n + 1)) k = extrap f a b k (n + 1 - k) := by
  intro k
  induction k with
  | zero => intro _; rfl
  | succ k ih =>
    intro hk
    rw [rombRow, ih (by omega), hp k (by omega), extrap_succ, show n + 1 - (k + 1) + 1 = n + 1 - k by omega,
      show n + 1 - (k + 1) = n - k by omega]
    have h4 : (1 : ℝ) < 4 ^ (k + 1) := one_lt_pow₀ (by norm_num) (by omega)
    have h4' : (4 : ℝ) ^ (k + 1) - 1 ≠ 0 := by
      have : 0 < (4 : ℝ) ^ (k + 1) - 1 := by linarith
      exact this.ne'
    field_simp
    ring

theorem rombLoop_eq (f : ℝ → ℝ) (a b : ℝ) (D : ℕ) :
    ∀ left n (rom : ℕ → ℝ) (h : ℝ), n + 1 + left = D → h = (b - a) / 2 ^ n →
      (∀ k ≤ n, rom k = extrap f a b k (n - k)) →
      ∀ k < D, rombLoop f a b D left (n + 2) rom h k = extrap f a b k (D - 1 - k) := by
  intro left
  induction left with
  | zero =>
    intro n rom h hD _ hr k hk
    rw [rombLoop, hr k (by omega), show D - 1 - k = n - k by omega]
  | succ left ih =>
    intro n rom h hD hh hr
    rw [rombLoop]
    refine ih (n + 1) _ _ (by omega) (by rw [hh, pow_succ]; field_simp) ?_
    intro k hk
    rw [if_pos (by omega)]
    have h2 : (2 : ℝ) ^ n ≠ 0 := by positivity
    have e0 : (rom 0 + h * ((rombIdx D (n + 2)).map (romall f a b D)).sum) / 2 = extrap f a b 0 (n + 1) := by
      rw [hr 0 (Nat.zero_le _), rombSum_eq f a b D n (by omega), extrap_zero, extrap_zero, Nat.sub_zero, hh,
        show 2 ^ (n + 1) = 2 * 2 ^ n from pow_succ' 2 n, trapezoid_double f a b (pow_pos (by norm_num) n).ne']
      push_cast
      ring
    rw [e0]
    exact rombRow_eq f a b n rom hr k hk

theorem rombint_eq (f : ℝ → ℝ) (a b : ℝ) (hab : a ≠ b) (D : ℕ) (hD : 1 ≤ D) :
    rombint f a b D = some (extrap f a b (D - 1) 0) := by
  unfold rombint
  rw [if_neg (by rintro (h | h); exact hab h; omega)]
  simp only [Option.some.injEq]
  have := rombLoop_eq f a b D (D - 1) 0
    (fun k => if k = 0 then (b - a) * (romall f a b D 1 + romall f a b D (2 ^ (D - 1) + 1)) / 2 else 0) (b - a)
    (by omega) (by simp) (by
      intro k hk
      obtain rfl : k = 0 := by omega
      have h2 : (2 : ℝ) ^ (D - 1) ≠ 0 := by positivity
      rw [if_pos rfl, extrap_zero, Nat.sub_zero, pow_zero, trapezoid]
      simp only [romall, Nat.sub_self, Nat.add_sub_cancel]
      rw [show ((2 ^ (D - 1) : ℕ) : ℝ) * ((b - a) / 2 ^ (D - 1)) = b - a by push_cast; field_simp]
      simp
      ring) (D - 1) (by omega)
  rw [this, Nat.sub_self]

/-- **C230** (partial): with different limits, in either order, and at least one digit, the value is Richardson's extrapolation from the trapezoid rules with `1, 2, ..., 2^(decdigs-1)` panels; so it is the integral for every polynomial of degree up to `2*decdigs-1`. Missing: the accuracy `10^-decdigs` for other functions (`C230_violated_accuracy`) and equal limits (`C230_violated_equal`). -/
theorem C230_rombint_partial (a b : ℝ) (hab : a ≠ b) (D : ℕ) (hD : 1 ≤ D) :
    (∀ f : ℝ → ℝ, rombint f a b D = some (richardson f a b (D - 1) 0)) ∧
    ∀ p : ℝ[X], p.natDegree ≤ 2 * D - 1 → rombint (fun x => p.eval x) a b D = some (∫ x in a..b, p.eval x) := by
  refine ⟨fun f => by rw [rombint_eq f a b hab D hD, extrap_eq], fun p hp => ?_⟩
  rw [rombint_eq _ a b hab D hD, extrap_exact p (D - 1) (by omega)]

/-- **C230** (violated): for equal limits, where the integral is 0, nothing is returned: the range of points is empty. -/
theorem C230_violated_equal (f : ℝ → ℝ) (a : ℝ) (D : ℕ) : rombint f a a D = none ∧ ∫ x in a..a, f x = 0 :=
  ⟨by simp [rombint], by simp⟩

/-- **C230** (violated): no number of digits gives any accuracy for all functions: for every `decdigs` and every scale there is a smooth function for which 0 is returned, and whose integral is the scale. -/
theorem C230_violated_accuracy (D : ℕ) (hD : 1 ≤ D) (c : ℝ) :
    ∃ f : ℝ → ℝ, Continuous f ∧ rombint f 0 1 D = some 0 ∧ ∫ x in (0 : ℝ)..1, f x = c := by
  set w : ℝ := 2 ^ (D - 1) * Real.pi with hw
  have hwn : w = ((2 ^ (D - 1) : ℕ) : ℝ) * Real.pi := by push_cast; exact hw
  have hw0 : w ≠ 0 := by rw [hw]; positivity
  refine ⟨fun x => 2 * c * Real.sin (w * x) ^ 2, by fun_prop, ?_, ?_⟩
  · rw [rombint_eq _ 0 1 zero_ne_one D hD]
    congr 1
    refine nev_zero _ _ _ _ _ fun j hj => ?_
    rw [zero_add]
    have : ∀ k : ℕ, Real.sin (w * (0 + k * ((1 - 0) / ((2 ^ j : ℕ) : ℝ)))) = 0 := by
      intro k
      have e : w * (0 + k * ((1 - 0) / ((2 ^ j : ℕ) : ℝ))) = ((k * 2 ^ (D - 1 - j) : ℕ) : ℝ) * Real.pi := by
        have h2 : (2 : ℝ) ^ (D - 1 - j) * 2 ^ j = 2 ^ (D - 1) := by rw [← pow_add, Nat.sub_add_cancel hj]
        rw [hw, ← h2]
        push_cast
        field_simp
        ring
      rw [e, Real.sin_nat_mul_pi]
    rw [trapezoid]
    refine Finset.sum_eq_zero fun k _ => ?_
    simp only [this]
    norm_num
  · rw [intervalIntegral.integral_const_mul, intervalIntegral.integral_comp_mul_left (fun x => Real.sin x ^ 2) hw0,
      integral_sin_sq, mul_zero, mul_one, hwn, Real.sin_nat_mul_pi]
    have : ((2 ^ (D - 1) : ℕ) : ℝ) * Real.pi ≠ 0 := hwn ▸ hw0
    simp
    field_simp

/-- The default of ten digits: polynomials up to degree 19, for instance `x^19` on `[0,1]`. -/
example : rombint (fun x : ℝ => (X ^ 19 : ℝ[X]).eval x) 0 1 10 = some (∫ x in (0:ℝ)..1, (X ^ 19 : ℝ[X]).eval x) :=
  (C230_rombint_partial 0 1 zero_ne_one 10 (by norm_num)).2 _ (by simp)

/-- The program run on `x^3` over `[0,2]` with two digits. -/
example : rombint (fun x : ℚ => x ^ 3) 0 2 2 = some 4 := by decide +kernel

/-- Indices used at the third stage of four. -/
example : rombIdx 4 3 = [3, 7] := by decide +kernel

end Verif.Romberg
