import Verif.Cosmo.Romberg
import Mathlib.NumberTheory.Bernoulli
import Mathlib.LinearAlgebra.Lagrange
import Mathlib.Analysis.SpecialFunctions.Integrals.Basic
import Mathlib.Tactic.LinearCombination
import Mathlib.Tactic.FieldSimp
import Mathlib.Tactic.Ring
import Mathlib.Tactic.Linarith
import Mathlib.Tactic.Positivity

/-!
# The trapezoid rule for polynomials, and extrapolation
-/

set_option linter.unusedSectionVars false

namespace Verif.Romberg

open Finset Polynomial

/-- The trapezoid rule with `n` panels of equal width. -/
noncomputable def trapezoid (f : ℝ → ℝ) (a b : ℝ) (n : ℕ) : ℝ :=
  ∑ k ∈ range n, (b - a) / n * ((f (a + k * ((b - a) / n)) + f (a + (k + 1 : ℕ) * ((b - a) / n))) / 2)

theorem trapezoid_eq (f : ℝ → ℝ) (a b : ℝ) {n : ℕ} (hn : n ≠ 0) :
    trapezoid f a b n = (b - a) / n * (∑ k ∈ range n, f (a + k * ((b - a) / n)) + (f b - f a) / 2) := by
  have hn' : (n : ℝ) ≠ 0 := by exact_mod_cast hn
  have h := Finset.sum_range_sub (fun k : ℕ => f (a + k * ((b - a) / n))) n
  have e1 : a + (n : ℝ) * ((b - a) / n) = b := by field_simp; ring
  simp only [e1, Nat.cast_zero, zero_mul, add_zero] at h
  rw [← h, trapezoid, ← mul_sum, sum_div, ← sum_add_distrib]
  congr 1
  refine sum_congr rfl fun k _ => ?_
  ring

theorem trapezoid_double (f : ℝ → ℝ) (a b : ℝ) {n : ℕ} (hn : n ≠ 0) :
    trapezoid f a b (2 * n) = 1 / 2 * (trapezoid f a b n + (b - a) * (∑ k ∈ range n, f (a + (k + 1 / 2) * ((b - a) / n))) / n) := by
  have hn' : (n : ℝ) ≠ 0 := by exact_mod_cast hn
  have h2 : ∀ g : ℕ → ℝ, ∑ k ∈ range (2 * n), g k = ∑ k ∈ range n, g (2 * k) + ∑ k ∈ range n, g (2 * k + 1) := by
    intro g
    clear hn hn'
    induction n with
    | zero => simp
    | succ n ih => rw [show 2 * (n + 1) = 2 * n + 1 + 1 by ring, sum_range_succ, sum_range_succ, sum_range_succ, sum_range_succ, ih]; ring
  rw [trapezoid_eq f a b (by omega), trapezoid_eq f a b hn, h2]
  have e1 : ∀ k ∈ range n, f (a + ((2 * k : ℕ) : ℝ) * ((b - a) / ((2 * n : ℕ) : ℝ))) = f (a + k * ((b - a) / n)) := fun k _ => by
    congr 1; push_cast; field_simp
  have e2 : ∀ k ∈ range n, f (a + ((2 * k + 1 : ℕ) : ℝ) * ((b - a) / ((2 * n : ℕ) : ℝ))) = f (a + (k + 1 / 2) * ((b - a) / n)) := fun k _ => by
    congr 1; push_cast; field_simp; 
  rw [sum_congr rfl e1, sum_congr rfl e2]
  push_cast
  field_simp
  ring

/-- The polynomial whose value at 1/n² is the trapezoid rule for x^d on [0,1] with n panels. -/
noncomputable def eulerMac (d : ℕ) : ℝ[X] := ∑ i ∈ range (d / 2 + 1), C (((bernoulli (2 * i) * (d + 1).choose (2 * i) / (d + 1) : ℚ) : ℝ)) * X ^ i

theorem eulerMac_deg (d : ℕ) : (eulerMac d).natDegree ≤ d / 2 := by
  refine natDegree_sum_le_of_forall_le _ _ fun i hi => ?_
  refine (natDegree_C_mul_X_pow_le _ _).trans ?_
  have := mem_range.1 hi; omega

theorem eulerMac_zero (d : ℕ) : (eulerMac d).eval 0 = 1 / ((d : ℝ) + 1) := by
  rw [eulerMac, eval_finsetSum, sum_eq_single 0]
  · simp
  · intro i _ hi; simp [hi]
  · simp

theorem faulhaber (d n : ℕ) (hd : d ≠ 0) (hn : n ≠ 0) : 1 / (n : ℚ) * (∑ k ∈ range n, ((k : ℚ) / n) ^ d + 1 / 2) =
    ∑ i ∈ range (d / 2 + 1), bernoulli (2 * i) * (d + 1).choose (2 * i) / (d + 1) * (1 / (n : ℚ) ^ 2) ^ i := by
  have hn' : (n : ℚ) ≠ 0 := by exact_mod_cast hn
  have h0 : ∑ k ∈ range n, ((k : ℚ) / n) ^ d = (∑ k ∈ range n, (k : ℚ) ^ d) / n ^ d := by
    rw [sum_div]; exact sum_congr rfl fun k _ => div_pow _ _ _
  rw [h0, sum_range_pow]
  set g : ℕ → ℚ := fun i => bernoulli i * (d + 1).choose i / (d + 1) * (1 / (n : ℚ)) ^ i with hg
  have h1 : 1 / (n : ℚ) * ((∑ i ∈ range (d + 1), bernoulli i * ((d + 1).choose i) * (n : ℚ) ^ (d + 1 - i) / (d + 1)) / n ^ d) = ∑ i ∈ range (d + 1), g i := by
    rw [sum_div, mul_sum]
    refine sum_congr rfl fun i hi => ?_
    have hi' : i ≤ d := by have := mem_range.1 hi; omega
    have : (n : ℚ) ^ (d + 1 - i) * n ^ i = n ^ (d + 1) := by rw [← pow_add]; congr 1; omega
    have h3 : (n : ℚ) ^ (d + 1 - i) = n ^ (d + 1) / n ^ i := by rw [← this]; field_simp
    rw [hg, h3]
    have : ((d : ℚ) + 1) ≠ 0 := by positivity
    simp only [one_div, inv_pow]
    field_simp
    ring
  have h2 : ∑ i ∈ range (d + 1), g i = ∑ i ∈ range (d / 2 + 1), g (2 * i) + g 1 := by
    have : ∀ m, (∀ i, i < m → True) → 1 < m → ∑ i ∈ range m, g i = ∑ i ∈ range ((m - 1) / 2 + 1), g (2 * i) + g 1 := by
      intro m _ hm
      induction m, hm using Nat.le_induction with
      | base => norm_num [sum_range_succ]
      | succ m hm ih =>
        rw [sum_range_succ, ih (fun _ _ => trivial)]
        rcases Nat.even_or_odd' m with ⟨c, hc | hc⟩
        · subst hc
          rw [show (2 * c + 1 - 1) / 2 + 1 = c + 1 by omega, show (2 * c - 1) / 2 + 1 = c by omega, sum_range_succ]; ring
        · subst hc
          rw [show (2 * c + 1 + 1 - 1) / 2 + 1 = c + 1 by omega, show (2 * c + 1 - 1) / 2 + 1 = c + 1 by omega]
          have : g (2 * c + 1) = 0 := by
            rw [hg]; simp only []
            rw [bernoulli_eq_zero_of_odd ⟨c, rfl⟩ (by omega)]; ring
          rw [this]; ring
    have := this (d + 1) (fun _ _ => trivial) (by omega)
    rwa [show (d + 1 - 1) = d by omega] at this
  have h4 : g 1 = -(1 / (2 * n)) := by
    rw [hg]; simp only [bernoulli_one, Nat.choose_one_right, pow_one]
    push_cast
    have : ((d : ℚ) + 1) ≠ 0 := by positivity
    field_simp
  rw [mul_add, h1, h2, h4]
  have h5 : ∀ i ∈ range (d / 2 + 1), g (2 * i) = bernoulli (2 * i) * (d + 1).choose (2 * i) / (d + 1) * (1 / (n : ℚ) ^ 2) ^ i := fun i _ => by
    rw [hg]; simp only []; rw [pow_mul, div_pow, one_pow]
  rw [sum_congr rfl h5]
  field_simp
  ring

theorem trap_monomial (d n : ℕ) (hn : n ≠ 0) : trapezoid (fun x => x ^ d) 0 1 n = (eulerMac d).eval (1 / (n : ℝ) ^ 2) := by
  rw [trapezoid_eq _ _ _ hn]
  have hn' : (n : ℝ) ≠ 0 := by exact_mod_cast hn
  rcases Nat.eq_zero_or_pos d with rfl | hd
  · simp [eulerMac]; field_simp
  · have h := congrArg (fun q : ℚ => (q : ℝ)) (faulhaber d n hd.ne' hn)
    push_cast at h
    rw [eulerMac, eval_finsetSum]
    simp only [eval_mul, eval_C, eval_pow, eval_X]
    push_cast
    rw [← h]
    have : ∀ k ∈ range n, ((0 : ℝ) + k * ((1 - 0) / n)) ^ d = ((k : ℝ) / n) ^ d := fun k _ => by congr 1; ring
    rw [sum_congr rfl this, zero_pow hd.ne']
    ring

/-- On [0,1], for any polynomial of degree at most 2k+1. -/
theorem trap_unit (p : ℝ[X]) (k : ℕ) (hp : p.natDegree ≤ 2 * k + 1) :
    ∃ q : ℝ[X], q.natDegree ≤ k ∧ q.eval 0 = ∫ x in (0 : ℝ)..1, p.eval x ∧ ∀ n : ℕ, n ≠ 0 → trapezoid (fun x => p.eval x) 0 1 n = q.eval (1 / (n : ℝ) ^ 2) := by
  refine ⟨∑ d ∈ range (p.natDegree + 1), C (p.coeff d) * eulerMac d, ?_, ?_, ?_⟩
  · refine natDegree_sum_le_of_forall_le _ _ fun d hd => ?_
    refine (natDegree_C_mul_le _ _).trans ((eulerMac_deg d).trans ?_)
    have := mem_range.1 hd; omega
  · rw [eval_finsetSum]
    simp only [eval_mul, eval_C, eulerMac_zero]
    simp only [eval_eq_sum_range]
    rw [intervalIntegral.integral_finsetSum]
    · refine sum_congr rfl fun d _ => ?_
      rw [intervalIntegral.integral_const_mul, integral_pow]; simp
    · intro d _
      exact (Continuous.intervalIntegrable (by fun_prop) _ _)
  · intro n hn
    rw [eval_finsetSum]
    simp only [eval_mul, eval_C, ← trap_monomial _ n hn, trapezoid]
    simp only [mul_sum]
    rw [sum_comm]
    refine sum_congr rfl fun j _ => ?_
    simp only [eval_eq_sum_range]
    rw [← sum_add_distrib, sum_div, mul_sum]
    refine sum_congr rfl fun d _ => by ring

/-- On any interval, for any polynomial of degree at most 2k+1: the trapezoid rule is a polynomial of degree at most k in the inverse square of the number of panels, with the integral as constant term. -/
theorem trap_poly (p : ℝ[X]) (k : ℕ) (hp : p.natDegree ≤ 2 * k + 1) (a b : ℝ) :
    ∃ q : ℝ[X], q.natDegree ≤ k ∧ q.eval 0 = ∫ x in a..b, p.eval x ∧ ∀ n : ℕ, n ≠ 0 → trapezoid (fun x => p.eval x) a b n = q.eval (1 / (n : ℝ) ^ 2) := by
  have hd : (C a + C (b - a) * X : ℝ[X]).natDegree ≤ 1 := by
    refine natDegree_add_le_of_degree_le (by simp) ((natDegree_C_mul_le _ _).trans natDegree_X_le)
  obtain ⟨q, h1, h2, h3⟩ := trap_unit (p.comp (C a + C (b - a) * X)) k (by
    refine natDegree_comp_le.trans ?_
    calc p.natDegree * (C a + C (b - a) * X : ℝ[X]).natDegree ≤ p.natDegree * 1 := Nat.mul_le_mul_left _ hd
      _ ≤ _ := by omega)
  simp only [eval_comp, eval_add, eval_mul, eval_C, eval_X] at h2 h3
  refine ⟨C (b - a) * q, (natDegree_C_mul_le _ _).trans h1, ?_, fun n hn => ?_⟩
  · rw [eval_mul, eval_C, h2]
    have := intervalIntegral.smul_integral_comp_add_mul (a := 0) (b := 1) (fun x => p.eval x) (b - a) a
    simp only [smul_eq_mul, mul_zero, add_zero, mul_one] at this
    rw [this]; congr 1; ring
  · rw [eval_mul, eval_C, ← h3 n hn, trapezoid, trapezoid, mul_sum]
    refine sum_congr rfl fun j _ => ?_
    have e : ∀ c : ℝ, a + (b - a) * (0 + c * ((1 - 0) / n)) = a + c * ((b - a) / n) := fun c => by ring
    rw [e, e]; ring

/-! ## Neville's scheme -/

/-- The value at `x` of the polynomial through the points `i`, ..., `i+m`, by Neville's recursion. -/
noncomputable def nev (xs ys : ℕ → ℝ) (x : ℝ) : ℕ → ℕ → ℝ
  | 0, i => ys i
  | m + 1, i => ((x - xs (i + m + 1)) * nev xs ys x m i + (xs i - x) * nev xs ys x m (i + 1)) / (xs i - xs (i + m + 1))

theorem nev_eq {xs ys : ℕ → ℝ} (x : ℝ) (m i : ℕ) (hinj : Set.InjOn xs (Icc i (i + m) : Finset ℕ)) :
    nev xs ys x m i = (Lagrange.interpolate (Icc i (i + m)) xs ys).eval x := by
  induction m generalizing i with
  | zero => simp [nev]
  | succ m ih =>
    have hi : i ∈ Icc i (i + (m + 1)) := mem_Icc.2 ⟨le_rfl, by omega⟩
    have hj : i + (m + 1) ∈ Icc i (i + (m + 1)) := mem_Icc.2 ⟨by omega, le_rfl⟩
    have hne : xs i - xs (i + m + 1) ≠ 0 := sub_ne_zero.2 fun h => by
      have := hinj (mem_coe.2 hi) (mem_coe.2 hj) h; omega
    rw [Lagrange.interpolate_eq_add_interpolate_erase ys hinj hi hj (by omega)]
    have e1 : (Icc i (i + (m + 1))).erase (i + (m + 1)) = Icc i (i + m) := by ext k; simp; omega
    have e2 : (Icc i (i + (m + 1))).erase i = Icc (i + 1) (i + 1 + m) := by ext k; simp; omega
    rw [e1, e2, eval_add, eval_mul, eval_mul, ← ih i (hinj.mono (by intro k; simp; omega)), ← ih (i + 1) (hinj.mono (by intro k; simp; omega)), nev,
      Lagrange.basisDivisor, Lagrange.basisDivisor]
    simp only [eval_mul, eval_C, eval_sub, eval_X]
    have hne' : xs (i + (m + 1)) - xs i ≠ 0 := fun h => hne (by rw [show i + m + 1 = i + (m + 1) by ring]; linarith)
    rw [show i + m + 1 = i + (m + 1) by ring] at hne ⊢
    rw [show xs (i + (m + 1)) - xs i = -(xs i - xs (i + (m + 1))) by ring]
    field_simp
    ring

/-- Extrapolation is exact for polynomials of the degree it assumes. -/
theorem nev_exact {xs ys : ℕ → ℝ} (x : ℝ) (m i : ℕ) (hinj : Set.InjOn xs (Icc i (i + m) : Finset ℕ)) (q : ℝ[X]) (hq : q.natDegree ≤ m)
    (hy : ∀ j ∈ Icc i (i + m), q.eval (xs j) = ys j) : nev xs ys x m i = q.eval x := by
  rw [nev_eq x m i hinj, ← Lagrange.eq_interpolate_of_eval_eq ys hinj _ hy]
  rw [Nat.card_Icc, show i + m + 1 - i = m + 1 by omega]
  exact degree_le_natDegree.trans_lt (by exact_mod_cast Nat.lt_succ_of_le hq)

theorem nev_congr {xs ys xs' ys' : ℕ → ℝ} (x : ℝ) (m i i' : ℕ) (hx : ∀ j ≤ m, xs (i + j) = xs' (i' + j)) (hy : ∀ j ≤ m, ys (i + j) = ys' (i' + j)) :
    nev xs ys x m i = nev xs' ys' x m i' := by
  induction m generalizing i i' with
  | zero => simpa [nev] using hy 0 le_rfl
  | succ m ih =>
    have h0 := hx 0 (by omega)
    have h1 := hx (m + 1) le_rfl
    rw [nev, nev, ih i i' (fun j hj => hx j (by omega)) (fun j hj => hy j (by omega)),
      ih (i + 1) (i' + 1) (fun j hj => by have := hx (j + 1) (by omega); rw [show i + 1 + j = i + (j + 1) by ring, show i' + 1 + j = i' + (j + 1) by ring]; exact this)
        (fun j hj => by have := hy (j + 1) (by omega); rw [show i + 1 + j = i + (j + 1) by ring, show i' + 1 + j = i' + (j + 1) by ring]; exact this)]
    rw [add_zero, add_zero] at h0
    rw [h0, show i + m + 1 = i + (m + 1) by ring, show i' + m + 1 = i' + (m + 1) by ring, h1]

end Verif.Romberg
