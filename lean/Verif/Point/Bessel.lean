import Verif.Count.GammlnLemmas
import Mathlib.Analysis.Calculus.SmoothSeries
import Mathlib.Analysis.SpecialFunctions.Sqrt
import Mathlib.Analysis.SpecialFunctions.Exponential

/-!
# The modified Bessel function of order zero

Specification: `I0 x` is the sum of `(x/2)^(2k) / (k!)^2`.  Lemmas: it satisfies the differential equation, and its values can be enclosed by partial sums.
-/

set_option linter.unusedSectionVars false

namespace Verif.Point

open Real

/-- The modified Bessel function of the first kind of order zero: its series. -/
noncomputable def I0 (x : ℝ) : ℝ := ∑' k : ℕ, (x / 2) ^ (2 * k) / (k.factorial : ℝ) ^ 2

/-- A power series. -/
noncomputable def ser (c : ℕ → ℝ) (s : ℝ) : ℝ := ∑' k : ℕ, c k * s ^ k

theorem ser_summable {c : ℕ → ℝ} (hc : ∀ k, |c k| ≤ 1 / (k.factorial : ℝ)) (s : ℝ) : Summable fun k => c k * s ^ k := by
  refine Summable.of_norm_bounded (Real.summable_pow_div_factorial |s|) ?_
  intro k
  rw [norm_eq_abs, abs_mul, abs_pow]
  have := mul_le_mul_of_nonneg_right (hc k) (pow_nonneg (abs_nonneg s) k)
  calc _ ≤ _ := this
    _ = _ := by ring

theorem ser_deriv {c : ℕ → ℝ} (hc : ∀ k, |c k| ≤ 1 / (k.factorial : ℝ)) (s : ℝ) : HasDerivAt (ser c) (ser (fun k => (k + 1) * c (k + 1)) s) s := by
  set R := |s| + 1 with hR
  have hR0 : 0 ≤ R := by positivity
  have hu : Summable fun k : ℕ => (k : ℝ) * R ^ (k - 1) / k.factorial := by
    rw [← summable_nat_add_iff 1]
    refine (Real.summable_pow_div_factorial R).congr ?_
    intro k
    rw [Nat.factorial_succ]
    have : (k.factorial : ℝ) ≠ 0 := by positivity
    push_cast
    field_simp
  have h := hasDerivAt_tsum_of_isPreconnected (t := Metric.ball (0 : ℝ) R) (g := fun k z => c k * z ^ k) (g' := fun k z => c k * (k * z ^ (k - 1))) (y₀ := s) (y := s) hu
    Metric.isOpen_ball (convex_ball 0 R).isPreconnected (fun k y _ => (hasDerivAt_pow k y).const_mul (c k)) ?_ ?_ (ser_summable hc s) ?_
  · refine h.congr_deriv ?_
    have hs : Summable fun k : ℕ => c k * (k * s ^ (k - 1)) := by
      refine Summable.of_norm_bounded hu ?_
      intro k
      rw [norm_eq_abs, abs_mul, abs_mul, abs_pow, Nat.abs_cast]
      have h1 : |s| ^ (k - 1) ≤ R ^ (k - 1) := pow_le_pow_left₀ (abs_nonneg s) (by rw [hR]; linarith) _
      calc |c k| * (k * |s| ^ (k - 1)) ≤ 1 / (k.factorial : ℝ) * (k * R ^ (k - 1)) := by gcongr; exact hc k
        _ = _ := by ring
    rw [hs.tsum_eq_zero_add]
    simp only [Nat.cast_zero, zero_mul, mul_zero, zero_add, Nat.add_sub_cancel]
    unfold ser
    congr 1
    ext k
    push_cast
    ring
  · intro k y hy
    rw [mem_ball_zero_iff, norm_eq_abs] at hy
    rw [norm_eq_abs, abs_mul, abs_mul, abs_pow, Nat.abs_cast]
    have h1 : |y| ^ (k - 1) ≤ R ^ (k - 1) := pow_le_pow_left₀ (abs_nonneg y) hy.le _
    calc |c k| * (k * |y| ^ (k - 1)) ≤ 1 / (k.factorial : ℝ) * (k * R ^ (k - 1)) := by gcongr; exact hc k
      _ = _ := by ring
  · rw [mem_ball_zero_iff, norm_eq_abs, hR]; linarith
  · rw [mem_ball_zero_iff, norm_eq_abs, hR]; linarith

/-- The coefficients of the function and its derivatives in the square of a half of the argument. -/
noncomputable def bc (m k : ℕ) : ℝ := 1 / ((k.factorial : ℝ) * (k + m).factorial)

theorem bc_abs (m k : ℕ) : |bc m k| ≤ 1 / (k.factorial : ℝ) := by
  unfold bc
  rw [abs_of_nonneg (by positivity)]
  have h1 : (1 : ℝ) ≤ (k + m).factorial := by exact_mod_cast Nat.factorial_pos _
  have h2 : (0 : ℝ) < k.factorial := by positivity
  gcongr
  nlinarith

theorem bc_succ (m : ℕ) : (fun k : ℕ => ((k : ℝ) + 1) * bc m (k + 1)) = bc (m + 1) := by
  ext k
  unfold bc
  have h1 : ((k + 1 + m).factorial : ℝ) ≠ 0 := by positivity
  rw [Nat.factorial_succ k, show k + (m + 1) = k + 1 + m by ring]
  have h2 : (k.factorial : ℝ) ≠ 0 := by positivity
  push_cast
  field_simp

theorem bs_deriv (m : ℕ) (s : ℝ) : HasDerivAt (ser (bc m)) (ser (bc (m + 1)) s) s := by
  have := ser_deriv (bc_abs m) s
  rwa [bc_succ] at this

/-- The differential equation in the square of a half of the argument. -/
theorem bs_ode (s : ℝ) : s * ser (bc 2) s + ser (bc 1) s = ser (bc 0) s := by
  have h2 := ser_summable (bc_abs 2) s
  have h1 := ser_summable (bc_abs 1) s
  have h0 := ser_summable (bc_abs 0) s
  unfold ser
  rw [← tsum_mul_left]
  rw [h0.tsum_eq_zero_add, h1.tsum_eq_zero_add]
  have h1' := (summable_nat_add_iff 1).2 h1
  have h2' := h2.mul_left s
  rw [add_left_comm, ← h2'.tsum_add h1']
  have e : ∀ k : ℕ, s * (bc 2 k * s ^ k) + bc 1 (k + 1) * s ^ (k + 1) = bc 0 (k + 1) * s ^ (k + 1) := by
    intro k
    have : bc 2 k + bc 1 (k + 1) = bc 0 (k + 1) := by
      unfold bc
      rw [show k + 1 + 1 = k + 2 by ring, show k + 2 = (k + 1) + 1 by ring, Nat.factorial_succ (k + 1), Nat.factorial_succ k]
      have h2 : (k.factorial : ℝ) ≠ 0 := by positivity
      push_cast
      field_simp
    rw [← this]
    ring
  simp only [e]
  norm_num [bc]

theorem I0_eq (x : ℝ) : I0 x = ser (bc 0) (x ^ 2 / 4) := by
  unfold I0 ser bc
  congr 1
  ext k
  rw [pow_mul, show (x / 2) ^ 2 = x ^ 2 / 4 by ring, add_zero]
  ring

/-- The derivative. -/
noncomputable def I1 (x : ℝ) : ℝ := ser (bc 1) (x ^ 2 / 4) * (x / 2)

theorem sq4_deriv (x : ℝ) : HasDerivAt (fun x : ℝ => x ^ 2 / 4) (x / 2) x := by
  refine ((hasDerivAt_pow 2 x).div_const 4).congr_deriv ?_
  push_cast
  ring

theorem I0_deriv (x : ℝ) : HasDerivAt I0 (I1 x) x := by
  have e : I0 = fun x => ser (bc 0) (x ^ 2 / 4) := funext I0_eq
  rw [e]
  exact (bs_deriv 0 (x ^ 2 / 4)).comp x (sq4_deriv x)

theorem I1_deriv {x : ℝ} (hx : x ≠ 0) : HasDerivAt I1 (I0 x - I1 x / x) x := by
  have h := ((bs_deriv 1 (x ^ 2 / 4)).comp x (sq4_deriv x)).mul ((hasDerivAt_id x).div_const 2)
  refine (h : HasDerivAt I1 _ x).congr_deriv ?_
  have := bs_ode (x ^ 2 / 4)
  rw [I0_eq, ← this]
  unfold I1
  simp only [Function.comp, id]
  field_simp
  ring

/-! ## Values -/

/-- A partial sum. -/
noncomputable def part (m K : ℕ) (s : ℝ) : ℝ := ∑ k ∈ Finset.range K, bc m k * s ^ k

theorem bs_enclose (m K : ℕ) {s : ℝ} (hs : 0 ≤ s) : part m K s ≤ ser (bc m) s ∧ ser (bc m) s ≤ part m K s + s ^ K / (K.factorial : ℝ) ^ 2 * exp s := by
  have h := ser_summable (bc_abs m) s
  have e := h.sum_add_tsum_nat_add K
  have hn : ∀ k, 0 ≤ bc m k * s ^ k := fun k => by unfold bc; positivity
  have hK : (0 : ℝ) < K.factorial := by positivity
  constructor
  · unfold ser part
    exact h.sum_le_tsum _ fun k _ => hn k
  · unfold ser part
    rw [← e]
    gcongr
    have hexp : exp s = ∑' j : ℕ, s ^ j / (j.factorial : ℝ) := by
      rw [Real.exp_eq_exp_ℝ, NormedSpace.exp_eq_tsum_div]
    rw [hexp, ← tsum_mul_left]
    refine ((summable_nat_add_iff K).2 h).tsum_le_tsum ?_ ((Real.summable_pow_div_factorial s).mul_left _)
    intro j
    have h1 : (K.factorial : ℝ) * j.factorial ≤ (j + K).factorial := by
      rw [mul_comm]
      exact_mod_cast Nat.le_of_dvd (Nat.factorial_pos _) (Nat.factorial_mul_factorial_dvd_factorial_add j K)
    have h2 : (K.factorial : ℝ) ≤ (j + K + m).factorial := by exact_mod_cast Nat.factorial_le (by omega)
    have hj : (0 : ℝ) < j.factorial := by positivity
    unfold bc
    have h3 : (K.factorial : ℝ) ^ 2 * j.factorial ≤ (j + K).factorial * (j + K + m).factorial := by
      calc _ = (K.factorial : ℝ) * j.factorial * K.factorial := by ring
        _ ≤ _ := mul_le_mul h1 h2 hK.le (by positivity)
    calc 1 / (((j + K).factorial : ℝ) * (j + K + m).factorial) * s ^ (j + K) ≤ 1 / ((K.factorial : ℝ) ^ 2 * j.factorial) * s ^ (j + K) := by gcongr
      _ = _ := by rw [pow_add]; field_simp

theorem I0_ge_one (x : ℝ) : 1 ≤ I0 x := by
  have := (bs_enclose 0 1 (s := x ^ 2 / 4) (by positivity)).1
  rw [I0_eq]
  have e : part 0 1 (x ^ 2 / 4) = 1 := by simp [part, bc]
  rwa [e] at this

end Verif.Point
