import Verif.MC.PhiSeries
import Verif.MC.ChiSqProps
import Mathlib.Data.Nat.Factorial.DoubleFactorial
import Mathlib.Analysis.Calculus.MeanValue
import Mathlib.Topology.Algebra.Order.Floor
import Mathlib.Analysis.SpecificLimits.Basic

/-!
# C227: `Phi` converges to the normal distribution function
-/

namespace Verif.MC.ChiSq

open Real Filter Topology Nat

/-- The distribution function of the standard normal distribution (specification). -/
noncomputable def normalCdf (x : ℝ) : ℝ := 1 / 2 + ∫ u in (0 : ℝ)..x, exp (-u ^ 2 / 2) / √(2 * π)

theorem normalCdf_deriv (x : ℝ) : HasDerivAt normalCdf (exp (-x ^ 2 / 2) / √(2 * π)) x := by
  have hc : Continuous fun u : ℝ => exp (-u ^ 2 / 2) / √(2 * π) := by fun_prop
  exact ((hc.integral_hasStrictDerivAt 0 x).hasDerivAt).const_add (1 / 2)

theorem normalCdf_is : IsNormalCdf normalCdf := ⟨fun x _ => normalCdf_deriv x, by simp [normalCdf], (normalCdf_deriv 0).continuousAt⟩

theorem run_bi (x : ℝ) : ∀ k : ℕ, (phiRun x k).i = 2 * k + 1 ∧ (phiRun x k).b = x ^ (2 * k + 1) / ((2 * k + 1)‼ : ℕ)
  | 0 => by simp [phiRun]
  | k + 1 => by
    obtain ⟨h1, h2⟩ := run_bi x k
    have hd : (((2 * k + 1)‼ : ℕ) : ℝ) ≠ 0 := Nat.cast_ne_zero.2 (Nat.doubleFactorial_pos _).ne'
    have h3 : (2 * (k : ℝ) + 1 + 2) ≠ 0 := by positivity
    simp only [phiRun, phiStep, h1, h2]
    constructor
    · push_cast; ring
    · rw [show 2 * (k + 1) + 1 = (2 * k + 1) + 2 by ring, Nat.doubleFactorial_add_two]
      push_cast
      field_simp
      ring

theorem run_deriv (x : ℝ) : ∀ k : ℕ, HasDerivAt (fun x => (phiRun x k).s) (1 + x * ((phiRun x k).s - (phiRun x k).b)) x
  | 0 => (hasDerivAt_id x).congr_deriv (by simp [phiRun])
  | k + 1 => by
    have ih := run_deriv x k
    have hb : HasDerivAt (fun x => (phiRun x (k + 1)).b) (x * (phiRun x k).b) x := by
      have e : (fun x => (phiRun x (k + 1)).b) = fun x : ℝ => x ^ (2 * k + 3) / (((2 * k + 3)‼ : ℕ) : ℝ) := by
        funext x; rw [(run_bi x (k + 1)).2, show 2 * (k + 1) + 1 = 2 * k + 3 by ring]
      rw [e, (run_bi x k).2]
      refine ((hasDerivAt_pow (2 * k + 3) x).div_const _).congr_deriv ?_
      have hd : (((2 * k + 1)‼ : ℕ) : ℝ) ≠ 0 := Nat.cast_ne_zero.2 (Nat.doubleFactorial_pos _).ne'
      rw [show 2 * k + 3 = (2 * k + 1) + 2 by ring, Nat.doubleFactorial_add_two, show 2 * k + 1 + 2 - 1 = 2 * k + 1 + 1 by omega]
      push_cast
      have h3 : (2 * (k : ℝ) + 1 + 2) ≠ 0 := by positivity
      field_simp
      ring
    refine ((ih.add hb).congr_deriv ?_)
    have e : (phiRun x (k + 1)).s = (phiRun x k).s + (phiRun x (k + 1)).b := rfl
    rw [e]; ring

theorem weight_eq (x : ℝ) : exp (-(1 / 2) * (x * x) - log (2 * π) / 2) = exp (-x ^ 2 / 2) / √(2 * π) := by
  rw [exp_sub, ← log_sqrt (by positivity), exp_log (by positivity)]
  congr 2; ring

theorem phi_deriv (k : ℕ) (x : ℝ) : HasDerivAt (phi k) (exp (-x ^ 2 / 2) / √(2 * π) * (1 - x * (phiRun x k).b)) x := by
  have h1 : HasDerivAt (fun x : ℝ => exp (-(1 / 2) * (x * x) - log (2 * π) / 2)) (exp (-(1 / 2) * (x * x) - log (2 * π) / 2) * (-x)) x := by
    refine ((((hasDerivAt_id x).mul (hasDerivAt_id x)).const_mul (-(1 / 2))).sub_const (log (2 * π) / 2)).exp.congr_deriv ?_
    simp only [id, Pi.mul_apply]
    ring
  refine (((run_deriv x k).mul h1).const_add (1 / 2)).congr_deriv ?_
  rw [weight_eq]; ring

theorem run_zero : ∀ k : ℕ, (phiRun 0 k).s = 0
  | 0 => rfl
  | k + 1 => by
    have e : (phiRun 0 (k + 1)).s = (phiRun 0 k).s + (phiRun 0 (k + 1)).b := rfl
    rw [e, run_zero k, (run_bi 0 (k + 1)).2]; simp

/-- **C227.**  For every real `x` and every number `k` of rounds of its loop, `Phi` differs from the normal distribution function by at most `|x|^(2k+3) / ((2k+1)!! √(2π))`; for `x` not negative it is never above it. -/
theorem C227_error (k : ℕ) (x : ℝ) :
    |normalCdf x - phi k x| ≤ |x| ^ (2 * k + 3) / (((2 * k + 1)‼ : ℕ) * √(2 * π)) ∧ (0 ≤ x → phi k x ≤ normalCdf x) := by
  have hd : (0 : ℝ) < (((2 * k + 1)‼ : ℕ) : ℝ) := Nat.cast_pos.2 (Nat.doubleFactorial_pos _)
  have hs : (0 : ℝ) < √(2 * π) := by positivity
  have hD : ∀ u, HasDerivAt (fun u => normalCdf u - phi k u) (exp (-u ^ 2 / 2) / √(2 * π) * (u ^ (2 * k + 2) / ((2 * k + 1)‼ : ℕ))) u := by
    intro u
    refine ((normalCdf_deriv u).sub (phi_deriv k u)).congr_deriv ?_
    rw [(run_bi u k).2]; ring
  have h0 : normalCdf 0 - phi k 0 = 0 := by
    have := run_zero k
    simp [normalCdf, phi, this]
  have heven : ∀ u : ℝ, u ^ (2 * k + 2) = (u ^ 2) ^ (k + 1) := fun u => by rw [← pow_mul]; congr 1
  constructor
  · have hb : ∀ u ∈ Set.uIcc 0 x, ‖exp (-u ^ 2 / 2) / √(2 * π) * (u ^ (2 * k + 2) / ((2 * k + 1)‼ : ℕ))‖ ≤ |x| ^ (2 * k + 2) / (((2 * k + 1)‼ : ℕ) * √(2 * π)) := by
      intro u hu
      have hux : u ^ 2 ≤ |x| ^ 2 := by
        rw [sq_abs]
        rcases Set.mem_uIcc.1 hu with h | h <;> nlinarith
      have e1 : exp (-u ^ 2 / 2) ≤ 1 := exp_le_one_iff.2 (by nlinarith [sq_nonneg u])
      have e2 : u ^ (2 * k + 2) ≤ |x| ^ (2 * k + 2) := by
        rw [heven, heven]; exact pow_le_pow_left₀ (sq_nonneg u) hux _
      have e3 : 0 ≤ u ^ (2 * k + 2) := by rw [heven]; positivity
      rw [norm_of_nonneg (by positivity)]
      calc exp (-u ^ 2 / 2) / √(2 * π) * (u ^ (2 * k + 2) / ((2 * k + 1)‼ : ℕ)) = exp (-u ^ 2 / 2) * u ^ (2 * k + 2) / (((2 * k + 1)‼ : ℕ) * √(2 * π)) := by
            field_simp
        _ ≤ 1 * |x| ^ (2 * k + 2) / (((2 * k + 1)‼ : ℕ) * √(2 * π)) := by
            refine div_le_div_of_nonneg_right (mul_le_mul e1 e2 e3 (by norm_num)) (by positivity)
        _ = _ := by rw [one_mul]
    have h1 := (convex_uIcc 0 x).norm_image_sub_le_of_norm_hasDerivWithin_le (fun u _ => (hD u).hasDerivWithinAt) hb (Set.left_mem_uIcc) (Set.right_mem_uIcc)
    rw [h0, sub_zero, sub_zero] at h1
    refine le_trans h1 (le_of_eq ?_)
    rw [norm_eq_abs]
    ring
  · intro hx
    have hm : MonotoneOn (fun u => normalCdf u - phi k u) (Set.Ici 0) := by
      refine monotoneOn_of_deriv_nonneg (convex_Ici 0) (fun u _ => (hD u).continuousAt.continuousWithinAt) (fun u _ => (hD u).differentiableAt.differentiableWithinAt) fun u _ => ?_
      rw [(hD u).deriv, heven]; positivity
    have := hm (Set.mem_Ici.2 le_rfl) (Set.mem_Ici.2 hx) hx
    simp only [h0] at this
    linarith

theorem fact_le : ∀ k : ℕ, k ! ≤ (2 * k + 1)‼
  | 0 => le_rfl
  | k + 1 => by
    rw [show 2 * (k + 1) + 1 = (2 * k + 1) + 2 by ring, Nat.doubleFactorial_add_two, Nat.factorial_succ]
    exact Nat.mul_le_mul (by omega) (fact_le k)

/-- **C227.**  So the values converge to the normal distribution function as the rounds go on, at every `x`. -/
theorem C227_limit (x : ℝ) : Tendsto (fun k => phi k x) atTop (𝓝 (normalCdf x)) := by
  have hs : (0 : ℝ) < √(2 * π) := by positivity
  have h1 : Tendsto (fun k : ℕ => |x| ^ 3 / √(2 * π) * ((|x| ^ 2) ^ k / (k ! : ℝ))) atTop (𝓝 0) := by
    have := (FloorSemiring.tendsto_pow_div_factorial_atTop (|x| ^ 2)).const_mul (|x| ^ 3 / √(2 * π))
    rwa [mul_zero] at this
  rw [tendsto_iff_norm_sub_tendsto_zero]
  refine squeeze_zero (fun _ => norm_nonneg _) (fun k => ?_) h1
  rw [norm_sub_rev, norm_eq_abs]
  refine le_trans (C227_error k x).1 ?_
  have hf : (0 : ℝ) < (k ! : ℝ) := Nat.cast_pos.2 (Nat.factorial_pos k)
  have hle : ((k ! : ℕ) : ℝ) ≤ (((2 * k + 1)‼ : ℕ) : ℝ) := Nat.cast_le.2 (fact_le k)
  calc |x| ^ (2 * k + 3) / (((2 * k + 1)‼ : ℕ) * √(2 * π)) ≤ |x| ^ (2 * k + 3) / ((k ! : ℕ) * √(2 * π)) := by
        refine div_le_div_of_nonneg_left (by positivity) (by positivity) (mul_le_mul_of_nonneg_right hle hs.le)
    _ = |x| ^ 3 / √(2 * π) * ((|x| ^ 2) ^ k / (k ! : ℝ)) := by
        rw [← pow_mul, pow_add]; field_simp

/-- **C227.**  The loop ends at once at 0, with the value 1/2, and otherwise (in exact arithmetic) `s` differs from `t` after every round: only rounding ends it. -/
theorem C227_rounds (x : ℝ) (k : ℕ) : ((phiRun x 0).s = (phiRun x 0).t ↔ x = 0) ∧ phi 0 0 = 1 / 2 ∧ (x ≠ 0 → (phiRun x k).s ≠ (phiRun x k).t) := by
  refine ⟨by simp [phiRun], by simp [phi, phiRun], fun hx => ?_⟩
  cases k with
  | zero => simpa [phiRun] using hx
  | succ k =>
    have hb := (run_bi x (k + 1)).2
    have hd : (((2 * (k + 1) + 1)‼ : ℕ) : ℝ) ≠ 0 := Nat.cast_ne_zero.2 (Nat.doubleFactorial_pos _).ne'
    have h : (phiRun x (k + 1)).b ≠ 0 := by rw [hb]; exact div_ne_zero (pow_ne_zero _ hx) hd
    have e : (phiRun x (k + 1)).s = (phiRun x (k + 1)).t + (phiRun x (k + 1)).b := rfl
    rw [e]
    intro h2
    exact h (by linarith)

end Verif.MC.ChiSq
