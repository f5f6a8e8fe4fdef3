import Verif.MC.ChiSq
import Mathlib.Analysis.SpecialFunctions.Gamma.Basic
import Mathlib.Analysis.SpecialFunctions.Gaussian.GaussianIntegral
import Mathlib.Analysis.SpecialFunctions.Pow.Deriv
import Mathlib.Tactic.Ring
import Mathlib.Tactic.Linarith
import Mathlib.Tactic.NormNum
import Mathlib.Tactic.FieldSimp
import Mathlib.Tactic.LinearCombination

/-!
# C226: `chisq` is the chi-square distribution function
-/

namespace Verif.MC.ChiSq

open Real Filter Topology

/-- The chi-square density for `n` degrees of freedom (specification). -/
noncomputable def dens (n : ℕ) (z : ℝ) : ℝ := z ^ ((n : ℝ) / 2 - 1) * exp (-z / 2) / (2 ^ ((n : ℝ) / 2) * Gamma ((n : ℝ) / 2))

/-- `Phi` is the distribution function of the standard normal distribution, on the side that `chisq` uses (specification). -/
structure IsNormalCdf (Phi : ℝ → ℝ) : Prop where
  deriv : ∀ x, 0 < x → HasDerivAt Phi (exp (-x ^ 2 / 2) / √(2 * π)) x
  zero : Phi 0 = 1 / 2
  cont : ContinuousAt Phi 0

theorem dens_succ {n : ℕ} (hn : 1 ≤ n) {z : ℝ} (hz : 0 < z) : dens (n + 2) z = dens n z * z / n := by
  have hn' : (0 : ℝ) < n := by exact_mod_cast hn
  rw [dens, dens]
  push_cast
  rw [show ((n : ℝ) + 2) / 2 - 1 = ((n : ℝ) / 2 - 1) + 1 by ring, show ((n : ℝ) + 2) / 2 = (n : ℝ) / 2 + 1 by ring, rpow_add hz, rpow_one,
    rpow_add (by norm_num : (0 : ℝ) < 2), rpow_one, Gamma_add_one (by positivity)]
  have h1 : (2 : ℝ) ^ ((n : ℝ) / 2) ≠ 0 := by positivity
  have h2 : Gamma ((n : ℝ) / 2) ≠ 0 := (Gamma_pos_of_pos (by positivity)).ne'
  field_simp

theorem dens_one {z : ℝ} (hz : 0 < z) : dens 1 z = exp (-(1 / 2) * z - log (2 * π) / 2) / √z := by
  rw [dens]
  have e1 : z ^ (((1 : ℕ) : ℝ) / 2 - 1) = (√z)⁻¹ := by
    rw [show ((1 : ℕ) : ℝ) / 2 - 1 = -(1 / 2) by norm_num, rpow_neg hz.le, sqrt_eq_rpow]
  have e2 : (2 : ℝ) ^ (((1 : ℕ) : ℝ) / 2) = √2 := by rw [sqrt_eq_rpow]; norm_num
  have e3 : Gamma (((1 : ℕ) : ℝ) / 2) = √π := by rw [Nat.cast_one, Gamma_one_half_eq]
  have e4 : exp (log (2 * π) / 2) = √2 * √π := by
    rw [← sqrt_mul (by norm_num), ← log_sqrt (by positivity), exp_log (by positivity)]
  rw [e1, e2, e3, exp_sub, e4, show -(1 / 2) * z = -z / 2 by ring]
  have h1 : √z ≠ 0 := (sqrt_pos.2 hz).ne'
  field_simp

theorem dens_two (z : ℝ) : dens 2 z = exp (-(1 / 2 * z)) / 2 := by
  rw [dens]
  norm_num
  ring_nf

/-- Twice the density for two degrees more has a telescoping derivative. -/
theorem dens_deriv {n : ℕ} (hn : 1 ≤ n) {z : ℝ} (hz : 0 < z) : HasDerivAt (fun z => 2 * dens (n + 2) z) (dens n z - dens (n + 2) z) z := by
  have hn' : (0 : ℝ) < n := by exact_mod_cast hn
  have h1 : HasDerivAt (fun z : ℝ => z ^ (((n + 2 : ℕ) : ℝ) / 2 - 1)) ((((n + 2 : ℕ) : ℝ) / 2 - 1) * z ^ (((n + 2 : ℕ) : ℝ) / 2 - 1 - 1)) z :=
    hasDerivAt_rpow_const (.inl hz.ne')
  have h2 : HasDerivAt (fun z : ℝ => exp (-z / 2)) (exp (-z / 2) * (-1 / 2)) z := ((hasDerivAt_id z).neg.div_const 2).exp
  have h3 := (((h1.mul h2).div_const (2 ^ (((n + 2 : ℕ) : ℝ) / 2) * Gamma (((n + 2 : ℕ) : ℝ) / 2))).const_mul 2)
  have e0 := dens_succ hn hz
  refine h3.congr_deriv ?_
  have e : dens n z = dens (n + 2) z * n / z := by rw [e0]; field_simp
  rw [e, dens, rpow_sub_one hz.ne']
  have hG : Gamma (((n + 2 : ℕ) : ℝ) / 2) ≠ 0 := (Gamma_pos_of_pos (by positivity)).ne'
  have hP : (2 : ℝ) ^ (((n + 2 : ℕ) : ℝ) / 2) ≠ 0 := by positivity
  generalize z ^ (((n + 2 : ℕ) : ℝ) / 2 - 1) = X
  generalize (2 : ℝ) ^ (((n + 2 : ℕ) : ℝ) / 2) = Y at *
  generalize Gamma (((n + 2 : ℕ) : ℝ) / 2) = G at *
  push_cast
  field_simp
  ring

/-- The density for three degrees of freedom or more vanishes at 0. -/
theorem dens_tendsto {n : ℕ} (hn : 1 ≤ n) : Tendsto (dens (n + 2)) (𝓝[>] 0) (𝓝 0) := by
  have hn' : (0 : ℝ) < n := by exact_mod_cast hn
  have he : (0 : ℝ) < ((n + 2 : ℕ) : ℝ) / 2 - 1 := by push_cast; linarith
  have h1 : ContinuousAt (fun z : ℝ => z ^ (((n + 2 : ℕ) : ℝ) / 2 - 1)) 0 := continuousAt_rpow_const _ _ (.inr he.le)
  have h2 : ContinuousAt (fun z : ℝ => exp (-z / 2)) 0 := by fun_prop
  have h3 : ContinuousAt (dens (n + 2)) 0 := (h1.mul h2).div_const _
  have h4 : dens (n + 2) 0 = 0 := by rw [dens, zero_rpow he.ne']; simp
  have h5 := h3.tendsto
  rw [h4] at h5
  exact h5.mono_left nhdsWithin_le_nhds

/-- The distribution function by recursion from `n` to `n+2`. -/
noncomputable def F (Phi : ℝ → ℝ) : ℕ → ℝ → ℝ
  | 0, _ => 1
  | 1, z => 2 * Phi √z - 1
  | n + 2, z => F Phi n z - 2 * dens (n + 2) z

theorem F_deriv {Phi : ℝ → ℝ} (hP : IsNormalCdf Phi) : ∀ (n : ℕ), 1 ≤ n → ∀ z, 0 < z → HasDerivAt (F Phi n) (dens n z) z
  | 1, _, z, hz => by
    have h1 : HasDerivAt (fun z => Phi √z) (exp (-√z ^ 2 / 2) / √(2 * π) * (1 / (2 * √z))) z :=
      (hP.deriv (√z) (sqrt_pos.2 hz)).comp z (hasDerivAt_sqrt hz.ne')
    refine ((h1.const_mul 2).sub_const 1).congr_deriv ?_
    have e4 : exp (log (2 * π) / 2) = √(2 * π) := by rw [← log_sqrt (by positivity), exp_log (by positivity)]
    rw [dens_one hz, exp_sub, e4, sq_sqrt hz.le, show -(1 / 2) * z = -z / 2 by ring]
    have h2 : √z ≠ 0 := (sqrt_pos.2 hz).ne'
    have h3 : √(2 * π) ≠ 0 := by positivity
    field_simp
  | 2, _, z, hz => by
    have h1 : HasDerivAt (fun z : ℝ => exp (-(1 / 2 * z))) (exp (-(1 / 2 * z)) * (-(1 / 2 * 1))) z := (((hasDerivAt_id z).const_mul (1 / 2)).neg).exp
    have h2 := (h1.const_sub 1)
    refine (h2.congr_deriv ?_).congr_of_eventuallyEq (Eventually.of_forall fun x => ?_)
    · rw [dens_two]; ring
    · change 1 - 2 * dens 2 x = _
      rw [dens_two]; ring
  | n + 3, _, z, hz => by
    have h1 := F_deriv hP (n + 1) (by omega) z hz
    have h2 := dens_deriv (n := n + 1) (by omega) hz
    refine (h1.sub h2).congr_deriv ?_
    ring

theorem F_tendsto {Phi : ℝ → ℝ} (hP : IsNormalCdf Phi) : ∀ (n : ℕ), 1 ≤ n → Tendsto (F Phi n) (𝓝[>] 0) (𝓝 0)
  | 1, _ => by
    have h1 : Tendsto (fun z => Phi √z) (𝓝[>] 0) (𝓝 (Phi 0)) := by
      refine hP.cont.tendsto.comp ?_
      have := (continuous_sqrt.tendsto (0 : ℝ)).mono_left (nhdsWithin_le_nhds (s := Set.Ioi 0))
      rwa [sqrt_zero] at this
    have h2 := (h1.const_mul 2).sub_const 1
    rw [hP.zero] at h2
    norm_num at h2
    exact h2
  | 2, _ => by
    have h1 : ContinuousAt (fun z : ℝ => 1 - exp (-(1 / 2 * z))) 0 := by fun_prop
    have h2 := h1.tendsto.mono_left (nhdsWithin_le_nhds (s := Set.Ioi 0))
    norm_num at h2
    refine h2.congr fun x => ?_
    change _ = 1 - 2 * dens 2 x
    rw [dens_two]; ring
  | n + 3, _ => by
    have h1 := F_tendsto hP (n + 1) (by omega)
    have h2 := (dens_tendsto (n := n + 1) (by omega)).const_mul 2
    have h3 := h1.sub h2
    simp only [mul_zero, sub_zero] at h3
    exact h3

theorem oddLoop_eq (Phi : ℝ → ℝ) {z : ℝ} (hz : 0 < z) : ∀ (cnt i : ℕ) (s : ℝ), 1 ≤ i →
    F Phi i z + s - oddLoop z cnt i (2 * dens i z) s = F Phi (i + 2 * cnt) z
  | 0, i, s, _ => by simp [oddLoop]
  | cnt + 1, i, s, hi => by
    have e : 2 * dens i z * z / i = 2 * dens (i + 2) z := by rw [dens_succ hi hz]; ring
    rw [oddLoop, e]
    have ih := oddLoop_eq Phi hz cnt (i + 2) (s + 2 * dens (i + 2) z) (by omega)
    rw [show i + 2 + 2 * cnt = i + 2 * (cnt + 1) by ring] at ih
    rw [← ih, F]
    ring

theorem evenLoop_eq (Phi : ℝ → ℝ) {z : ℝ} (hz : 0 < z) : ∀ (cnt i : ℕ) (t s : ℝ), 1 ≤ i → t * exp (-(1 / 2 * z)) = 2 * dens (2 * i) z →
    F Phi (2 * i) z + s * exp (-(1 / 2 * z)) - evenLoop (1 / 2 * z) cnt i t s * exp (-(1 / 2 * z)) = F Phi (2 * (i + cnt)) z
  | 0, i, t, s, _, _ => by simp [evenLoop]
  | cnt + 1, i, t, s, hi, ht => by
    have hi' : (i : ℝ) ≠ 0 := by positivity
    have e : t * (1 / 2 * z) / i * exp (-(1 / 2 * z)) = 2 * dens (2 * (i + 1)) z := by
      rw [show 2 * (i + 1) = 2 * i + 2 by ring, dens_succ (by omega) hz]
      push_cast
      have : t * (1 / 2 * z) / i * exp (-(1 / 2 * z)) = (t * exp (-(1 / 2 * z))) * z / (2 * i) := by field_simp
      rw [this, ht]; ring
    rw [evenLoop]
    have ih := evenLoop_eq Phi hz cnt (i + 1) _ (s + t * (1 / 2 * z) / i) (by omega) e
    rw [show i + 1 + cnt = i + (cnt + 1) by ring] at ih
    rw [← ih, show F Phi (2 * (i + 1)) z = F Phi (2 * i) z - 2 * dens (2 * (i + 1)) z from rfl, ← e]
    ring

theorem chisq_eq (Phi : ℝ → ℝ) {z : ℝ} (hz : 0 < z) {n : ℕ} (h1 : 1 ≤ n) (h2 : n ≤ 3000) : chisq Phi z n = F Phi n z := by
  rw [chisq, if_neg (not_le.2 hz), if_neg (by omega)]
  by_cases h : n % 2 = 1
  · rw [if_pos h]
    have := oddLoop_eq Phi hz ((n - 1) / 2) 1 0 le_rfl
    rw [show 1 + 2 * ((n - 1) / 2) = n by omega, dens_one hz] at this
    simp only
    rw [← this, F, mul_div_assoc]
    ring
  · rw [if_neg h]
    have := evenLoop_eq Phi hz (n / 2 - 1) 1 1 0 le_rfl (by rw [Nat.mul_one, dens_two]; ring)
    rw [show 2 * (1 + (n / 2 - 1)) = n by omega] at this
    simp only
    rw [← this, show F Phi (2 * 1) z = 1 - 2 * dens 2 z from rfl, dens_two]
    ring

/-- **C226.**  For 1 to 3000 degrees of freedom, odd and even, if `Phi` is the normal distribution function: `chisq` is 0 up to 0, tends to 0 there from the right, and for all `z > 0` its derivative is the chi-square density; so it is the chi-square distribution function.  Missing: 0 (`C226_violated_zero`) and more than 3000 degrees of freedom (an approximation); `Phi` itself. -/
theorem C226_cdf_partial (Phi : ℝ → ℝ) (hP : IsNormalCdf Phi) (n : ℕ) (h1 : 1 ≤ n) (h2 : n ≤ 3000) :
    (∀ z, z ≤ 0 → chisq Phi z n = 0) ∧ Tendsto (fun z => chisq Phi z n) (𝓝[>] 0) (𝓝 0) ∧
      ∀ z, 0 < z → HasDerivAt (fun z => chisq Phi z n) (dens n z) z := by
  refine ⟨fun z hz => by rw [chisq, if_pos hz], ?_, fun z hz => ?_⟩
  · refine (F_tendsto hP n h1).congr' ?_
    filter_upwards [self_mem_nhdsWithin] with z hz
    exact (chisq_eq Phi hz h1 h2).symm
  · refine (F_deriv hP n h1 z hz).congr_of_eventuallyEq ?_
    filter_upwards [lt_mem_nhds hz] with x hx
    exact chisq_eq Phi hx h1 h2

/-- The hypotheses are met: the integral of the normal density from 0, plus one half. -/
example : IsNormalCdf fun x => 1 / 2 + ∫ u in (0 : ℝ)..x, exp (-u ^ 2 / 2) / √(2 * π) := by
  have hc : Continuous fun u : ℝ => exp (-u ^ 2 / 2) / √(2 * π) := by fun_prop
  have hd : ∀ x, HasDerivAt (fun x => 1 / 2 + ∫ u in (0 : ℝ)..x, exp (-u ^ 2 / 2) / √(2 * π)) (exp (-x ^ 2 / 2) / √(2 * π)) x := fun x =>
    ((hc.integral_hasStrictDerivAt 0 x).hasDerivAt).const_add (1 / 2)
  exact ⟨fun x _ => hd x, by simp, (hd 0).continuousAt⟩

/-- **C226, violated.**  For 0 degrees of freedom (a test with a single class, `ke = kb`) the value is that for 2 degrees of freedom, at every `z`, and not 1. -/
theorem C226_violated_zero (Phi : ℝ → ℝ) (z : ℝ) (hz : 0 < z) : chisq Phi z 0 = chisq Phi z 2 ∧ chisq Phi z 0 < 1 := by
  have e : chisq Phi z 0 = 1 - exp (-(1 / 2 * z)) := by
    rw [chisq, if_neg (not_le.2 hz), if_neg (by omega), if_neg (by norm_num)]
    simp [evenLoop]
  have e2 : chisq Phi z 2 = 1 - exp (-(1 / 2 * z)) := by
    rw [chisq, if_neg (not_le.2 hz), if_neg (by omega), if_neg (by norm_num)]
    simp [evenLoop]
  exact ⟨by rw [e, e2], by rw [e]; linarith [exp_pos (-(1 / 2 * z))]⟩

end Verif.MC.ChiSq
