import Verif.Regress.RegressLemmas
import Mathlib.Analysis.Calculus.Deriv.Inv
import Mathlib.Analysis.SpecialFunctions.Sqrt
import Mathlib.Analysis.SpecialFunctions.Trigonometric.ArctanDeriv

/-!
# Linear regressions: how lines change with the weights
-/

set_option linter.unusedSectionVars false

namespace Verif.Regress

open Real Topology Filter

section moments

variable {n i : ℕ}

theorem sum_up (hi : i < n) (ε : ℝ) (u : ℕ → ℝ) :
    ∑ k ∈ Finset.range n, up i ε k * u k = (∑ k ∈ Finset.range n, u k) + ε * u i := by
  have : ∀ k ∈ Finset.range n, up i ε k * u k = u k + if k = i then ε * u k else 0 := by
    intro k _; unfold up; split <;> ring
  rw [Finset.sum_congr rfl this, Finset.sum_add_distrib, Finset.sum_ite_eq' (Finset.range n) i, if_pos (Finset.mem_range.2 hi)]

theorem sum_up_one (hi : i < n) (ε : ℝ) : ∑ k ∈ Finset.range n, up i ε k = n + ε := by
  have := sum_up hi ε fun _ => 1
  simpa using this

theorem cov_eq {w : ℕ → ℝ} (hW : ∑ k ∈ Finset.range n, w k ≠ 0) (u v : ℕ → ℝ) :
    cov n w u v = (∑ k ∈ Finset.range n, w k * (u k * v k))
      - (∑ k ∈ Finset.range n, w k * u k) * (∑ k ∈ Finset.range n, w k * v k) / ∑ k ∈ Finset.range n, w k := by
  have : ∀ k ∈ Finset.range n, w k * ((u k - mean n w u) * (v k - mean n w v)) =
      w k * (u k * v k) - mean n w v * (w k * u k) - mean n w u * (w k * (v k - mean n w v)) := by intro k _; ring
  unfold cov
  rw [Finset.sum_congr rfl this]
  simp only [Finset.sum_sub_distrib, ← Finset.mul_sum, dev_sum hW v]
  unfold mean; field_simp; ring

/-- Ones are the weights of the plain statistics. -/
theorem up_zero : up i 0 = fun _ => 1 := by funext k; simp [up]

theorem mean_one (u : ℕ → ℝ) : mean n (fun _ => 1) u = (∑ k ∈ Finset.range n, u k) / n := by
  unfold mean; simp

theorem n_pos (hi : i < n) : (0 : ℝ) < n := by exact_mod_cast Nat.lt_of_le_of_lt (Nat.zero_le i) hi

theorem mean_deriv (hi : i < n) (u : ℕ → ℝ) :
    HasDerivAt (fun ε => mean n (up i ε) u) ((u i - mean n (fun _ => 1) u) / n) 0 := by
  have hn := n_pos hi
  have e : (fun ε => mean n (up i ε) u) = fun ε => ((∑ k ∈ Finset.range n, u k) + ε * u i) / (n + ε) := by
    funext ε; unfold mean; rw [sum_up hi, sum_up_one hi]
  rw [e, mean_one]
  have h1 : HasDerivAt (fun ε : ℝ => (∑ k ∈ Finset.range n, u k) + ε * u i) (u i) 0 := by
    simpa using ((hasDerivAt_id (0 : ℝ)).mul_const (u i)).const_add (∑ k ∈ Finset.range n, u k)
  have h2 : HasDerivAt (fun ε : ℝ => (n : ℝ) + ε) 1 0 := (hasDerivAt_id (0 : ℝ)).const_add (n : ℝ)
  refine (h1.fun_div h2 (by simpa using hn.ne')).congr_deriv ?_
  simp only [zero_mul, add_zero, mul_one]
  field_simp

theorem cov_deriv (hi : i < n) (u v : ℕ → ℝ) :
    HasDerivAt (fun ε => cov n (up i ε) u v) ((u i - mean n (fun _ => 1) u) * (v i - mean n (fun _ => 1) v)) 0 := by
  have hn := n_pos hi
  have e : (fun ε => cov n (up i ε) u v) =ᶠ[𝓝 0] fun ε => ((∑ k ∈ Finset.range n, u k * v k) + ε * (u i * v i))
      - ((∑ k ∈ Finset.range n, u k) + ε * u i) * ((∑ k ∈ Finset.range n, v k) + ε * v i) / (n + ε) := by
    filter_upwards [eventually_gt_nhds (show -(n : ℝ) < 0 by linarith)] with ε hε
    rw [cov_eq (by rw [sum_up_one hi]; linarith), sum_up hi ε fun k => u k * v k, sum_up hi, sum_up hi, sum_up_one hi]
  refine HasDerivAt.congr_of_eventuallyEq ?_ e
  have lin : ∀ p q : ℝ, HasDerivAt (fun ε : ℝ => p + ε * q) q 0 := by
    intro p q; simpa using ((hasDerivAt_id (0 : ℝ)).mul_const q).const_add p
  have h2 : HasDerivAt (fun ε : ℝ => (n : ℝ) + ε) 1 0 := (hasDerivAt_id (0 : ℝ)).const_add (n : ℝ)
  have := (lin (∑ k ∈ Finset.range n, u k * v k) (u i * v i)).fun_sub
    (((lin (∑ k ∈ Finset.range n, u k) (u i)).fun_mul (lin (∑ k ∈ Finset.range n, v k) (v i))).fun_div h2 (by simpa using hn.ne'))
  refine this.congr_deriv ?_
  rw [mean_one, mean_one]
  simp only [zero_mul, add_zero, mul_one]
  field_simp; ring

end moments

/-! ## The slopes as functions of the first two -/

/-- The rate of change of slope `j`, given those of the first two. -/
noncomputable def slopeRate (sign b1 b2 u w : ℝ) : Fin 6 → ℝ :=
  ![u, w, gam1 b1 b2 (bisSlope b1 b2) * ((1 + b2 ^ 2) * u + (1 + b1 ^ 2) * w),
    sign * gam2 b1 b2 (orthSlope sign b1 b2) * (u / |b1| + |b1| * w),
    1 / 2 * (√(b2 / b1) * u + √(b1 / b2) * w), 1 / 2 * (u + w)]

theorem bis_sq {b1 b2 : ℝ} (hs : b1 + b2 ≠ 0) :
    (1 + bisSlope b1 b2 ^ 2) * (b1 + b2) = 2 * bisSlope b1 b2 * √((1 + b1 ^ 2) * (1 + b2 ^ 2)) := by
  have hq := sq_sqrt (show 0 ≤ (1 + b1 ^ 2) * (1 + b2 ^ 2) by positivity)
  unfold bisSlope
  set s := √((1 + b1 ^ 2) * (1 + b2 ^ 2))
  field_simp
  linear_combination (-1 : ℝ) * hq

theorem slopes_deriv {f g : ℝ → ℝ} {u w : ℝ} {sign : ℝ} (hsg : sign ^ 2 = 1) (hsg' : 0 < sign * f 0) (hf : HasDerivAt f u 0)
    (hg : HasDerivAt g w 0) (hp : 0 < f 0 * g 0) (j : Fin 6) :
    HasDerivAt (fun ε => slopes sign (f ε) (g ε) j) (slopeRate sign (f 0) (g 0) u w j) 0 := by
  have hf0 : f 0 ≠ 0 := by intro h; rw [h] at hp; simp at hp
  have hg0 : g 0 ≠ 0 := by intro h; rw [h] at hp; simp at hp
  have hs : f 0 + g 0 ≠ 0 := by
    intro hs
    have : g 0 = -f 0 := by linarith
    rw [this] at hp; nlinarith [sq_nonneg (f 0)]
  match j with
  | 0 => exact hf
  | 1 => exact hg
  | 2 =>
    show HasDerivAt (fun ε => bisSlope (f ε) (g ε)) _ 0
    have hpe : ∀ᶠ ε in 𝓝 (0 : ℝ), 0 < f ε * g ε :=
      (hf.continuousAt.mul hg.continuousAt).eventually (eventually_gt_nhds hp)
    have e : (fun ε => bisSlope (f ε) (g ε)) =ᶠ[𝓝 0] fun ε => tan ((arctan (f ε) + arctan (g ε)) / 2) := by
      filter_upwards [hpe] with ε h
      have := (bis_arctan h _).2 rfl
      rw [← this, tan_arctan]
    have e0 := e.eq_of_nhds
    refine HasDerivAt.congr_of_eventuallyEq ?_ e
    have h1 : HasDerivAt (fun ε => (arctan (f ε) + arctan (g ε)) / 2) ((1 / (1 + f 0 ^ 2) * u + 1 / (1 + g 0 ^ 2) * w) / 2) 0 :=
      (hf.arctan.fun_add hg.arctan).div_const 2
    have hcos : cos ((arctan (f 0) + arctan (g 0)) / 2) ≠ 0 := by
      have a1 := arctan_lt_pi_div_two (f 0)
      have a2 := neg_pi_div_two_lt_arctan (f 0)
      have a3 := arctan_lt_pi_div_two (g 0)
      have a4 := neg_pi_div_two_lt_arctan (g 0)
      exact (cos_pos_of_mem_Ioo ⟨by linarith, by linarith⟩).ne'
    have h2 := (hasDerivAt_tan hcos).comp (0 : ℝ) h1
    refine h2.congr_deriv ?_
    have h3 : 1 / cos ((arctan (f 0) + arctan (g 0)) / 2) ^ 2 = 1 + bisSlope (f 0) (g 0) ^ 2 := by
      rw [e0, tan_eq_sin_div_cos]
      have := sin_sq_add_cos_sq ((arctan (f 0) + arctan (g 0)) / 2)
      field_simp; linarith
    rw [h3]
    show _ = gam1 _ _ _ * _
    have hb := bis_sq hs
    have hq := sq_sqrt (show 0 ≤ (1 + f 0 ^ 2) * (1 + g 0 ^ 2) by positivity)
    have hq0 : √((1 + f 0 ^ 2) * (1 + g 0 ^ 2)) ≠ 0 := (sqrt_pos.2 (by positivity)).ne'
    unfold gam1
    set b3 := bisSlope (f 0) (g 0)
    set s := √((1 + f 0 ^ 2) * (1 + g 0 ^ 2))
    have k1 : 1 + f 0 ^ 2 ≠ 0 := by positivity
    have k2 : 1 + g 0 ^ 2 ≠ 0 := by positivity
    have k3 : b3 / ((f 0 + g 0) * s) = (1 + b3 ^ 2) / (2 * ((1 + f 0 ^ 2) * (1 + g 0 ^ 2))) := by
      rw [div_eq_div_iff (mul_ne_zero hs hq0) (by positivity), ← hq]
      linear_combination (-s) * hb
    rw [k3]; field_simp
  | 3 =>
    show HasDerivAt (fun ε => 1 / 2 * (g ε - 1 / f ε + sign * √(4 + (g ε - 1 / f ε) ^ 2))) _ 0
    have ht : HasDerivAt (fun ε => g ε - 1 / f ε) (w + u / f 0 ^ 2) 0 := by
      have := hg.fun_sub ((hasDerivAt_const (0 : ℝ) (1 : ℝ)).fun_div hf hf0)
      refine this.congr_deriv ?_
      field_simp; ring
    have hpos : 4 + (g 0 - 1 / f 0) ^ 2 ≠ 0 := by positivity
    have h1 := (ht.fun_add (((ht.fun_pow 2).const_add 4).sqrt hpos |>.const_mul sign)).const_mul (1 / 2)
    refine h1.congr_deriv ?_
    show _ = sign * gam2 _ _ _ * _
    unfold gam2 orthSlope
    have e : √(4 * f 0 ^ 2 + (f 0 * g 0 - 1) ^ 2) = |f 0| * √(4 + (g 0 - 1 / f 0) ^ 2) := by
      rw [← sqrt_sq_eq_abs, ← sqrt_mul (sq_nonneg _)]
      congr 1; field_simp
    rw [e]
    have ha : |f 0| ≠ 0 := abs_ne_zero.2 hf0
    have hq0 : √(4 + (g 0 - 1 / f 0) ^ 2) ≠ 0 := (sqrt_pos.2 (by positivity)).ne'
    have hsq : |f 0| ^ 2 = f 0 ^ 2 := sq_abs _
    set t := g 0 - 1 / f 0
    set s := √(4 + t ^ 2)
    rw [← hsq]
    field_simp
    simp only [Nat.cast_ofNat, Nat.add_one_sub_one, pow_one]
    linear_combination (-2 * (|f 0| ^ 2 * w + u) * s) * hsg
  | 4 =>
    show HasDerivAt (fun ε => sign * √(f ε * g ε)) _ 0
    have h1 := ((hf.fun_mul hg).sqrt hp.ne').const_mul sign
    refine h1.congr_deriv ?_
    show _ = 1 / 2 * (√(g 0 / f 0) * u + √(f 0 / g 0) * w)
    have hs0 : √(f 0 * g 0) ≠ 0 := (sqrt_pos.2 hp).ne'
    have e1 : √(g 0 / f 0) = sign * g 0 / √(f 0 * g 0) := by
      have : 0 ≤ sign * g 0 / √(f 0 * g 0) := by
        have h5 : 0 < (sign * f 0) * (sign * g 0) := by
          have : sign * f 0 * (sign * g 0) = f 0 * g 0 := by linear_combination (f 0 * g 0) * hsg
          rw [this]; exact hp
        exact div_nonneg (pos_of_mul_pos_right h5 hsg'.le).le (sqrt_nonneg _)
      rw [← sqrt_sq this]
      congr 1
      rw [div_pow, sq_sqrt hp.le, mul_pow, hsg]; field_simp
    have e2 : √(f 0 / g 0) = sign * f 0 / √(f 0 * g 0) := by
      have : 0 ≤ sign * f 0 / √(f 0 * g 0) := div_nonneg hsg'.le (sqrt_nonneg _)
      rw [← sqrt_sq this]
      congr 1
      rw [div_pow, sq_sqrt hp.le, mul_pow, hsg]; field_simp
    rw [e1, e2]; field_simp
  | 5 =>
    show HasDerivAt (fun ε => 1 / 2 * (f ε + g ε)) _ 0
    exact (hf.fun_add hg).const_mul (1 / 2)

end Verif.Regress
