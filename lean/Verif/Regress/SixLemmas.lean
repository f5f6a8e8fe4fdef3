import Verif.Regress.RegressDeriv

/-!
# Six regressions: the model in terms of the moments, and the influence of each datum
-/

set_option linter.unusedSectionVars false

namespace Verif.Regress

open Real Topology Filter

/-- Weights one. -/
abbrev one : ℕ → ℝ := fun _ => 1

/-- Slopes of moments that change. -/
theorem slope_path {vx vy c : ℝ → ℝ} {dvx dvy dc : ℝ} (hvx : HasDerivAt vx dvx 0) (hvy : HasDerivAt vy dvy 0)
    (hc : HasDerivAt c dc 0) (px : 0 < vx 0) (py : 0 < vy 0) (pc : c 0 ≠ 0) (j : Fin 6) :
    (∀ᶠ ε in 𝓝 (0 : ℝ), ∀ b, IsSlope (vx ε) (vy ε) (c ε) j b ↔ b = slopes (sgn (c 0)) (c ε / vx ε) (vy ε / c ε) j) ∧
    HasDerivAt (fun ε => slopes (sgn (c 0)) (c ε / vx ε) (vy ε / c ε) j)
      (slopeRate (sgn (c 0)) (c 0 / vx 0) (vy 0 / c 0) ((dc - c 0 / vx 0 * dvx) / vx 0) ((dvy - vy 0 / c 0 * dc) / c 0) j) 0 := by
  have hsg : ∀ᶠ ε in 𝓝 (0 : ℝ), c ε ≠ 0 ∧ sgn (c ε) = sgn (c 0) := by
    rcases lt_or_gt_of_ne pc with h | h
    · filter_upwards [hc.continuousAt.eventually (eventually_lt_nhds h)] with ε hε
      exact ⟨hε.ne, by unfold sgn; rw [if_pos hε, if_pos h]⟩
    · filter_upwards [hc.continuousAt.eventually (eventually_gt_nhds h)] with ε hε
      exact ⟨hε.ne', by unfold sgn; rw [if_neg hε.le.not_gt, if_neg h.le.not_gt]⟩
  refine ⟨?_, ?_⟩
  · filter_upwards [hvx.continuousAt.eventually (eventually_gt_nhds px), hvy.continuousAt.eventually (eventually_gt_nhds py), hsg]
      with ε h1 h2 h3 b
    rw [isSlope_iff h1 h2 h3.1, h3.2]
  · have hf : HasDerivAt (fun ε => c ε / vx ε) ((dc - c 0 / vx 0 * dvx) / vx 0) 0 :=
      (hc.fun_div hvx px.ne').congr_deriv (by field_simp)
    have hg : HasDerivAt (fun ε => vy ε / c ε) ((dvy - vy 0 / c 0 * dc) / c 0) 0 :=
      (hvy.fun_div hc pc).congr_deriv (by field_simp)
    refine slopes_deriv (sgn_sq _) ?_ hf hg (slope_mul px py pc) j
    rw [← mul_div_assoc, sgn_mul]
    exact div_pos (abs_pos.2 pc) px

section data

variable {n : ℕ} {x y : ℕ → ℝ}

/-- The influence of a datum on the first two slopes. -/
noncomputable def infl1 (n : ℕ) (x y : ℕ → ℝ) (i : ℕ) : ℝ :=
  (x i - mean n one x) * (y i - mean n one y - cov n one x y / cov n one x x * (x i - mean n one x)) / cov n one x x

noncomputable def infl2 (n : ℕ) (x y : ℕ → ℝ) (i : ℕ) : ℝ :=
  (y i - mean n one y) * (y i - mean n one y - cov n one y y / cov n one x y * (x i - mean n one x)) / cov n one x y

/-- Slope `j` of the data. -/
noncomputable def slopeOf (n : ℕ) (x y : ℕ → ℝ) : Fin 6 → ℝ :=
  slopes (sgn (cov n one x y)) (cov n one x y / cov n one x x) (cov n one y y / cov n one x y)

/-- The influence of a datum on slope `j`. -/
noncomputable def inflB (n : ℕ) (x y : ℕ → ℝ) (j : Fin 6) (i : ℕ) : ℝ :=
  slopeRate (sgn (cov n one x y)) (cov n one x y / cov n one x x) (cov n one y y / cov n one x y) (infl1 n x y i) (infl2 n x y i) j

/-- The influence of a datum on intercept `j`. -/
noncomputable def inflA (n : ℕ) (x y : ℕ → ℝ) (j : Fin 6) (i : ℕ) : ℝ :=
  (y i - mean n one y - slopeOf n x y j * (x i - mean n one x)) / n - mean n one x * inflB n x y j i

theorem influence_iff (hc : cov n one x y ≠ 0) {i : ℕ} (hi : i < n) (j : Fin 6) (da db : ℝ) :
    Influence n x y j i da db ↔ da = inflA n x y j i ∧ db = inflB n x y j i := by
  obtain ⟨hx, hy⟩ := cov_pos (w := one) (fun _ _ => zero_le_one) hc
  have z : ∀ u v, cov n (up i 0) u v = cov n one u v := by intro u v; rw [up_zero]
  have dx := cov_deriv hi x x
  have dy := cov_deriv hi y y
  have dc := cov_deriv hi x y
  obtain ⟨he, hd⟩ := slope_path dx dy dc (by rw [z]; exact hx) (by rw [z]; exact hy) (by rw [z]; exact hc) j
  simp only [z] at he hd
  have hrate : slopeRate (sgn (cov n one x y)) (cov n one x y / cov n one x x) (cov n one y y / cov n one x y)
      (((x i - mean n one x) * (y i - mean n one y) - cov n one x y / cov n one x x * ((x i - mean n one x) * (x i - mean n one x))) / cov n one x x)
      (((y i - mean n one y) * (y i - mean n one y) - cov n one y y / cov n one x y * ((x i - mean n one x) * (y i - mean n one y))) / cov n one x y) j
      = inflB n x y j i := by
    unfold inflB infl1 infl2
    congr 1 <;> (congr 1; ring)
  rw [hrate] at hd
  set B := fun ε => slopes (sgn (cov n one x y)) (cov n (up i ε) x y / cov n (up i ε) x x) (cov n (up i ε) y y / cov n (up i ε) x y) j with hB
  set A := fun ε => mean n (up i ε) y - B ε * mean n (up i ε) x with hA
  have hB0 : B 0 = slopeOf n x y j := by simp only [hB, z]; rfl
  have hdA : HasDerivAt A (inflA n x y j i) 0 := by
    have := (mean_deriv hi y).fun_sub (hd.fun_mul (mean_deriv hi x))
    refine this.congr_deriv ?_
    have hn := (n_pos hi).ne'
    rw [up_zero]
    unfold inflA
    rw [hB0]
    field_simp; ring
  have hline : ∀ᶠ ε in 𝓝 (0 : ℝ), ∀ a b, IsLine n (up i ε) x y j a b ↔ a = A ε ∧ b = B ε := by
    have pc : ∀ᶠ ε in 𝓝 (0 : ℝ), cov n (up i ε) x y ≠ 0 :=
      dc.continuousAt.eventually_ne (by rw [z]; exact hc)
    filter_upwards [he, pc, eventually_gt_nhds (show (-1 : ℝ) < 0 by norm_num)] with ε h1 h2 h3 a b
    have hw : ∀ k < n, 0 ≤ up i ε k := by
      intro k _; unfold up; split <;> linarith
    have hW : 0 < ∑ k ∈ Finset.range n, up i ε k := by
      rw [sum_up_one hi]
      have : (1 : ℝ) ≤ n := by exact_mod_cast Nat.one_le_iff_ne_zero.2 (by omega)
      linarith
    obtain ⟨px, py⟩ := cov_pos hw h2
    rw [isLine_iff hW px py h2, h1, centred_iff]
    constructor
    · rintro ⟨rfl, rfl⟩; exact ⟨rfl, rfl⟩
    · rintro ⟨rfl, rfl⟩; exact ⟨rfl, rfl⟩
  constructor
  · rintro ⟨a, b, hl, ha, hb⟩
    have ea : a =ᶠ[𝓝 0] A := by filter_upwards [hl, hline] with ε h1 h2; exact ((h2 _ _).1 h1).1
    have eb : b =ᶠ[𝓝 0] B := by filter_upwards [hl, hline] with ε h1 h2; exact ((h2 _ _).1 h1).2
    exact ⟨ha.unique (hdA.congr_of_eventuallyEq ea), hb.unique (hd.congr_of_eventuallyEq eb)⟩
  · rintro ⟨rfl, rfl⟩
    exact ⟨A, B, by filter_upwards [hline] with ε h; exact (h _ _).2 ⟨rfl, rfl⟩, hdA, hd⟩

/-! ## The model -/

theorem tot_mean (u : ℕ → ℝ) : tot n u / n = mean n one u := by rw [tot_eq, mean_one]

theorem tot_cov (u v : ℕ → ℝ) : (tot n fun i => (u i - mean n one u) * (v i - mean n one v)) = cov n one u v := by
  rw [tot_eq]; unfold cov; simp only [one_mul]

theorem tot_var (u : ℕ → ℝ) : (tot n fun i => (u i - mean n one u) ^ 2) = cov n one u u := by
  rw [← tot_cov]; simp only [sq]

/-- Sum of squares of a combination of the two influences. -/
theorem sum_comb (u w : ℕ → ℝ) (α β : ℝ) : ∑ i ∈ Finset.range n, (α * u i + β * w i) ^ 2 =
    α ^ 2 * ∑ i ∈ Finset.range n, u i ^ 2 + 2 * α * β * ∑ i ∈ Finset.range n, u i * w i + β ^ 2 * ∑ i ∈ Finset.range n, w i ^ 2 := by
  simp only [Finset.mul_sum, ← Finset.sum_add_distrib]
  exact Finset.sum_congr rfl fun i _ => by ring

theorem slopeVars_eq (hc : cov n one x y ≠ 0) (j : Fin 6) :
    slopeVars n (fun i => x i - mean n one x) (fun i => y i - mean n one y) (cov n one x x) (cov n one x y) (slopeOf n x y) j
      = ∑ i ∈ Finset.range n, inflB n x y j i ^ 2 := by
  obtain ⟨hx, hy⟩ := cov_pos (w := one) (fun _ _ => zero_le_one) hc
  have hp := slope_mul hx hy hc
  set sxx := cov n one x x with hsxx
  set syy := cov n one y y
  set sxy := cov n one x y with hsxy
  set b1 := sxy / sxx with hb1
  set b2 := syy / sxy with hb2
  have b10 : b1 ≠ 0 := by intro h; rw [h] at hp; simp at hp
  have b20 : b2 ≠ 0 := by intro h; rw [h] at hp; simp at hp
  have e1 : (tot n fun i => ((x i - mean n one x) * (y i - mean n one y - b1 * (x i - mean n one x))) ^ 2) / sxx ^ 2 =
      ∑ i ∈ Finset.range n, infl1 n x y i ^ 2 := by
    rw [tot_eq, Finset.sum_div]; exact Finset.sum_congr rfl fun i _ => by unfold infl1; rw [div_pow]
  have e2 : (tot n fun i => ((y i - mean n one y) * (y i - mean n one y - b2 * (x i - mean n one x))) ^ 2) / sxy ^ 2 =
      ∑ i ∈ Finset.range n, infl2 n x y i ^ 2 := by
    rw [tot_eq, Finset.sum_div]; exact Finset.sum_congr rfl fun i _ => by unfold infl2; rw [div_pow]
  have e3 : (tot n fun i => (x i - mean n one x) * (y i - mean n one y) * (y i - mean n one y - b1 * (x i - mean n one x))
      * (y i - mean n one y - b2 * (x i - mean n one x))) / (b1 * sxx ^ 2) =
      ∑ i ∈ Finset.range n, infl1 n x y i * infl2 n x y i := by
    rw [tot_eq, Finset.sum_div]
    refine Finset.sum_congr rfl fun i _ => ?_
    have hb : b1 * sxx ^ 2 = sxx * sxy := by rw [hb1]; field_simp
    unfold infl1 infl2
    rw [← hsxx, ← hsxy, hb, div_mul_div_comm]
    congr 1; ring
  unfold slopeVars
  dsimp only
  have s0 : slopeOf n x y 0 = b1 := rfl
  have s1 : slopeOf n x y 1 = b2 := rfl
  rw [s0, s1, e1, e2, e3]
  match j with
  | 0 => rfl
  | 1 => rfl
  | 2 =>
    show gam1 b1 b2 (bisSlope b1 b2) ^ 2 * _ = ∑ i ∈ Finset.range n,
      (gam1 b1 b2 (bisSlope b1 b2) * ((1 + b2 ^ 2) * infl1 n x y i + (1 + b1 ^ 2) * infl2 n x y i)) ^ 2
    simp only [mul_pow _ _ 2, ← Finset.mul_sum, sum_comb]
    ring
  | 3 =>
    show gam2 b1 b2 (orthSlope (sgn sxy) b1 b2) ^ 2 * _ = ∑ i ∈ Finset.range n,
      (sgn sxy * gam2 b1 b2 (orthSlope (sgn sxy) b1 b2) * (infl1 n x y i / |b1| + |b1| * infl2 n x y i)) ^ 2
    have : ∀ i ∈ Finset.range n, (sgn sxy * gam2 b1 b2 (orthSlope (sgn sxy) b1 b2) * (infl1 n x y i / |b1| + |b1| * infl2 n x y i)) ^ 2
        = gam2 b1 b2 (orthSlope (sgn sxy) b1 b2) ^ 2 * (1 / |b1| * infl1 n x y i + |b1| * infl2 n x y i) ^ 2 := by
      intro i _; rw [mul_pow, mul_pow, sgn_sq]; ring
    rw [Finset.sum_congr rfl this, ← Finset.mul_sum, sum_comb]
    have ha : |b1| ≠ 0 := abs_ne_zero.2 b10
    rw [← sq_abs b1]; field_simp
  | 4 =>
    show 1 / 4 * _ = ∑ i ∈ Finset.range n, (1 / 2 * (√(b2 / b1) * infl1 n x y i + √(b1 / b2) * infl2 n x y i)) ^ 2
    simp only [mul_pow _ _ 2, ← Finset.mul_sum, sum_comb]
    have q1 : 0 ≤ b2 / b1 := by
      have : b2 / b1 = b1 * b2 / b1 ^ 2 := by field_simp
      rw [this]; positivity
    have q2 : 0 ≤ b1 / b2 := by rw [← one_div_div]; positivity
    have q3 : √(b2 / b1) * √(b1 / b2) = 1 := by
      rw [← sqrt_mul q1, show b2 / b1 * (b1 / b2) = 1 by field_simp, sqrt_one]
    rw [sq_sqrt q1, sq_sqrt q2, mul_assoc 2, q3]
    ring
  | 5 =>
    show 1 / 4 * _ = ∑ i ∈ Finset.range n, (1 / 2 * (infl1 n x y i + infl2 n x y i)) ^ 2
    have := sum_comb (n := n) (infl1 n x y) (infl2 n x y) 1 1
    simp only [one_mul] at this
    simp only [mul_pow _ _ 2, ← Finset.mul_sum, this]
    ring

/-- The sums for the intercepts, with the sign the code gives the orthogonal line. -/
theorem interSums_eq (hn : 0 < n) (hc : cov n one x y ≠ 0) (j : Fin 6) (hj : j = 3 → 0 < cov n one x y) :
    interSums n (fun i => x i - mean n one x) (fun i => y i - mean n one y) (mean n one x) (cov n one x x) (cov n one x y) (slopeOf n x y) j
      = n ^ 2 * ∑ i ∈ Finset.range n, inflA n x y j i ^ 2 := by
  obtain ⟨hx, hy⟩ := cov_pos (w := one) (fun _ _ => zero_le_one) hc
  have hp := slope_mul hx hy hc
  have hn' : (n : ℝ) ≠ 0 := by exact_mod_cast hn.ne'
  have push : ∀ f : ℕ → ℝ, (∀ i < n, f i = (n * inflA n x y j i) ^ 2) → tot n f = n ^ 2 * ∑ i ∈ Finset.range n, inflA n x y j i ^ 2 := by
    intro f hf
    rw [tot_eq, Finset.mul_sum]
    exact Finset.sum_congr rfl fun i hi => by rw [hf i (Finset.mem_range.1 hi)]; ring
  have s0 : slopeOf n x y 0 = cov n one x y / cov n one x x := rfl
  have s1 : slopeOf n x y 1 = cov n one y y / cov n one x y := rfl
  unfold interSums
  dsimp only
  rw [s0, s1]
  match j with
  | 0 =>
    refine push _ fun i hi => ?_
    unfold inflA
    rw [s0, show inflB n x y 0 i = infl1 n x y i from rfl]
    unfold infl1
    congr 1; field_simp
  | 1 =>
    refine push _ fun i hi => ?_
    unfold inflA
    rw [s1, show inflB n x y 1 i = infl2 n x y i from rfl]
    unfold infl2
    congr 1; field_simp
  | 2 =>
    refine push _ fun i hi => ?_
    unfold inflA
    rw [show inflB n x y 2 i = gam1 (cov n one x y / cov n one x x) (cov n one y y / cov n one x y) (slopeOf n x y 2)
      * ((1 + (cov n one y y / cov n one x y) ^ 2) * infl1 n x y i + (1 + (cov n one x y / cov n one x x) ^ 2) * infl2 n x y i) from rfl]
    unfold infl1 infl2
    generalize gam1 _ _ _ = g
    generalize slopeOf n x y 2 = b
    rw [← neg_sq]
    congr 1; field_simp; ring
  | 3 =>
    have hpos := hj rfl
    refine push _ fun i hi => ?_
    unfold inflA
    rw [show inflB n x y 3 i = sgn (cov n one x y) * gam2 (cov n one x y / cov n one x x) (cov n one y y / cov n one x y) (slopeOf n x y 3)
      * (infl1 n x y i / |cov n one x y / cov n one x x| + |cov n one x y / cov n one x x| * infl2 n x y i) from rfl]
    have h1 : sgn (cov n one x y) = 1 := by unfold sgn; rw [if_neg hpos.le.not_gt]
    have h2 : 0 < cov n one x y / cov n one x x := div_pos hpos hx
    rw [h1, sqrt_sq_eq_abs, abs_of_pos h2]
    unfold infl1 infl2
    generalize gam2 _ _ _ = g
    generalize slopeOf n x y 3 = b
    rw [← neg_sq]
    congr 1; field_simp; ring
  | 4 =>
    refine push _ fun i hi => ?_
    unfold inflA
    rw [show inflB n x y 4 i = 1 / 2 * (√(cov n one y y / cov n one x y / (cov n one x y / cov n one x x)) * infl1 n x y i
      + √(cov n one x y / cov n one x x / (cov n one y y / cov n one x y)) * infl2 n x y i) from rfl]
    unfold infl1 infl2
    generalize √(cov n one y y / cov n one x y / (cov n one x y / cov n one x x)) = g
    generalize √(cov n one x y / cov n one x x / (cov n one y y / cov n one x y)) = g'
    generalize slopeOf n x y 4 = b
    rw [← neg_sq]
    congr 1; field_simp; ring
  | 5 =>
    refine push _ fun i hi => ?_
    unfold inflA
    rw [show inflB n x y 5 i = 1 / 2 * (infl1 n x y i + infl2 n x y i) from rfl]
    unfold infl1 infl2
    generalize slopeOf n x y 5 = b
    rw [← neg_sq]
    congr 1; field_simp; ring

/-- `sixlin` in terms of the moments. -/
theorem sixlin_eq (n : ℕ) (x y : ℕ → ℝ) : sixlin n x y =
    if cov n one x y = 0 then (fun i => x i - mean n one x, fun i => y i - mean n one y, none)
    else (x, y, some {
      a := fun j => mean n one y - slopeOf n x y j * mean n one x
      b := slopeOf n x y
      sigb := fun j => fsqrt (slopeVars n (fun i => x i - mean n one x) (fun i => y i - mean n one y) (cov n one x x) (cov n one x y) (slopeOf n x y) j)
      siga := fun j => (fsqrt (interSums n (fun i => x i - mean n one x) (fun i => y i - mean n one y) (mean n one x) (cov n one x x)
        (cov n one x y) (slopeOf n x y) j)).map (· / n) }) := by
  unfold sixlin
  dsimp only
  simp only [tot_mean, tot_cov, tot_var, sub_add_cancel]
  rfl

theorem fsqrt_nonneg {v : ℝ} (h : 0 ≤ v) : fsqrt v = some √v := by unfold fsqrt; rw [if_neg h.not_gt]

end data

end Verif.Regress
