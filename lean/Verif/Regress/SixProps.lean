import Verif.Regress.SixLemmas
import Mathlib.Data.List.MinMax
import Mathlib.Tactic.NormNum
import Mathlib.Algebra.BigOperators.Intervals

/-!
# C121, C122: six regressions
-/

set_option linter.unusedSectionVars false

namespace Verif.Regress

open Real

/-- The least and the greatest of some numbers. -/
def Extent (v : List ℝ) (lo hi : Option ℝ) : Prop :=
  ∃ l h, lo = some l ∧ hi = some h ∧ l ∈ v ∧ h ∈ v ∧ ∀ u ∈ v, l ≤ u ∧ u ≤ h

theorem extent {v : List ℝ} (hv : v ≠ []) : Extent v v.min? v.max? := by
  obtain ⟨l, hl⟩ := Option.ne_none_iff_exists'.1 (show v.min? ≠ none by simpa using hv)
  obtain ⟨h, hh⟩ := Option.ne_none_iff_exists'.1 (show v.max? ≠ none by simpa using hv)
  have h1 := (List.min?_eq_some_iff).1 hl
  have h2 := (List.max?_eq_some_iff).1 hh
  exact ⟨l, h, hl, hh, h1.1, h2.1, fun u hu => ⟨h1.2 u hu, h2.2 u hu⟩⟩

/-- **C121.**  `SixLin(x, y)` raises `ValueError` exactly when the lengths differ, there are fewer than two points, or the sum of products of deviations is zero.  Otherwise each of the six results has the slope and the intercept of the line it names, which is the only such line; the data as given; and their extent. -/
theorem C121_lines (x y : List ℝ) :
    (SixLin x y = .error .value ∧ (y.length ≠ x.length ∨ x.length < 2 ∨ cov x.length one (arr x) (arr y) = 0)) ∨
    (y.length = x.length ∧ 2 ≤ x.length ∧ cov x.length one (arr x) (arr y) ≠ 0 ∧ ∃ r, SixLin x y = .ok r ∧ ∀ j, ∃ a b,
      (r j).slope = some b ∧ (r j).inter = some a ∧ (∀ a' b', IsLine x.length one (arr x) (arr y) j a' b' ↔ a' = a ∧ b' = b) ∧
      (r j).x = x ∧ (r j).y = y ∧ (r j).npts = x.length ∧ Extent x (r j).xmin (r j).xmax ∧ Extent y (r j).ymin (r j).ymax) := by
  unfold SixLin
  rw [sixlin_eq]
  by_cases h1 : y.length ≠ x.length
  · rw [if_pos h1]; exact Or.inl ⟨rfl, Or.inl h1⟩
  rw [if_neg h1]
  by_cases h2 : x.length < 2
  · rw [if_pos h2]; exact Or.inl ⟨rfl, Or.inr (Or.inl h2)⟩
  rw [if_neg h2]
  by_cases h3 : cov x.length one (arr x) (arr y) = 0
  · rw [if_pos h3]; exact Or.inl ⟨rfl, Or.inr (Or.inr h3)⟩
  rw [if_neg h3]
  push Not at h1 h2
  refine Or.inr ⟨h1, h2, h3, _, rfl, fun j => ⟨_, _, rfl, rfl, fun a' b' => ?_, rfl, rfl, rfl, ?_, ?_⟩⟩
  · obtain ⟨hx, hy⟩ := cov_pos (w := one) (fun _ _ => zero_le_one) h3
    have hW : 0 < ∑ i ∈ Finset.range x.length, one i := by
      simp only [Finset.sum_const, Finset.card_range, nsmul_eq_mul, mul_one]
      exact_mod_cast (by omega : 0 < x.length)
    rw [isLine_iff hW hx hy h3, isSlope_iff hx hy h3, centred_iff]
    constructor
    · rintro ⟨h, h'⟩; subst h; exact ⟨h', rfl⟩
    · rintro ⟨h', h⟩; subst h; exact ⟨rfl, h'⟩
  · exact extent (by rintro rfl; simp at h2)
  · exact extent (by rintro rfl; simp at h1; omega)

/-- Three points with a slope of each sign satisfy the hypotheses. -/
example : cov 3 one (arr [0, 1, 2]) (arr [0, 1, -1]) ≠ 0 := by
  unfold cov mean arr one; simp [Finset.sum_range_succ]; norm_num

/-- **C122, what holds.**  The standard error of every slope, and of every intercept but that of an orthogonal line of negative slope, is the square root of the sum of the squares of the rates at which it changes with the weights of the data (the infinitesimal jackknife).  Missing: the intercept of an orthogonal line of negative slope. -/
theorem C122_errors_partial (x y : List ℝ) (r) (h : SixLin x y = .ok r) (j : Fin 6) :
    ∃ da db : ℕ → ℝ, (∀ i < x.length, ∀ da' db', Influence x.length (arr x) (arr y) j i da' db' ↔ da' = da i ∧ db' = db i) ∧
      (r j).serr = some √(∑ i ∈ Finset.range x.length, db i ^ 2) ∧
      ((j = 3 → ∃ b, (r 3).slope = some b ∧ 0 < b) → (r j).ierr = some √(∑ i ∈ Finset.range x.length, da i ^ 2)) := by
  unfold SixLin at h
  rw [sixlin_eq] at h
  split at h
  · simp at h
  split at h
  · simp at h
  rename_i h1 h2
  by_cases h3 : cov x.length one (arr x) (arr y) = 0
  · rw [if_pos h3] at h; simp at h
  rw [if_neg h3] at h
  dsimp only at h
  obtain rfl := Except.ok.inj h
  have hn : 0 < x.length := by omega
  have hn' : (0 : ℝ) < x.length := by exact_mod_cast hn
  refine ⟨inflA x.length (arr x) (arr y) j, inflB x.length (arr x) (arr y) j, fun i hi da' db' => influence_iff h3 hi j da' db', ?_, ?_⟩
  · show fsqrt _ = _
    rw [slopeVars_eq h3]
    exact fsqrt_nonneg (Finset.sum_nonneg fun i _ => sq_nonneg _)
  · intro hj
    show Option.map _ (fsqrt _) = _
    have hpos : j = 3 → 0 < cov x.length one (arr x) (arr y) := by
      intro e
      obtain ⟨b, hb, hb0⟩ := hj e
      have hb' := Option.some.inj hb
      obtain ⟨-, hq⟩ := orth_root (vx := cov x.length one (arr x) (arr x)) (vy := cov x.length one (arr y) (arr y)) h3
      have e3 : orthSlope (sgn (cov x.length one (arr x) (arr y))) (cov x.length one (arr x) (arr y) / cov x.length one (arr x) (arr x))
        (cov x.length one (arr y) (arr y) / cov x.length one (arr x) (arr y)) = b := hb'
      simp only [e3] at hq
      exact (div_pos_iff_of_pos_right hb0).1 hq
    rw [interSums_eq hn h3 j hpos, fsqrt_nonneg (by positivity), Option.map_some, sqrt_mul (by positivity), sqrt_sq hn'.le,
      mul_div_cancel_left₀ _ hn'.ne']

theorem sixLin_ok {x y : List ℝ} (h1 : y.length = x.length) (h2 : 2 ≤ x.length) (hc : cov x.length one (arr x) (arr y) ≠ 0) :
    SixLin x y = .ok fun j => linReg (some (slopeOf x.length (arr x) (arr y) j))
      (some (mean x.length one (arr y) - slopeOf x.length (arr x) (arr y) j * mean x.length one (arr x)))
      (fsqrt (slopeVars x.length (fun i => arr x i - mean x.length one (arr x)) (fun i => arr y i - mean x.length one (arr y))
        (cov x.length one (arr x) (arr x)) (cov x.length one (arr x) (arr y)) (slopeOf x.length (arr x) (arr y)) j))
      ((fsqrt (interSums x.length (fun i => arr x i - mean x.length one (arr x)) (fun i => arr y i - mean x.length one (arr y))
        (mean x.length one (arr x)) (cov x.length one (arr x) (arr x)) (cov x.length one (arr x) (arr y))
        (slopeOf x.length (arr x) (arr y)) j)).map (· / x.length)) x y none none := by
  unfold SixLin
  rw [sixlin_eq, if_neg (not_not.2 h1), if_neg h2.not_gt, if_neg hc]

/-- **C122, where it fails.**  For the points (0,0), (1,1), (2,-1), whose orthogonal line has slope -1, the standard error of its intercept is a fifth of what it should be. -/
theorem C122_violated_orthog : ∃ (x y : List ℝ) (r : Fin 6 → LinReg), SixLin x y = .ok r ∧ ∃ v, (r 3).ierr = some v ∧ 0 < v ∧
    ∀ da db : ℕ → ℝ, (∀ i < x.length, Influence x.length (arr x) (arr y) 3 i (da i) (db i)) →
      √(∑ i ∈ Finset.range x.length, da i ^ 2) = 5 * v := by
  have mx : mean 3 one (arr [0, 1, 2]) = 1 := by unfold mean arr one; simp [Finset.sum_range_succ]; norm_num
  have my : mean 3 one (arr [0, 1, -1]) = 0 := by unfold mean arr one; simp [Finset.sum_range_succ]
  have cxx : cov 3 one (arr [0, 1, 2]) (arr [0, 1, 2]) = 2 := by
    unfold cov; rw [mx]; unfold arr one; simp [Finset.sum_range_succ]; norm_num
  have cyy : cov 3 one (arr [0, 1, -1]) (arr [0, 1, -1]) = 2 := by
    unfold cov; rw [my]; unfold arr one; simp [Finset.sum_range_succ]; norm_num
  have cxy : cov 3 one (arr [0, 1, 2]) (arr [0, 1, -1]) = -1 := by
    unfold cov; rw [mx, my]; unfold arr one; simp [Finset.sum_range_succ]; norm_num
  have hc : cov 3 one (arr [0, 1, 2]) (arr [0, 1, -1]) ≠ 0 := by rw [cxy]; norm_num
  have sq4 : √(4 : ℝ) = 2 := by rw [show (4 : ℝ) = 2 ^ 2 by norm_num]; exact sqrt_sq (by norm_num)
  have hsg : sgn (-1) = -1 := by unfold sgn; rw [if_pos (by norm_num)]
  have ho : orthSlope (-1) (-1 / 2) (2 / -1) = -1 := by
    unfold orthSlope
    rw [show (2 / -1 - 1 / (-1 / 2) : ℝ) = 0 by norm_num, show (4 + 0 ^ 2 : ℝ) = 4 by norm_num, sq4]; norm_num
  have hb : slopeOf 3 (arr [0, 1, 2]) (arr [0, 1, -1]) 3 = -1 := by
    show orthSlope _ _ _ = _
    rw [cxx, cyy, cxy, hsg, ho]
  have hg : gam2 (-1 / 2) (2 / -1) (-1) = -1 := by
    unfold gam2
    rw [show (4 * (-1 / 2) ^ 2 + (-1 / 2 * (2 / -1) - 1) ^ 2 : ℝ) = 1 by norm_num, sqrt_one]; norm_num
  have hInt : interSums 3 (fun i => arr [0, 1, 2] i - 1) (fun i => arr [0, 1, -1] i - 0) 1 2 (-1) (slopeOf 3 (arr [0, 1, 2]) (arr [0, 1, -1])) 3
      = 1 / 2 := by
    unfold interSums
    simp only [Matrix.cons_val]
    rw [tot_eq]
    have h0 : slopeOf 3 (arr [0, 1, 2]) (arr [0, 1, -1]) 0 = -1 / 2 := by show _ / _ = _; rw [cxx, cxy]
    have h1 : slopeOf 3 (arr [0, 1, 2]) (arr [0, 1, -1]) 1 = 2 / -1 := by show _ / _ = _; rw [cyy, cxy]
    rw [hb, h0, h1, hg, sqrt_sq_eq_abs, show |(-1 / 2 : ℝ)| = 1 / 2 by rw [abs_of_neg] <;> norm_num]
    unfold arr; simp [Finset.sum_range_succ]; norm_num
  refine ⟨[0, 1, 2], [0, 1, -1], _, sixLin_ok rfl (by simp) hc, ?_⟩
  · refine ⟨√(1 / 2) / 3, ?_, by positivity, ?_⟩
    · show Option.map _ (fsqrt _) = _
      simp only [show ([0, 1, 2] : List ℝ).length = 3 from rfl]
      rw [mx, my, cxx, cxy, hInt, fsqrt_nonneg (by norm_num)]
      simp
    · intro da db h
      have hA : ∀ i < 3, da i = inflA 3 (arr [0, 1, 2]) (arr [0, 1, -1]) 3 i :=
        fun i hi => ((influence_iff hc hi 3 _ _).1 (h i hi)).1
      have hB : ∀ i, inflB 3 (arr [0, 1, 2]) (arr [0, 1, -1]) 3 i =
          infl1 3 (arr [0, 1, 2]) (arr [0, 1, -1]) i / (1 / 2) + 1 / 2 * infl2 3 (arr [0, 1, 2]) (arr [0, 1, -1]) i := by
        intro i
        show sgn _ * gam2 _ _ (orthSlope _ _ _) * _ = _
        rw [cxx, cyy, cxy, hsg, ho, hg, show |(-1 / 2 : ℝ)| = 1 / 2 by rw [abs_of_neg] <;> norm_num]
        ring
      have hs : ∑ i ∈ Finset.range 3, da i ^ 2 = 25 / 9 * (1 / 2) := by
        simp only [Finset.sum_range_succ, Finset.sum_range_zero]
        rw [hA 0 (by norm_num), hA 1 (by norm_num), hA 2 (by norm_num)]
        unfold inflA
        simp only [hB, hb, mx, my]
        unfold infl1 infl2
        rw [mx, my, cxx, cyy, cxy]
        simp [arr]; norm_num
      show √(∑ i ∈ Finset.range 3, da i ^ 2) = _
      rw [hs, sqrt_mul (by norm_num), show (25 / 9 : ℝ) = (5 / 3) ^ 2 by norm_num, sqrt_sq (by norm_num)]
      ring

end Verif.Regress
