import Verif.Regress.BcesProps

/-!
# C125, C126: weighted least squares with scatter; bivariate statistics
-/

set_option linter.unusedSectionVars false

namespace Verif.Regress

open Real

variable {n : ℕ} {x y w : ℕ → ℝ}

/-- What `wlss` accepts. -/
def WAccepts (x y : List ℝ) (yerr : Errs) : Prop :=
  yerr.Fits x.length ∧ y.length = x.length ∧ 2 ≤ x.length ∧ cov x.length one (arr x) (arr y) ≠ 0

/-- The variance of the scatter: the mean squared residual of the least-squares line, less the mean squared measurement error. -/
def IsScatter (n : ℕ) (x y e : ℕ → ℝ) (s2 : ℝ) : Prop :=
  ∃ a b, YonX n one x y a b ∧ s2 = ss n one x y a b / n - mean n one fun i => e i ^ 2

theorem spread (hw : ∀ i < n, 0 < w i) (hx : 0 < cov n one x x) : 0 < cov n w x x := by
  rcases (cov_nonneg (fun i hi => (hw i hi).le) x).lt_or_eq with h | h
  · exact h
  · exfalso
    have h0 : ∀ i ∈ Finset.range n, w i * ((x i - mean n w x) * (x i - mean n w x)) = 0 :=
      (Finset.sum_eq_zero_iff_of_nonneg fun i hi => mul_nonneg (hw i (Finset.mem_range.1 hi)).le (mul_self_nonneg _)).1 h.symm
    have hc : ∀ i < n, x i = mean n w x := by
      intro i hi
      have := h0 i (Finset.mem_range.2 hi)
      have := mul_self_eq_zero.1 ((mul_eq_zero.1 this).resolve_left (hw i hi).ne')
      linarith
    have hn : 0 < n := by
      rcases Nat.eq_zero_or_pos n with h | h
      · subst h; simp [cov] at hx
      · exact h
    have hm : mean n one x = mean n w x := by
      have hpos : (n : ℝ) ≠ 0 := by exact_mod_cast hn.ne'
      rw [mean_one, Finset.sum_congr rfl (fun i hi => hc i (Finset.mem_range.1 hi)), Finset.sum_const, Finset.card_range, nsmul_eq_mul,
        mul_div_cancel_left₀ _ hpos]
    have : cov n one x x = 0 := by
      unfold cov
      refine Finset.sum_eq_zero fun i hi => ?_
      rw [hm, ← hc i (Finset.mem_range.1 hi)]; simp
    rw [this] at hx
    exact lt_irrefl _ hx

theorem moments (hW : ∑ i ∈ Finset.range n, w i ≠ 0) (u v : ℕ → ℝ) :
    (∑ i ∈ Finset.range n, w i) * (∑ i ∈ Finset.range n, w i * (u i * v i)) - (∑ i ∈ Finset.range n, w i * u i) * (∑ i ∈ Finset.range n, w i * v i) =
      (∑ i ∈ Finset.range n, w i) * cov n w u v := by
  rw [cov_eq hW]
  field_simp

theorem residual (hn : 0 < n) (hx : 0 < cov n one x x) {a b : ℝ} (h : YonX n one x y a b) :
    (∑ i ∈ Finset.range n, (y i - a - b * x i - mean n one fun i => y i - a - b * x i) ^ 2) = ss n one x y a b := by
  have hn' : (n : ℝ) ≠ 0 := by exact_mod_cast hn.ne'
  have hW : 0 < ∑ i ∈ Finset.range n, one i := by unfold one; simpa using hn
  have hc := ((yonx_iff hW hx a b).1 h).2
  have hm : (mean n one fun i => y i - a - b * x i) = 0 := by
    unfold Centred at hc
    rw [mean_one] at hc ⊢
    rw [mean_one] at hc
    simp only [Finset.sum_sub_distrib, Finset.sum_const, Finset.card_range, nsmul_eq_mul, ← Finset.mul_sum]
    rw [sub_div, sub_div, hc, mul_div_cancel_left₀ _ hn']; ring
  unfold ss
  refine Finset.sum_congr rfl fun i _ => ?_
  rw [hm, sub_zero, show one i = 1 from rfl, one_mul]

theorem wlss_error (x y : List ℝ) (yerr : Errs) : wlss x y yerr = .error .value ↔ ¬ WAccepts x y yerr := by
  unfold wlss
  by_cases h1 : yerr.Fits x.length
  swap
  · rw [errVec_err h1]; exact ⟨fun _ h => h1 h.1, fun _ => rfl⟩
  obtain ⟨ye, e1, -⟩ := errVec_ok h1
  rw [e1]
  dsimp only
  by_cases h2 : y.length = x.length
  swap
  · rw [if_pos h2]; exact ⟨fun _ h => h2 h.2.1, fun _ => rfl⟩
  rw [if_neg (not_not.2 h2)]
  by_cases h3 : 2 ≤ x.length
  swap
  · rw [if_pos (by omega)]; exact ⟨fun _ h => h3 h.2.2.1, fun _ => rfl⟩
  rw [if_neg h3.not_gt]
  unfold wlssF
  rw [sixlin_eq]
  by_cases h4 : cov x.length one (arr x) (arr y) = 0
  · rw [if_pos h4]; exact ⟨fun _ h => h.2.2.2 h4, fun _ => rfl⟩
  · rw [if_neg h4]
    dsimp only
    constructor
    · intro h
      split at h
      · contradiction
      · cases h
      · cases h
    · intro h; exact absurd ⟨h1, h2, h3, h4⟩ h

/-- The rest of `wlss` in terms of weighted moments. -/
theorem wlss_ok {x y : List ℝ} {yerr : Errs} (h : WAccepts x y yerr) : ∃ s2, IsScatter x.length (arr x) (arr y) (yerr.at x.length) s2 ∧
    (∀ s', IsScatter x.length (arr x) (arr y) (yerr.at x.length) s' → s' = s2) ∧
    ∃ r, wlss x y yerr = .ok (r, fsqrt s2) ∧ r.x = x ∧ r.y = y ∧ r.npts = x.length ∧
      ((∀ i < x.length, s2 + yerr.at x.length i ^ 2 ≠ 0) →
        let w := fun i => 1 / (s2 + yerr.at x.length i ^ 2)
        let W := ∑ i ∈ Finset.range x.length, w i
        let S := cov x.length w (arr x) (arr x)
        let b := cov x.length w (arr x) (arr y) / S
        W ≠ 0 → S ≠ 0 → r.slope = some b ∧ r.inter = some (mean x.length w (arr y) - b * mean x.length w (arr x)) ∧
          r.serr = fsqrt (1 / S) ∧ r.ierr = fsqrt (1 / W + mean x.length w (arr x) ^ 2 / S)) ∧
      ((∃ i < x.length, s2 + yerr.at x.length i ^ 2 = 0) → r.slope = none ∧ r.inter = none ∧ r.serr = none ∧ r.ierr = none) := by
  obtain ⟨h1, h2, h3, h4⟩ := h
  obtain ⟨ye, e1, a1⟩ := errVec_ok h1
  have hn : 0 < x.length := by omega
  have hn' := n_ne h3
  obtain ⟨hx, hy⟩ := cov_pos (w := one) (fun _ _ => zero_le_one) h4
  have hW1 : 0 < ∑ i ∈ Finset.range x.length, one i := by unfold one; simpa using hn
  have hY := (yonx_iff (y := arr y) hW1 hx (mean x.length one (arr y) - slopeOf x.length (arr x) (arr y) 0 * mean x.length one (arr x))
    (slopeOf x.length (arr x) (arr y) 0)).2 ⟨rfl, by unfold Centred; ring⟩
  have hev : (tot x.length fun i => (arr y i - (mean x.length one (arr y) - slopeOf x.length (arr x) (arr y) 0 * mean x.length one (arr x))
      - slopeOf x.length (arr x) (arr y) 0 * arr x i - (tot x.length fun i => arr y i - (mean x.length one (arr y) - slopeOf x.length (arr x) (arr y) 0 *
        mean x.length one (arr x)) - slopeOf x.length (arr x) (arr y) 0 * arr x i) / x.length) ^ 2) / x.length - (tot x.length fun i => arr ye i ^ 2) / x.length =
      ss x.length one (arr x) (arr y) (mean x.length one (arr y) - slopeOf x.length (arr x) (arr y) 0 * mean x.length one (arr x))
        (slopeOf x.length (arr x) (arr y) 0) / x.length - mean x.length one fun i => yerr.at x.length i ^ 2 := by
    rw [← residual hn hx hY, ← a1]; simp only [tot_eq, mean_one]
  refine ⟨_, ⟨_, _, hY, rfl⟩, ?_, ?_⟩
  · rintro s' ⟨a, b, hab, rfl⟩
    have := le_antisymm (hab (mean x.length one (arr y) - slopeOf x.length (arr x) (arr y) 0 * mean x.length one (arr x)) (slopeOf x.length (arr x) (arr y) 0)) (hY a b)
    rw [this]
  generalize hs2 : ss x.length one (arr x) (arr y) (mean x.length one (arr y) - slopeOf x.length (arr x) (arr y) 0 * mean x.length one (arr x))
        (slopeOf x.length (arr x) (arr y) 0) / x.length - (mean x.length one fun i => yerr.at x.length i ^ 2) = s2
  rw [hs2] at hev
  unfold wlss
  rw [e1]
  dsimp only
  rw [if_neg (not_not.2 h2), if_neg h3.not_gt]
  unfold wlssF
  rw [sixlin_eq, if_neg h4]
  dsimp only
  rw [hev, a1]
  simp only [tot_eq]
  by_cases hz : ∃ i < x.length, s2 + yerr.at x.length i ^ 2 = 0
  · rw [if_pos]
    swap
    · left
      obtain ⟨i, hi, h0⟩ := hz
      rw [List.any_eq_true]
      exact ⟨i, List.mem_range.2 hi, by simpa using h0⟩
    refine ⟨_, rfl, rfl, rfl, rfl, ?_, fun _ => ⟨rfl, rfl, rfl, rfl⟩⟩
    intro hp
    obtain ⟨i, hi, h0⟩ := hz
    exact absurd h0 (hp i hi)
  · by_cases hp : ∑ i ∈ Finset.range x.length, 1 / (s2 + yerr.at x.length i ^ 2) ≠ 0 ∧
        cov x.length (fun i => 1 / (s2 + yerr.at x.length i ^ 2)) (arr x) (arr x) ≠ 0
    · obtain ⟨hWp, hS⟩ := hp
      set w : ℕ → ℝ := fun i => 1 / (s2 + yerr.at x.length i ^ 2) with hw
      have c0 : ∑ i ∈ Finset.range x.length, 1 / (s2 + yerr.at x.length i ^ 2) = ∑ i ∈ Finset.range x.length, w i := rfl
      rw [c0] at hWp
      have c1 : ∀ u : ℕ → ℝ, ∑ i ∈ Finset.range x.length, u i / (s2 + yerr.at x.length i ^ 2) = ∑ i ∈ Finset.range x.length, w i * u i :=
        fun u => Finset.sum_congr rfl fun i _ => by rw [hw]; ring
      have m1 := moments hWp (arr x) (arr x)
      have m2 := moments hWp (arr x) (arr y)
      have hmx : mean x.length w (arr x) = (∑ i ∈ Finset.range x.length, w i * arr x i) / ∑ i ∈ Finset.range x.length, w i := rfl
      have hmy : mean x.length w (arr y) = (∑ i ∈ Finset.range x.length, w i * arr y i) / ∑ i ∈ Finset.range x.length, w i := rfl
      simp only [c1, c1 (fun _ => 1)]
      rw [sq (∑ i ∈ Finset.range x.length, w i * arr x i), m1]
      set W := ∑ i ∈ Finset.range x.length, w i
      set Sx := ∑ i ∈ Finset.range x.length, w i * arr x i
      set Sy := ∑ i ∈ Finset.range x.length, w i * arr y i
      set Sxx := ∑ i ∈ Finset.range x.length, w i * (arr x i * arr x i)
      set Sxy := ∑ i ∈ Finset.range x.length, w i * (arr x i * arr y i)
      set S := cov x.length w (arr x) (arr x)
      set T := cov x.length w (arr x) (arr y)
      have hSx : mean x.length w (arr x) * W = Sx := by rw [hmx]; field_simp
      have hSy : mean x.length w (arr y) * W = Sy := by rw [hmy]; field_simp
      generalize mean x.length w (arr x) = μ at *
      generalize mean x.length w (arr y) = ν at *
      have hSxx : Sxx = S + W * μ ^ 2 := by
        have : W * Sxx = W * (S + W * μ ^ 2) := by rw [← hSx] at m1; linear_combination m1
        exact mul_left_cancel₀ hWp this
      have hSxy : Sxy = T + W * μ * ν := by
        have : W * Sxy = W * (T + W * μ * ν) := by rw [← hSx, ← hSy] at m2; linear_combination m2
        exact mul_left_cancel₀ hWp this
      rw [if_neg]
      swap
      · push Not
        refine ⟨?_, mul_ne_zero hWp hS⟩
        intro hh
        rw [List.any_eq_true] at hh
        obtain ⟨i, hi, h0⟩ := hh
        exact hz ⟨i, List.mem_range.1 hi, by simpa using h0⟩
      refine ⟨_, rfl, rfl, rfl, rfl, fun _ _ _ => ⟨?_, ?_, ?_, ?_⟩, fun h0 => absurd h0 hz⟩
      · show some _ = _
        congr 1
        rw [hSxy, ← hSx, ← hSy]; field_simp; ring
      · show some _ = _
        congr 1
        rw [hSxx, hSxy, ← hSx, ← hSy]; field_simp; ring
      · show fsqrt _ = _
        have : W / (W * S) = 1 / S := by field_simp
        rw [this]
      · show fsqrt _ = _
        have : Sxx / (W * S) = 1 / W + μ ^ 2 / S := by rw [hSxx]; field_simp
        rw [this]
    · by_cases hd : ((∑ i ∈ Finset.range x.length, 1 / (s2 + yerr.at x.length i ^ 2)) * (∑ i ∈ Finset.range x.length, arr x i * arr x i / (s2 + yerr.at x.length i ^ 2)) -
          (∑ i ∈ Finset.range x.length, arr x i / (s2 + yerr.at x.length i ^ 2)) ^ 2) = 0
      · rw [if_pos (Or.inr hd)]
        exact ⟨_, rfl, rfl, rfl, rfl, fun _ h1 h2 => absurd ⟨h1, h2⟩ hp, fun h => absurd h hz⟩
      · rw [if_neg]
        · exact ⟨_, rfl, rfl, rfl, rfl, fun _ h1 h2 => absurd ⟨h1, h2⟩ hp, fun h => absurd h hz⟩
        · push Not
          refine ⟨?_, hd⟩
          intro hh
          rw [List.any_eq_true] at hh
          obtain ⟨i, hi, h0⟩ := hh
          exact hz ⟨i, List.mem_range.1 hi, by simpa using h0⟩

/-- The least extent that covers all error bars. -/
def Box (n : ℕ) (u e : ℕ → ℝ) (lo hi : Option ℝ) : Prop :=
  ∃ l h, lo = some l ∧ hi = some h ∧ (∀ i < n, l ≤ u i - e i ∧ u i + e i ≤ h) ∧ (∃ i < n, l = u i - e i) ∧ ∃ i < n, h = u i + e i

theorem box {u e : List ℝ} (h0 : 0 < u.length) (he : e.length = u.length) :
    Box u.length (arr u) (arr e) (List.zipWith (· - ·) u e).min? (List.zipWith (· + ·) u e).max? := by
  have ne1 : List.zipWith (fun a b : ℝ => a - b) u e ≠ [] := by
    intro h; have := congrArg List.length h; simp only [List.length_zipWith, List.length_nil] at this; omega
  have ne2 : List.zipWith (fun a b : ℝ => a + b) u e ≠ [] := by
    intro h; have := congrArg List.length h; simp only [List.length_zipWith, List.length_nil] at this; omega
  obtain ⟨l, _, hl, _, hl1, _, hl2⟩ := extent ne1
  obtain ⟨_, h, _, hh, _, hh1, hh2⟩ := extent ne2
  have a1 : ∀ i (hi : i < u.length), arr u i = u[i] := fun i hi => by unfold arr; simp [List.getD_eq_getElem?_getD, hi]
  have a2 : ∀ i (hi : i < u.length), arr e i = e[i]'(by omega) := fun i hi => by
    unfold arr; rw [List.getD_eq_getElem?_getD, List.getElem?_eq_getElem (by omega)]; rfl
  refine ⟨l, h, hl, hh, fun i hi => ⟨?_, ?_⟩, ?_, ?_⟩
  · rw [a1 i hi, a2 i hi]
    exact (hl2 _ (List.mem_iff_getElem.2 ⟨i, by simp only [List.length_zipWith]; omega, by rw [List.getElem_zipWith]⟩)).1
  · rw [a1 i hi, a2 i hi]
    exact (hh2 _ (List.mem_iff_getElem.2 ⟨i, by simp only [List.length_zipWith]; omega, by rw [List.getElem_zipWith]⟩)).2
  · obtain ⟨i, hi, e⟩ := List.mem_iff_getElem.1 hl1
    simp only [List.length_zipWith] at hi
    refine ⟨i, by omega, ?_⟩
    rw [List.getElem_zipWith] at e
    rw [a1 i (by omega), a2 i (by omega), e]
  · obtain ⟨i, hi, e⟩ := List.mem_iff_getElem.1 hh1
    simp only [List.length_zipWith] at hi
    refine ⟨i, by omega, ?_⟩
    rw [List.getElem_zipWith] at e
    rw [a1 i (by omega), a2 i (by omega), e]

theorem errVec_len {n : ℕ} {e : Errs} {v} (h : errVec n e = .ok v) : v.length = n ∧ arr v = e.at n := by
  by_cases hf : e.Fits n
  · obtain ⟨v', e1, e2⟩ := errVec_ok hf
    rw [h] at e1
    obtain rfl := Except.ok.inj e1
    refine ⟨?_, e2⟩
    match e, h, hf with
    | .scalar c, h, _ => obtain rfl := Except.ok.inj h; simp
    | .vector l, h, hf =>
      have h' : errVec n (.vector l) = .ok l := if_neg (not_not.2 hf)
      rw [h'] at h
      obtain rfl := Except.ok.inj h
      exact hf
  · rw [errVec_err hf] at h; cases h

/-- **C123, what holds (3).**  The results of `BCES` keep the data, and their extent is the least that covers the error bars. -/
theorem C123_box (x y : List ℝ) (xerr yerr covar : Errs) (l s3 s4) (h : BCES x xerr y yerr covar = .ok (some (l, s3, s4))) (j : Fin 4) :
    (l j).x = x ∧ (l j).y = y ∧ (l j).npts = x.length ∧ Box x.length (arr x) (xerr.at x.length) (l j).xmin (l j).xmax ∧
      Box x.length (arr y) (yerr.at x.length) (l j).ymin (l j).ymax := by
  unfold BCES at h
  split at h
  · rename_i xe ye ce e1 e2 e3
    obtain ⟨l1, a1⟩ := errVec_len e1
    obtain ⟨l2, a2⟩ := errVec_len e2
    split at h
    · cases h
    split at h
    · cases h
    rename_i h1 h2
    split at h
    · cases h
    have h3 := Except.ok.inj h
    have h4 := Option.some.inj h3
    have h5 : _ = l := congrArg Prod.fst h4
    subst h5
    have hy : y.length = x.length := not_not.1 h1
    refine ⟨rfl, rfl, rfl, ?_, ?_⟩
    · rw [← a1]; exact box (by omega) l1
    · rw [← a2, ← hy]; exact box (by omega) (by omega)
  all_goals cases h

/-- **C125, what holds (1).**  `wlss` raises `ValueError` exactly when an argument has the wrong length, there are fewer than two points, or the sum of products of deviations is zero.  Otherwise `scat` is the square root of the variance of the scatter, when that is not negative.  If in addition the variance of every datum (scatter and measurement) is positive, the line is the one that fits best with the inverses of these variances as weights, and the standard errors are those of the slope and the intercept as linear functions of the `y` values, each with its variance.  Missing: estimated variances that are not positive. -/
theorem C125_fit_partial (x y : List ℝ) (yerr : Errs) :
    (wlss x y yerr = .error .value ↔ ¬ WAccepts x y yerr) ∧
    (WAccepts x y yerr → ∃ s2 r scat, (∀ s, IsScatter x.length (arr x) (arr y) (yerr.at x.length) s ↔ s = s2) ∧ wlss x y yerr = .ok (r, scat) ∧
      (0 ≤ s2 → scat = some √s2) ∧ r.x = x ∧ r.y = y ∧ r.npts = x.length ∧
      ((∀ i < x.length, 0 < s2 + yerr.at x.length i ^ 2) →
        ∃ a b, r.slope = some b ∧ r.inter = some a ∧
          (∀ a' b', YonX x.length (fun i => 1 / (s2 + yerr.at x.length i ^ 2)) (arr x) (arr y) a' b' ↔ a' = a ∧ b' = b) ∧
          ∃ k m : ℕ → ℝ, (∀ y' : ℕ → ℝ, YonX x.length (fun i => 1 / (s2 + yerr.at x.length i ^ 2)) (arr x) y'
              (∑ i ∈ Finset.range x.length, m i * y' i) (∑ i ∈ Finset.range x.length, k i * y' i)) ∧
            r.serr = some √(∑ i ∈ Finset.range x.length, k i ^ 2 * (s2 + yerr.at x.length i ^ 2)) ∧
            r.ierr = some √(∑ i ∈ Finset.range x.length, m i ^ 2 * (s2 + yerr.at x.length i ^ 2)))) := by
  refine ⟨wlss_error x y yerr, fun hA => ?_⟩
  obtain ⟨s2, hs, hu, r, hr, h1, h2, h3, hpos, -⟩ := wlss_ok hA
  refine ⟨s2, r, _, fun s => ⟨hu s, fun e => e ▸ hs⟩, hr, fsqrt_nonneg, h1, h2, h3, fun hp => ?_⟩
  have hwp : ∀ i < x.length, 0 < (fun i => 1 / (s2 + yerr.at x.length i ^ 2)) i := fun i hi => one_div_pos.2 (hp i hi)
  have hW := Finset.sum_pos (fun i hi => hwp i (Finset.mem_range.1 hi)) ⟨0, Finset.mem_range.2 (show 0 < x.length by have := hA.2.2.1; omega)⟩
  have hS := spread hwp (cov_pos (w := one) (fun _ _ => zero_le_one) hA.2.2.2).1
  obtain ⟨hb, ha, hse, hie⟩ := hpos (fun i hi => (hp i hi).ne') hW.ne' hS.ne'
  rw [fsqrt_nonneg (by positivity)] at hse hie
  set w : ℕ → ℝ := fun i => 1 / (s2 + yerr.at x.length i ^ 2) with hw
  refine ⟨_, _, hb, ha, fun a' b' => ?_, ?_⟩
  · rw [yonx_iff hW hS]
    unfold Centred
    constructor
    · rintro ⟨rfl, h⟩; exact ⟨by linarith, rfl⟩
    · rintro ⟨rfl, rfl⟩; exact ⟨rfl, by ring⟩
  have hd := dev_sum hW.ne' (arr x)
  have hwv : ∀ i ∈ Finset.range x.length, w i * (s2 + yerr.at x.length i ^ 2) = 1 := fun i hi =>
    one_div_mul_cancel (hp i (Finset.mem_range.1 hi)).ne'
  set μ := mean x.length w (arr x)
  set S := cov x.length w (arr x) (arr x) with hSd
  set W := ∑ i ∈ Finset.range x.length, w i with hWd
  refine ⟨fun i => w i * (arr x i - μ) / S, fun i => w i / W - μ * (w i * (arr x i - μ) / S), fun y' => ?_, ?_, ?_⟩
  · have hk : ∑ i ∈ Finset.range x.length, w i * (arr x i - μ) / S * y' i = cov x.length w (arr x) y' / S := by
      unfold cov
      rw [Finset.sum_div]
      have : ∀ i ∈ Finset.range x.length, w i * (arr x i - μ) / S * y' i =
          w i * ((arr x i - mean x.length w (arr x)) * (y' i - mean x.length w y')) / S + mean x.length w y' / S * (w i * (arr x i - μ)) := by
        intro i _; show _ = w i * ((arr x i - μ) * _) / S + _; ring
      rw [Finset.sum_congr rfl this, Finset.sum_add_distrib, ← Finset.mul_sum, hd, mul_zero, add_zero]
    have hm : ∑ i ∈ Finset.range x.length, (w i / W - μ * (w i * (arr x i - μ) / S)) * y' i =
        mean x.length w y' - cov x.length w (arr x) y' / S * μ := by
      simp only [sub_mul, Finset.sum_sub_distrib, mul_assoc μ]
      rw [← Finset.mul_sum, hk]
      have : ∑ i ∈ Finset.range x.length, w i / W * y' i = mean x.length w y' := by
        unfold mean; rw [Finset.sum_div]; exact Finset.sum_congr rfl fun i _ => by rw [hWd]; ring
      rw [this]; ring
    rw [yonx_iff hW hS, hk, hm]
    refine ⟨rfl, ?_⟩
    unfold Centred
    show _ = _ + _ * μ
    ring
  · rw [hse]
    congr 2
    have : ∀ i ∈ Finset.range x.length, (w i * (arr x i - μ) / S) ^ 2 * (s2 + yerr.at x.length i ^ 2) = w i * ((arr x i - μ) * (arr x i - μ)) / S ^ 2 := by
      intro i hi
      have := hwv i hi
      rw [div_pow, div_mul_eq_mul_div]
      congr 1
      linear_combination (w i * (arr x i - μ) ^ 2) * this
    rw [Finset.sum_congr rfl this, ← Finset.sum_div]
    show 1 / S = S / S ^ 2
    field_simp
  · rw [hie]
    congr 2
    have : ∀ i ∈ Finset.range x.length, (w i / W - μ * (w i * (arr x i - μ) / S)) ^ 2 * (s2 + yerr.at x.length i ^ 2) =
        w i / W ^ 2 - 2 * μ / (W * S) * (w i * (arr x i - μ)) + μ ^ 2 / S ^ 2 * (w i * ((arr x i - μ) * (arr x i - μ))) := by
      intro i hi
      have := hwv i hi
      field_simp
      linear_combination (w i * (S - W * μ * (arr x i - μ)) ^ 2) * this
    rw [Finset.sum_congr rfl this, Finset.sum_add_distrib, Finset.sum_sub_distrib, ← Finset.mul_sum, ← Finset.mul_sum, ← Finset.sum_div, hd]
    show 1 / W + μ ^ 2 / S = W / W ^ 2 - _ * 0 + μ ^ 2 / S ^ 2 * S
    field_simp
    ring

/-- Three points with different errors satisfy all the hypotheses. -/
example : WAccepts [0, 1, 2] [0, 1, -1] (.vector [1 / 2, 0, 1 / 2]) ∧
    IsScatter 3 (arr [0, 1, 2]) (arr [0, 1, -1]) ((Errs.vector [1 / 2, 0, 1 / 2]).at 3) (1 / 3) ∧
    ∀ i < 3, 0 < 1 / 3 + (Errs.vector [1 / 2, 0, 1 / 2]).at 3 i ^ 2 := by
  have mx : mean 3 one (arr [0, 1, 2]) = 1 := by unfold mean arr one; simp [Finset.sum_range_succ]; norm_num
  have my : mean 3 one (arr [0, 1, -1]) = 0 := by unfold mean arr one; simp [Finset.sum_range_succ]
  have cxx : cov 3 one (arr [0, 1, 2]) (arr [0, 1, 2]) = 2 := by
    unfold cov; rw [mx]; unfold arr one; simp [Finset.sum_range_succ]; norm_num
  have cxy : cov 3 one (arr [0, 1, 2]) (arr [0, 1, -1]) = -1 := by
    unfold cov; rw [mx, my]; unfold arr one; simp [Finset.sum_range_succ]; norm_num
  refine ⟨⟨rfl, rfl, by simp, by show cov 3 _ _ _ ≠ 0; rw [cxy]; norm_num⟩, ⟨1 / 2, -1 / 2, ?_, ?_⟩, fun i _ => by positivity⟩
  · rw [yonx_iff (by unfold one; simp) (by rw [cxx]; norm_num)]
    refine ⟨by rw [cxx, cxy], ?_⟩
    unfold Centred; rw [mx, my]; norm_num
  · unfold ss; rw [mean_one]; simp [Finset.sum_range_succ, arr, one, Errs.at]; norm_num

/-- **C125, where it fails (1).**  For points on a line, and constant measurement errors, no number is finite: slope, intercept, standard errors and scatter are all `nan`. -/
theorem C125_violated_line : ∃ (x y : List ℝ) (yerr : Errs), WAccepts x y yerr ∧ (∀ i < x.length, arr y i = arr x i ∧ yerr.at x.length i = 1) ∧
    ∃ r, wlss x y yerr = .ok (r, none) ∧ r.slope = none ∧ r.inter = none ∧ r.serr = none ∧ r.ierr = none := by
  have hA : WAccepts [0, 1, 2] [0, 1, 2] (.scalar 1) := by
    refine ⟨trivial, rfl, by simp, ?_⟩
    unfold cov; simp only [mean_one]; simp [Finset.sum_range_succ, arr]; norm_num
  refine ⟨[0, 1, 2], [0, 1, 2], .scalar 1, hA, fun i hi => ⟨rfl, if_pos hi⟩, ?_⟩
  obtain ⟨s2, -, hu, r, hr, -, -, -, -, hz⟩ := wlss_ok hA
  have hs : (-1 : ℝ) = s2 := by
    refine hu _ ⟨0, 1, ?_, ?_⟩
    · intro a b
      have : ss 3 one (arr [0, 1, 2]) (arr [0, 1, 2]) 0 1 = 0 := by unfold ss; simp
      show ss 3 _ _ _ _ _ ≤ _
      rw [this]
      exact Finset.sum_nonneg fun i _ => mul_nonneg zero_le_one (sq_nonneg _)
    · show _ = ss 3 _ _ _ _ _ / ((3 : ℕ) : ℝ) - mean 3 _ _
      unfold ss; rw [mean_one]; simp only [Finset.sum_range_succ, Finset.sum_range_zero, arr, one, Errs.at]; norm_num
  subst hs
  refine ⟨r, ?_, hz ⟨0, by simp, ?_⟩⟩
  · rw [hr]; unfold fsqrt; rw [if_pos (by norm_num)]
  · show -1 + (if 0 < 3 then (1 : ℝ) else 0) ^ 2 = 0; norm_num

/-- **C125, where it fails (2).**  When the residuals are smaller than the measurement errors explain, `scat` is `nan`, not zero. -/
theorem C125_violated_scatter : ∃ (x y : List ℝ) (yerr : Errs), WAccepts x y yerr ∧
    ∃ r, wlss x y yerr = .ok (r, none) ∧ r.slope.isSome ∧ r.serr.isSome := by
  have mx : mean 3 one (arr [0, 1, 2]) = 1 := by unfold mean arr one; simp [Finset.sum_range_succ]; norm_num
  have my : mean 3 one (arr [0, 1, -1]) = 0 := by unfold mean arr one; simp [Finset.sum_range_succ]
  have cxx : cov 3 one (arr [0, 1, 2]) (arr [0, 1, 2]) = 2 := by
    unfold cov; rw [mx]; unfold arr one; simp [Finset.sum_range_succ]; norm_num
  have cxy : cov 3 one (arr [0, 1, 2]) (arr [0, 1, -1]) = -1 := by
    unfold cov; rw [mx, my]; unfold arr one; simp [Finset.sum_range_succ]; norm_num
  have hA : WAccepts [0, 1, 2] [0, 1, -1] (.scalar 2) := ⟨trivial, rfl, by simp, by show cov 3 _ _ _ ≠ 0; rw [cxy]; norm_num⟩
  refine ⟨[0, 1, 2], [0, 1, -1], .scalar 2, hA, ?_⟩
  obtain ⟨s2, r, scat, hu, hr, -, -, -, -, hp⟩ := (C125_fit_partial _ _ _).2 hA
  have hs : (-7 / 2 : ℝ) = s2 := by
    refine (hu _).1 ⟨1 / 2, -1 / 2, ?_, ?_⟩
    · show YonX 3 _ _ _ _ _
      rw [yonx_iff (by unfold one; simp) (by rw [cxx]; norm_num)]
      refine ⟨by rw [cxx, cxy], ?_⟩
      unfold Centred; rw [mx, my]; norm_num
    · show _ = ss 3 _ _ _ _ _ / ((3 : ℕ) : ℝ) - mean 3 _ _
      unfold ss; rw [mean_one]; simp only [Finset.sum_range_succ, Finset.sum_range_zero, arr, one, Errs.at]; norm_num
  obtain ⟨a, b, h1, -, -, k, m, -, h2, -⟩ := hp (by
    intro i hi
    rw [← hs]; show (0 : ℝ) < -7 / 2 + (if i < 3 then 2 else 0) ^ 2; rw [if_pos (by simpa using hi)]; norm_num)
  obtain ⟨s', -, hu', r', hr', -⟩ := wlss_ok hA
  have e : s' = s2 := by
    have := (hu s2).2 rfl
    exact (hu' _ this).symm
  rw [hr] at hr'
  have := Except.ok.inj hr'
  refine ⟨r, ?_, by rw [h1]; rfl, by rw [h2]; rfl⟩
  have e2 : scat = fsqrt s' := congrArg Prod.snd this
  rw [hr, e2, e, ← hs]; unfold fsqrt; rw [if_pos (by norm_num)]

/-- **C125, where it fails (3).**  Three points with one large measurement error: the estimated variances of the other two are negative, and the slope returned, 11/2, is greater than that of the best line for any positive weights, which is at most 1. -/
theorem C125_violated_negative : ∃ (x y : List ℝ) (yerr : Errs) (r scat : _), WAccepts x y yerr ∧ (∀ i < x.length, 0 ≤ yerr.at x.length i) ∧
    wlss x y yerr = .ok (r, scat) ∧ r.slope = some (11 / 2) ∧
    ∀ w : ℕ → ℝ, (∀ i < x.length, 0 < w i) → ∀ a b, YonX x.length w (arr x) (arr y) a b → b ≤ 1 := by
  have mx : mean 3 one (arr [0, 1, 2]) = 1 := by unfold mean arr one; simp [Finset.sum_range_succ]; norm_num
  have my : mean 3 one (arr [0, 1, -1]) = 0 := by unfold mean arr one; simp [Finset.sum_range_succ]
  have cxx : cov 3 one (arr [0, 1, 2]) (arr [0, 1, 2]) = 2 := by
    unfold cov; rw [mx]; unfold arr one; simp [Finset.sum_range_succ]; norm_num
  have cxy : cov 3 one (arr [0, 1, 2]) (arr [0, 1, -1]) = -1 := by
    unfold cov; rw [mx, my]; unfold arr one; simp [Finset.sum_range_succ]; norm_num
  have hA : WAccepts [0, 1, 2] [0, 1, -1] (.vector [2, 0, 0]) := ⟨rfl, rfl, by simp, by show cov 3 _ _ _ ≠ 0; rw [cxy]; norm_num⟩
  obtain ⟨s2, -, hu, r, hr, -, -, -, hp, -⟩ := wlss_ok hA
  have hs : (-5 / 6 : ℝ) = s2 := by
    refine hu _ ⟨1 / 2, -1 / 2, ?_, ?_⟩
    · show YonX 3 _ _ _ _ _
      rw [yonx_iff (by unfold one; simp) (by rw [cxx]; norm_num)]
      refine ⟨by rw [cxx, cxy], ?_⟩
      unfold Centred; rw [mx, my]; norm_num
    · show _ = ss 3 _ _ _ _ _ / ((3 : ℕ) : ℝ) - mean 3 _ _
      unfold ss; rw [mean_one]; simp only [Finset.sum_range_succ, Finset.sum_range_zero, arr, one, Errs.at]; norm_num
  subst hs
  have e0 : (Errs.vector [2, 0, 0]).at 3 0 = 2 := rfl
  have e1 : (Errs.vector [2, 0, 0]).at 3 1 = 0 := rfl
  have e2 : (Errs.vector [2, 0, 0]).at 3 2 = 0 := rfl
  have hW : ∑ i ∈ Finset.range 3, (fun i => 1 / (-5 / 6 + (Errs.vector [2, 0, 0]).at 3 i ^ 2)) i = -198 / 95 := by
    simp only [Finset.sum_range_succ, Finset.sum_range_zero, e0, e1, e2]; norm_num
  have hW0 : ∑ i ∈ Finset.range 3, (fun i => 1 / (-5 / 6 + (Errs.vector [2, 0, 0]).at 3 i ^ 2)) i ≠ 0 := by rw [hW]; norm_num
  have hS : cov 3 (fun i => 1 / (-5 / 6 + (Errs.vector [2, 0, 0]).at 3 i ^ 2)) (arr [0, 1, 2]) (arr [0, 1, 2]) = 12 / 55 := by
    rw [cov_eq hW0]
    simp only [Finset.sum_range_succ, Finset.sum_range_zero, e0, e1, e2, arr]; norm_num
  have hT : cov 3 (fun i => 1 / (-5 / 6 + (Errs.vector [2, 0, 0]).at 3 i ^ 2)) (arr [0, 1, 2]) (arr [0, 1, -1]) = 6 / 5 := by
    rw [cov_eq hW0]
    simp only [Finset.sum_range_succ, Finset.sum_range_zero, e0, e1, e2, arr]; norm_num
  obtain ⟨hb, -⟩ := hp (by
    intro i hi
    match i, hi with
    | 0, _ => show -5 / 6 + (2 : ℝ) ^ 2 ≠ 0; norm_num
    | 1, _ => show -5 / 6 + (0 : ℝ) ^ 2 ≠ 0; norm_num
    | 2, _ => show -5 / 6 + (0 : ℝ) ^ 2 ≠ 0; norm_num) hW0 (hS.trans_ne (by norm_num))
  refine ⟨[0, 1, 2], [0, 1, -1], .vector [2, 0, 0], r, _, hA, ?_, hr, ?_, ?_⟩
  · intro i hi
    match i, hi with
    | 0, _ => show (0 : ℝ) ≤ 2; norm_num
    | 1, _ => exact le_rfl
    | 2, _ => exact le_rfl
  · rw [hb]
    exact congrArg some ((congrArg₂ (· / ·) hT hS).trans (by norm_num))
  · intro w hw a b h
    have h0 := hw 0 (by simp)
    have h1 := hw 1 (by simp)
    have h2 := hw 2 (by simp)
    have hWp : 0 < ∑ i ∈ Finset.range 3, w i := by simp only [Finset.sum_range_succ, Finset.sum_range_zero]; linarith
    have hSp := spread (n := 3) hw (x := arr [0, 1, 2]) (by rw [cxx]; norm_num)
    rw [((yonx_iff hWp hSp a b).1 h).1, div_le_one hSp]
    rw [cov_eq hWp.ne', cov_eq hWp.ne', sub_le_sub_iff, add_div' _ _ _ hWp.ne', add_div' _ _ _ hWp.ne', div_le_div_iff_of_pos_right hWp]
    simp only [Finset.sum_range_succ, Finset.sum_range_zero, arr]
    simp
    nlinarith [mul_pos h0 h1, mul_pos h0 h2, mul_pos h1 h2]

/-- **C125, where it fails (4).**  The result has no attribute `yerr`, which is documented. -/
theorem C125_violated_yerr : "yerr" ∉ linRegAttrs true ∧ "scat" ∈ linRegAttrs true := by decide

/-- **C126, what holds.**  `bistats` raises `ValueError` exactly when the lengths differ, there are fewer than two points, or the covariance is zero.  Otherwise it returns the means, the standard deviations and the covariance (with factors 1/n), and the correlation coefficient, which is at most one in size.
Missing: data with zero covariance, which are refused (`C126_violated_uncorrelated`). -/
theorem C126_stats_partial (x y : List ℝ) :
    (bistats x y = .error .value ∧ (x.length ≠ y.length ∨ x.length < 2 ∨ cov x.length one (arr x) (arr y) = 0)) ∨
    (x.length = y.length ∧ 2 ≤ x.length ∧ cov x.length one (arr x) (arr y) ≠ 0 ∧ ∃ sx sy rho, 0 < sx ∧ 0 < sy ∧
      bistats x y = .ok (mean x.length one (arr x), some sx, mean x.length one (arr y), some sy, cov x.length one (arr x) (arr y) / x.length, rho) ∧
      sx ^ 2 = cov x.length one (arr x) (arr x) / x.length ∧ sy ^ 2 = cov x.length one (arr y) (arr y) / x.length ∧
      rho * (sx * sy) = cov x.length one (arr x) (arr y) / x.length ∧ |rho| ≤ 1) := by
  unfold bistats
  by_cases h1 : x.length = y.length
  swap
  · rw [if_pos h1]; exact Or.inl ⟨rfl, Or.inl h1⟩
  rw [if_neg (not_not.2 h1)]
  by_cases h2 : x.length < 2
  · rw [if_pos h2]; exact Or.inl ⟨rfl, Or.inr (Or.inl h2)⟩
  rw [if_neg h2]
  unfold datstt
  dsimp only
  simp only [tot_mean, tot_cov, tot_var]
  by_cases h3 : cov x.length one (arr x) (arr y) = 0
  · rw [if_pos h3]; exact Or.inl ⟨rfl, Or.inr (Or.inr h3)⟩
  rw [if_neg h3]
  obtain ⟨hx, hy⟩ := cov_pos (w := one) (fun _ _ => zero_le_one) h3
  have hn : (0 : ℝ) < x.length := by exact_mod_cast (by omega : 0 < x.length)
  refine Or.inr ⟨h1, by omega, h3, √(cov x.length one (arr x) (arr x) / x.length), √(cov x.length one (arr y) (arr y) / x.length),
    cov x.length one (arr x) (arr y) / √(cov x.length one (arr x) (arr x) * cov x.length one (arr y) (arr y)), by positivity, by positivity,
    ?_, sq_sqrt (by positivity), sq_sqrt (by positivity), ?_, ?_⟩
  · dsimp only
    rw [fsqrt_nonneg (by positivity), fsqrt_nonneg (by positivity)]
  · rw [sqrt_div hx.le, sqrt_div hy.le, sqrt_mul hx.le, div_mul_div_comm, mul_self_sqrt hn.le]
    have := sqrt_pos.2 hx
    have := sqrt_pos.2 hy
    field_simp
  · rw [abs_div, abs_of_pos (sqrt_pos.2 (mul_pos hx hy)), div_le_one (sqrt_pos.2 (mul_pos hx hy)), sqrt_mul hx.le, abs_le]
    have h := cov_schwarz x.length (arr x) (arr y)
    refine ⟨?_, h⟩
    have h' := cov_schwarz x.length (fun i => -arr x i) (arr y)
    have hm : mean x.length one (fun i => -arr x i) = -mean x.length one (arr x) := by
      simp only [mean_one, Finset.sum_neg_distrib, neg_div]
    have e1 : cov x.length one (fun i => -arr x i) (arr y) = -cov x.length one (arr x) (arr y) := by
      unfold cov; rw [hm, ← Finset.sum_neg_distrib]; exact Finset.sum_congr rfl fun i _ => by ring
    have e2 : cov x.length one (fun i => -arr x i) (fun i => -arr x i) = cov x.length one (arr x) (arr x) := by
      unfold cov; rw [hm]; exact Finset.sum_congr rfl fun i _ => by ring
    rw [e1, e2] at h'
    linarith

example : cov [0, 1, 2].length one (arr [0, 1, 2]) (arr [0, 1, -1]) ≠ 0 := by
  unfold cov; simp only [mean_one]; simp [Finset.sum_range_succ, arr]; norm_num

/-- **C126, where it fails.**  Data with zero covariance have means, standard deviations and a correlation coefficient (zero), but `bistats` raises `ValueError`. -/
theorem C126_violated_uncorrelated : ∃ x y : List ℝ, x.length = y.length ∧ 2 ≤ x.length ∧ 0 < cov x.length one (arr x) (arr x) ∧
    0 < cov x.length one (arr y) (arr y) ∧ bistats x y = .error .value := by
  have hc : cov 4 one (arr [0, 0, 1, 1]) (arr [0, 1, 0, 1]) = 0 := by
    unfold cov; simp only [mean_one]; simp [Finset.sum_range_succ, arr]; norm_num
  refine ⟨[0, 0, 1, 1], [0, 1, 0, 1], rfl, by simp, ?_, ?_, ?_⟩
  · unfold cov; simp only [mean_one]; simp [Finset.sum_range_succ, arr]; norm_num
  · unfold cov; simp only [mean_one]; simp [Finset.sum_range_succ, arr]; norm_num
  · rcases C126_stats_partial [0, 0, 1, 1] [0, 1, 0, 1] with h | h
    · exact h.1
    · exact absurd hc h.2.2.1

end Verif.Regress
