import Verif.Regress.BcesLemmas
import Verif.Regress.SixProps

/-!
# C123, C124: regressions with measurement errors in both variables
-/

set_option linter.unusedSectionVars false

namespace Verif.Regress

open Real

/-- The error argument is a number, or has a value for each of the `n` data. -/
def Errs.Fits (n : ℕ) : Errs → Prop
  | .scalar _ => True
  | .vector v => v.length = n

/-- The error of datum `i` of `n`. -/
noncomputable def Errs.at (n : ℕ) : Errs → ℕ → ℝ
  | .scalar v => fun i => if i < n then v else 0
  | .vector v => fun i => v.getD i 0

theorem errVec_ok {n : ℕ} {e : Errs} (h : e.Fits n) : ∃ v, errVec n e = .ok v ∧ arr v = e.at n := by
  match e, h with
  | .scalar v, _ =>
    refine ⟨_, rfl, ?_⟩
    funext i
    show (List.replicate n v).getD i 0 = if i < n then v else 0
    split
    · simp [List.getD_eq_getElem?_getD, List.getElem?_replicate, *]
    · simp [List.getD_eq_getElem?_getD, List.getElem?_replicate, *]
  | .vector v, h => exact ⟨v, if_neg (not_not.2 h), rfl⟩

theorem errVec_err {n : ℕ} {e : Errs} (h : ¬ e.Fits n) : errVec n e = .error .value := by
  match e, h with
  | .scalar v, h => exact absurd trivial h
  | .vector v, h => exact if_pos h

/-- The call is one `BCES` accepts. -/
def Accepts (x : List ℝ) (xerr : Errs) (y : List ℝ) (yerr covar : Errs) : Prop :=
  xerr.Fits x.length ∧ yerr.Fits x.length ∧ covar.Fits x.length ∧ y.length = x.length ∧ 2 ≤ x.length

/-- Variances left after the measurement errors are positive, and the covariance left and that of the data are not zero. -/
def Regular (x : List ℝ) (xerr : Errs) (y : List ℝ) (yerr covar : Errs) : Prop :=
  let n := x.length
  (0 < trueCov n one (arr x) (arr x) fun i => xerr.at n i ^ 2) ∧ (0 < trueCov n one (arr y) (arr y) fun i => yerr.at n i ^ 2) ∧
    trueCov n one (arr x) (arr y) (covar.at n) ≠ 0 ∧ cov n one (arr x) (arr y) ≠ 0

theorem BCES_some {x y : List ℝ} {xerr yerr covar : Errs} (h : Accepts x xerr y yerr covar) {r}
    (hr : bess x.length (arr x) (xerr.at x.length) (arr y) (yerr.at x.length) (covar.at x.length) = some r) :
    ∃ l : Fin 4 → LinReg, BCES x xerr y yerr covar = .ok (some (l, fsqrt r.ifab3, fsqrt r.ifab4)) ∧
      ∀ j, (l j).slope = some (r.b j) ∧ (l j).inter = some (r.a j) ∧ (l j).serr = fsqrt (r.bvar j) ∧ (l j).ierr = fsqrt (r.avar j) := by
  obtain ⟨h1, h2, h3, h4, h5⟩ := h
  obtain ⟨xe, e1, a1⟩ := errVec_ok h1
  obtain ⟨ye, e2, a2⟩ := errVec_ok h2
  obtain ⟨ce, e3, a3⟩ := errVec_ok h3
  unfold BCES
  rw [e1, e2, e3]
  dsimp only
  rw [if_neg (not_not.2 h4), if_neg h5.not_gt, a1, a2, a3, hr]
  exact ⟨_, rfl, fun j => ⟨rfl, rfl, rfl, rfl⟩⟩

theorem n_ne {x : List ℝ} (h : 2 ≤ x.length) : (x.length : ℝ) ≠ 0 := by exact_mod_cast (by omega : x.length ≠ 0)

theorem slope_sum {b1 b2 : ℝ} (h : 0 < b1 * b2) : b1 + b2 ≠ 0 := by
  intro hs
  have : b2 = -b1 := by linarith
  subst this
  nlinarith [sq_nonneg b1]

/-- **C123, what holds (1).**  `BCES` raises `ValueError` exactly when an error argument has the wrong length, `x` and `y` differ in length, or there are fewer than two points.  Otherwise, for regular data, each line has the slope and the intercept of the line it names, for the variances and the covariance that are left when the mean measurement errors are taken away.  Missing: the orthogonal line when taking away the covariance of the errors changes the sign of the covariance. -/
theorem C123_lines_partial (x y : List ℝ) (xerr yerr covar : Errs) :
    (BCES x xerr y yerr covar = .error .value ↔ ¬ Accepts x xerr y yerr covar) ∧
    (Accepts x xerr y yerr covar → Regular x xerr y yerr covar → ∃ l s3 s4, BCES x xerr y yerr covar = .ok (some (l, s3, s4)) ∧
      ∀ j : Fin 4, (j = 3 → 0 < cov x.length one (arr x) (arr y) * trueCov x.length one (arr x) (arr y) (covar.at x.length)) →
        ∃ a b, (l j).slope = some b ∧ (l j).inter = some a ∧
          ∀ a' b', IsLineE x.length one (arr x) (arr y) (fun i => xerr.at x.length i ^ 2) (fun i => yerr.at x.length i ^ 2)
            (covar.at x.length) (j.castLE (by norm_num)) a' b' ↔ a' = a ∧ b' = b) := by
  constructor
  · constructor
    · intro h hA
      obtain ⟨h1, h2, h3, h4, h5⟩ := hA
      obtain ⟨xe, e1, a1⟩ := errVec_ok h1
      obtain ⟨ye, e2, a2⟩ := errVec_ok h2
      obtain ⟨ce, e3, a3⟩ := errVec_ok h3
      unfold BCES at h
      rw [e1, e2, e3] at h
      dsimp only at h
      rw [if_neg (not_not.2 h4), if_neg h5.not_gt] at h
      split at h <;> simp at h
    · intro h
      unfold BCES
      by_cases h1 : xerr.Fits x.length
      swap
      · rw [errVec_err h1]
      obtain ⟨xe, e1, a1⟩ := errVec_ok h1
      by_cases h2 : yerr.Fits x.length
      swap
      · rw [errVec_err h2, e1]
      obtain ⟨ye, e2, a2⟩ := errVec_ok h2
      by_cases h3 : covar.Fits x.length
      swap
      · rw [errVec_err h3, e1, e2]
      obtain ⟨ce, e3, a3⟩ := errVec_ok h3
      rw [e1, e2, e3]
      dsimp only
      by_cases h4 : y.length = x.length
      · rw [if_neg (not_not.2 h4), if_pos]
        by_contra h5
        exact h ⟨h1, h2, h3, h4, by omega⟩
      · rw [if_pos h4]
  · intro hA hR
    have hnn : 0 < x.length := by have := hA.2.2.2.2; omega
    obtain ⟨r, hr, hb, ha, -⟩ := bess_eq hR.1.ne' hR.2.2.1 (div_ne_zero hR.2.2.2 (n_ne hA.2.2.2.2)) (slope_sum (slope_mul hR.1 hR.2.1 hR.2.2.1))
    obtain ⟨l, hl, hj⟩ := BCES_some hA hr
    refine ⟨l, _, _, hl, fun j hs => ⟨_, _, (hj j).1, (hj j).2.1, fun a' b' => ?_⟩⟩
    unfold IsLineE
    rw [isSlope_iff hR.1 hR.2.1 hR.2.2.1, centred_iff, hb, ha]
    have e : slopeC x.length (arr x) (xerr.at x.length) (arr y) (yerr.at x.length) (covar.at x.length) j =
        slopes (sgn (trueCov x.length one (arr x) (arr y) (covar.at x.length)))
          (trueCov x.length one (arr x) (arr y) (covar.at x.length) / trueCov x.length one (arr x) (arr x) fun i => xerr.at x.length i ^ 2)
          ((trueCov x.length one (arr y) (arr y) fun i => yerr.at x.length i ^ 2) / trueCov x.length one (arr x) (arr y) (covar.at x.length)) (of4 j) := by
      unfold slopeC
      by_cases h3 : j = 3
      · have hp := hs h3
        have : sgn (cov x.length one (arr x) (arr y) / x.length) = sgn (trueCov x.length one (arr x) (arr y) (covar.at x.length)) := by
          rw [sgn_div hnn]
          rcases pos_and_pos_or_neg_and_neg_of_mul_pos hp with ⟨p, q⟩ | ⟨p, q⟩
          · unfold sgn; rw [if_neg p.le.not_gt, if_neg q.le.not_gt]
          · unfold sgn; rw [if_pos p, if_pos q]
        rw [this]
      · match j, h3 with
        | 0, _ => rfl
        | 1, _ => rfl
        | 2, _ => rfl
        | 3, h3 => exact absurd rfl h3
    rw [e]
    constructor
    · rintro ⟨h, h'⟩; subst h; exact ⟨h', rfl⟩
    · rintro ⟨h', h⟩; subst h; exact ⟨rfl, h'⟩

/-- Four points with errors in both variables satisfy the hypotheses. -/
example : Accepts [-2, -2, 2, 2] (.scalar 1) [-2, 1, -1, 2] (.vector [1, 0, 1, 0]) (.scalar 0) ∧
    Regular [-2, -2, 2, 2] (.scalar 1) [-2, 1, -1, 2] (.vector [1, 0, 1, 0]) (.scalar 0) := by
  refine ⟨⟨trivial, rfl, trivial, rfl, by simp⟩, ?_⟩
  unfold Regular
  simp only [trueCov_one, mean_one]
  unfold cov
  simp only [mean_one]
  simp [Finset.sum_range_succ, arr, Errs.at]
  norm_num
  rw [show ({x ∈ Finset.range 4 | x < 4} : Finset ℕ).card = 4 by decide]
  norm_num

theorem sqrt_mean {n : ℕ} (hn : 0 < n) (f : ℕ → ℝ) :
    fsqrt ((∑ i ∈ Finset.range n, f i ^ 2) / n / n) = (fsqrt (∑ i ∈ Finset.range n, f i ^ 2)).map (· / (n : ℝ)) := by
  have hpos : (0 : ℝ) < n := by exact_mod_cast hn
  have h0 : 0 ≤ ∑ i ∈ Finset.range n, f i ^ 2 := Finset.sum_nonneg fun i _ => sq_nonneg _
  rw [fsqrt_nonneg (by positivity), fsqrt_nonneg h0, Option.map_some, div_div, sqrt_div h0, sqrt_mul_self hpos.le]

/-- **C123, what holds (2).**  Without measurement errors `BCES` gives the first four of the lines of `SixLin`, with the same standard errors. -/
theorem C123_no_errors (x y : List ℝ) (s) (h : SixLin x y = .ok s) :
    ∃ l s3 s4, BCES x (.scalar 0) y (.scalar 0) (.scalar 0) = .ok (some (l, s3, s4)) ∧
      ∀ j : Fin 4, (l j).slope = (s (j.castLE (by norm_num))).slope ∧ (l j).inter = (s (j.castLE (by norm_num))).inter ∧
        (l j).serr = (s (j.castLE (by norm_num))).serr ∧ (l j).ierr = (s (j.castLE (by norm_num))).ierr := by
  rcases C121_lines x y with ⟨h', -⟩ | ⟨h1, h2, hc, -⟩
  · rw [h] at h'; simp at h'
  have hnn : 0 < x.length := by omega
  have hn' := n_ne h2
  have hpos : (0 : ℝ) < x.length := by exact_mod_cast hnn
  rw [sixLin_ok h1 h2 hc] at h
  obtain rfl := Except.ok.inj h
  obtain ⟨hx, hy⟩ := cov_pos (w := one) (fun _ _ => zero_le_one) hc
  have hat : (Errs.scalar 0).at x.length = fun _ => 0 := by funext i; simp [Errs.at]
  have hm : mean x.length one (fun _ => (0 : ℝ)) = 0 := by unfold mean; simp
  have z : ∀ u v : ℕ → ℝ, trueCov x.length one u v (fun _ => 0) = cov x.length one u v / x.length := by
    intro u v; rw [trueCov_one, hm, sub_zero]
  have z2 : ((0 : ℝ) ^ 2) = 0 := by norm_num
  have hA : Accepts x (.scalar 0) y (.scalar 0) (.scalar 0) := ⟨trivial, trivial, trivial, h1, h2⟩
  have hR : Regular x (.scalar 0) y (.scalar 0) (.scalar 0) := by
    unfold Regular
    simp only [hat, z2, z]
    exact ⟨by positivity, by positivity, div_ne_zero hc hn', hc⟩
  obtain ⟨r, hr, hb, ha, hbv, hav, -⟩ := bess_eq hR.1.ne' hR.2.2.1 (div_ne_zero hR.2.2.2 (n_ne hA.2.2.2.2)) (slope_sum (slope_mul hR.1 hR.2.1 hR.2.2.1))
  obtain ⟨l, hl, hj⟩ := BCES_some hA hr
  have hslope : ∀ j, slopeC x.length (arr x) (fun _ => 0) (arr y) (fun _ => 0) (fun _ => 0) j = slopeOf x.length (arr x) (arr y) (of4 j) := by
    intro j
    unfold slopeC slopeOf
    simp only [z2, z]
    rw [div_div_div_cancel_right₀ hn', div_div_div_cancel_right₀ hn', sgn_div hnn]
  have hxi := fun j => xi_sum (n := x.length) (x := arr x) (y := arr y) (xe := fun _ => 0) (ye := fun _ => 0) (ce := fun _ => 0) hnn (fun _ _ => rfl)
    (by simp only [z2, z]; positivity) (by rw [z]; exact div_ne_zero hc hn') j
  rw [hat] at hb ha hbv hav
  refine ⟨l, _, _, hl, fun j => ⟨?_, ?_, ?_, ?_⟩⟩
  · rw [(hj j).1, hb, hslope]; rfl
  · rw [(hj j).2.1, ha, hslope]; rfl
  · rw [(hj j).2.2.1, hbv]
    show _ = fsqrt _
    rw [slopeVars_eq hc]
    congr 1
    unfold cov
    rw [hxi]
    rw [div_div, ← sq, div_eq_iff (by positivity), Finset.sum_mul]
    refine Finset.sum_congr rfl fun i _ => ?_
    rw [sub_zero, ← sq, xi_zero hnn, sgn_div hnn, mul_pow, codeRate_sq (sgn_sq _)]
    unfold inflB
    show one i * _ = slopeRate _ _ _ _ _ (of4 j) ^ 2 * _
    unfold one; ring
  · rw [(hj j).2.2.2, hav]
    show _ = Option.map _ (fsqrt _)
    rw [interSums_code hnn hc]
    have e : cov x.length one (zetaC x.length (arr x) (fun _ => 0) (arr y) (fun _ => 0) (fun _ => 0) j)
        (zetaC x.length (arr x) (fun _ => 0) (arr y) (fun _ => 0) (fun _ => 0) j) =
      ∑ i ∈ Finset.range x.length, (arr y i - mean x.length one (arr y) - slopeOf x.length (arr x) (arr y) (j.castLE (by norm_num)) * (arr x i - mean x.length one (arr x))
        - mean x.length one (arr x) * (x.length * codeRate (sgn (cov x.length one (arr x) (arr y)))
        (cov x.length one (arr x) (arr y) / cov x.length one (arr x) (arr x)) (cov x.length one (arr y) (arr y) / cov x.length one (arr x) (arr y))
        (infl1 x.length (arr x) (arr y) i) (infl2 x.length (arr x) (arr y) i) (j.castLE (by norm_num)))) ^ 2 := by
      unfold cov
      refine Finset.sum_congr rfl fun i _ => ?_
      rw [zeta_dev (hxi j), xi_zero hnn, sgn_div hnn, hslope]
      show one i * (_ * _) = _
      rw [show one i = 1 from rfl, one_mul, ← sq]
      rfl
    rw [e]
    exact sqrt_mean hnn _

/-- **C123, where it fails.**  Four points whose covariance is 1, with errors of covariance 2: the covariance left is -1, and the orthogonal line gets slope 2 where -1/2 is right. -/
theorem C123_violated_sign : ∃ (x y : List ℝ) (xerr yerr covar : Errs), Accepts x xerr y yerr covar ∧ Regular x xerr y yerr covar ∧
    (∀ i < x.length, covar.at x.length i ^ 2 ≤ xerr.at x.length i ^ 2 * yerr.at x.length i ^ 2) ∧
    ∃ l s3 s4, BCES x xerr y yerr covar = .ok (some (l, s3, s4)) ∧ (l 3).slope = some 2 ∧
      ∀ a b, IsLineE x.length one (arr x) (arr y) (fun i => xerr.at x.length i ^ 2) (fun i => yerr.at x.length i ^ 2)
        (covar.at x.length) 3 a b → b = -1 / 2 := by
  have mx : mean 4 one (arr [-2, -2, 2, 2]) = 0 := by rw [mean_one]; simp [Finset.sum_range_succ, arr]
  have my : mean 4 one (arr [-2, 1, -1, 2]) = 0 := by rw [mean_one]; simp [Finset.sum_range_succ, arr]
  have cxy : cov 4 one (arr [-2, -2, 2, 2]) (arr [-2, 1, -1, 2]) = 4 := by
    unfold cov; rw [mx, my]; simp [Finset.sum_range_succ, arr]; norm_num
  have tx : (trueCov 4 one (arr [-2, -2, 2, 2]) (arr [-2, -2, 2, 2]) fun i => (Errs.scalar (3 / 2)).at 4 i ^ 2) = 7 / 4 := by
    rw [trueCov_one, mean_one]; unfold cov; rw [mx]; simp [Finset.sum_range_succ, arr, Errs.at]; norm_num
  have ty : (trueCov 4 one (arr [-2, 1, -1, 2]) (arr [-2, 1, -1, 2]) fun i => (Errs.scalar (3 / 2)).at 4 i ^ 2) = 1 / 4 := by
    rw [trueCov_one, mean_one]; unfold cov; rw [my]; simp [Finset.sum_range_succ, arr, Errs.at]; norm_num
  have tc : trueCov 4 one (arr [-2, -2, 2, 2]) (arr [-2, 1, -1, 2]) ((Errs.scalar 2).at 4) = -1 := by
    rw [trueCov_one, mean_one, cxy]; simp [Finset.sum_range_succ, Errs.at]; norm_num
  have hA : Accepts [-2, -2, 2, 2] (.scalar (3 / 2)) [-2, 1, -1, 2] (.scalar (3 / 2)) (.scalar 2) := ⟨trivial, trivial, trivial, rfl, by simp⟩
  have hR : Regular [-2, -2, 2, 2] (.scalar (3 / 2)) [-2, 1, -1, 2] (.scalar (3 / 2)) (.scalar 2) := by
    unfold Regular
    simp only [show ([-2, -2, 2, 2] : List ℝ).length = 4 from rfl]
    rw [tx, ty, tc, cxy]; norm_num
  refine ⟨[-2, -2, 2, 2], [-2, 1, -1, 2], .scalar (3 / 2), .scalar (3 / 2), .scalar 2, hA, hR, ?_, ?_⟩
  · intro i hi
    simp only [Errs.at, hi, if_true]; norm_num
  · obtain ⟨r, hr, hb, -⟩ := bess_eq hR.1.ne' hR.2.2.1 (div_ne_zero hR.2.2.2 (n_ne hA.2.2.2.2)) (slope_sum (slope_mul hR.1 hR.2.1 hR.2.2.1))
    obtain ⟨l, hl, hj⟩ := BCES_some hA hr
    refine ⟨l, _, _, hl, ?_, ?_⟩
    · rw [(hj 3).1, hb]
      show some (orthSlope _ _ _) = _
      simp only [show ([-2, -2, 2, 2] : List ℝ).length = 4 from rfl]
      rw [tx, ty, tc, cxy]
      have : sgn (4 / (4 : ℕ)) = 1 := by unfold sgn; rw [if_neg (by norm_num)]
      rw [this]
      unfold orthSlope
      rw [show (4 + (1 / 4 / -1 - 1 / (-1 / (7 / 4))) ^ 2 : ℝ) = (5 / 2) ^ 2 by norm_num, sqrt_sq (by norm_num)]
      norm_num
    · intro a b h
      have h1 := (isSlope_iff hR.1 hR.2.1 hR.2.2.1 3 b).1 h.1
      rw [h1]
      show orthSlope _ _ _ = _
      simp only [show ([-2, -2, 2, 2] : List ℝ).length = 4 from rfl]
      rw [tx, ty, tc]
      have : sgn (-1) = -1 := by unfold sgn; rw [if_pos (by norm_num)]
      rw [this]
      unfold orthSlope
      rw [show (4 + (1 / 4 / -1 - 1 / (-1 / (7 / 4))) ^ 2 : ℝ) = (5 / 2) ^ 2 by norm_num, sqrt_sq (by norm_num)]
      norm_num

theorem xi_infl {n : ℕ} {x xe y ye : ℕ → ℝ} (hn : 0 < n) (j : Fin 4) (i : ℕ) :
    xiC n x xe y ye (fun _ => 0) j i ^ 2 = (n * inflBE n x y (fun i => xe i ^ 2) (fun i => ye i ^ 2) (fun _ => 0) (of4 j) i) ^ 2 ∧
      ((j = 3 → 0 < trueCov n one x y fun _ => 0) →
        xiC n x xe y ye (fun _ => 0) j i = n * inflBE n x y (fun i => xe i ^ 2) (fun i => ye i ^ 2) (fun _ => 0) (of4 j) i) := by
  have hn' : (n : ℝ) ≠ 0 := by exact_mod_cast hn.ne'
  have hm : mean n one (fun _ => (0 : ℝ)) = 0 := by unfold mean; simp
  have hc : cov n one x y / n = trueCov n one x y fun _ => 0 := by rw [trueCov_one, hm, sub_zero]
  have e : xiC n x xe y ye (fun _ => 0) j i = n * codeRate (sgn (trueCov n one x y fun _ => 0))
      ((trueCov n one x y fun _ => 0) / trueCov n one x x fun i => xe i ^ 2) ((trueCov n one y y fun i => ye i ^ 2) / trueCov n one x y fun _ => 0)
      (((x i - mean n one x) * (y i - mean n one y - (trueCov n one x y fun _ => 0) / (trueCov n one x x fun i => xe i ^ 2) * (x i - mean n one x)) - 0
        + (trueCov n one x y fun _ => 0) / (trueCov n one x x fun i => xe i ^ 2) * xe i ^ 2) / (trueCov n one x x fun i => xe i ^ 2) / n)
      (((y i - mean n one y) * (y i - mean n one y - (trueCov n one y y fun i => ye i ^ 2) / (trueCov n one x y fun _ => 0) * (x i - mean n one x)) - ye i ^ 2
        + (trueCov n one y y fun i => ye i ^ 2) / (trueCov n one x y fun _ => 0) * 0) / (trueCov n one x y fun _ => 0) / n) (of4 j) := by
    rw [← codeRate_lin, mul_div_cancel₀ _ hn', mul_div_cancel₀ _ hn', sub_zero, mul_zero, add_zero]
    unfold xiC xi1 xi2
    rw [hc]
  constructor
  · rw [e, mul_pow, mul_pow, codeRate_sq (sgn_sq _)]; rfl
  · intro h
    rw [e, codeRate_eq]
    · rfl
    · intro h3
      have : j = 3 := by
        match j, h3 with
        | 0, h => exact absurd h (by decide)
        | 1, h => exact absurd h (by decide)
        | 2, h => exact absurd h (by decide)
        | 3, _ => rfl
      unfold sgn
      rw [if_neg (h this).le.not_gt]

/-- **C124, what holds (1).**  When the errors of `x` and `y` are not correlated, the standard error of every slope, and of every intercept but that of an orthogonal line of negative slope, is the square root of the sum of the squares of the rates at which it changes with the weights of the data.  Missing: correlated errors, and the intercept of an orthogonal line of negative slope. -/
theorem C124_errors_partial (x y : List ℝ) (xerr yerr covar : Errs) (hA : Accepts x xerr y yerr covar) (hR : Regular x xerr y yerr covar)
    (hc : ∀ i < x.length, covar.at x.length i = 0) :
    ∃ l s3 s4, BCES x xerr y yerr covar = .ok (some (l, s3, s4)) ∧ ∀ j : Fin 4, ∃ da db : ℕ → ℝ,
      (∀ i < x.length, ∀ da' db', InfluenceE x.length (arr x) (arr y) (fun i => xerr.at x.length i ^ 2) (fun i => yerr.at x.length i ^ 2)
        (covar.at x.length) (j.castLE (by norm_num)) i da' db' ↔ da' = da i ∧ db' = db i) ∧
      (l j).serr = some √(∑ i ∈ Finset.range x.length, db i ^ 2) ∧
      ((j = 3 → ∃ b, (l 3).slope = some b ∧ 0 < b) → (l j).ierr = some √(∑ i ∈ Finset.range x.length, da i ^ 2)) := by
  have hnn : 0 < x.length := by have := hA.2.2.2.2; omega
  have hn' := n_ne hA.2.2.2.2
  have hce : covar.at x.length = fun _ => 0 := by
    funext i
    by_cases hi : i < x.length
    · exact hc i hi
    · match covar, hA.2.2.1 with
      | .scalar v, _ => exact if_neg hi
      | .vector v, h =>
        have h : v.length = x.length := h
        show v.getD i 0 = 0
        rw [List.getD_eq_getElem?_getD, List.getElem?_eq_none (by omega)]; rfl
  obtain ⟨r, hr, hb, ha, hbv, hav, -⟩ := bess_eq hR.1.ne' hR.2.2.1 (div_ne_zero hR.2.2.2 (n_ne hA.2.2.2.2)) (slope_sum (slope_mul hR.1 hR.2.1 hR.2.2.1))
  obtain ⟨l, hl, hj⟩ := BCES_some hA hr
  obtain ⟨R1, R2, R3, R4⟩ := hR
  rw [hce] at hb ha hbv hav R3 ⊢
  have hxi := fun j => xi_sum (n := x.length) (x := arr x) (y := arr y) (xe := xerr.at x.length) (ye := yerr.at x.length) (ce := fun _ => 0) hnn
    (fun _ _ => rfl) R1.ne' R3 j
  refine ⟨l, _, _, hl, fun j => ⟨_, _, fun i hi da' db' => influenceE_iff R1 R2 R3 hi _ da' db', ?_, ?_⟩⟩
  · rw [(hj j).2.2.1, hbv]
    have e : cov x.length one (xiC x.length (arr x) (xerr.at x.length) (arr y) (yerr.at x.length) (fun _ => 0) j)
        (xiC x.length (arr x) (xerr.at x.length) (arr y) (yerr.at x.length) (fun _ => 0) j) / x.length / x.length =
        ∑ i ∈ Finset.range x.length, inflBE x.length (arr x) (arr y) (fun i => xerr.at x.length i ^ 2) (fun i => yerr.at x.length i ^ 2)
          (fun _ => 0) (of4 j) i ^ 2 := by
      unfold cov
      rw [hxi, div_div, ← sq, div_eq_iff (pow_ne_zero 2 hn'), Finset.sum_mul]
      refine Finset.sum_congr rfl fun i _ => ?_
      rw [sub_zero, ← sq, (xi_infl hnn j i).1, show one i = 1 from rfl]; ring
    rw [e]
    exact fsqrt_nonneg (Finset.sum_nonneg fun i _ => sq_nonneg _)
  · intro h3
    have hpos : j = 3 → 0 < trueCov x.length one (arr x) (arr y) fun _ => 0 := by
      intro e3
      obtain ⟨b, hb3, hb0⟩ := h3 e3
      rw [(hj 3).1, hb] at hb3
      have hm : mean x.length one (fun _ => (0 : ℝ)) = 0 := by unfold mean; simp
      have hc' : cov x.length one (arr x) (arr y) / x.length = trueCov x.length one (arr x) (arr y) fun _ => 0 := by rw [trueCov_one, hm, sub_zero]
      obtain ⟨-, hq⟩ := orth_root (vx := trueCov x.length one (arr x) (arr x) fun i => xerr.at x.length i ^ 2)
        (vy := trueCov x.length one (arr y) (arr y) fun i => yerr.at x.length i ^ 2) R3
      have e3 := Option.some.inj hb3
      unfold slopeC at e3
      rw [hc'] at e3
      have e4 : orthSlope (sgn (trueCov x.length one (arr x) (arr y) fun _ => 0)) ((trueCov x.length one (arr x) (arr y) fun _ => 0) /
        trueCov x.length one (arr x) (arr x) fun i => xerr.at x.length i ^ 2) ((trueCov x.length one (arr y) (arr y) fun i => yerr.at x.length i ^ 2) /
        trueCov x.length one (arr x) (arr y) fun _ => 0) = b := e3
      simp only [e4] at hq
      exact (div_pos_iff_of_pos_right hb0).1 hq
    rw [(hj j).2.2.2, hav]
    have e : cov x.length one (zetaC x.length (arr x) (xerr.at x.length) (arr y) (yerr.at x.length) (fun _ => 0) j)
        (zetaC x.length (arr x) (xerr.at x.length) (arr y) (yerr.at x.length) (fun _ => 0) j) / x.length / x.length =
        ∑ i ∈ Finset.range x.length, inflAE x.length (arr x) (arr y) (fun i => xerr.at x.length i ^ 2) (fun i => yerr.at x.length i ^ 2)
          (fun _ => 0) (of4 j) i ^ 2 := by
      unfold cov
      rw [div_div, ← sq, div_eq_iff (pow_ne_zero 2 hn'), Finset.sum_mul]
      refine Finset.sum_congr rfl fun i _ => ?_
      rw [zeta_dev (hxi j), (xi_infl hnn j i).2 hpos, show one i = 1 from rfl, one_mul, ← sq, ← mul_pow]
      congr 1
      unfold inflAE
      rw [sub_mul, div_mul_cancel₀ _ hn']
      have hs : slopeC x.length (arr x) (xerr.at x.length) (arr y) (yerr.at x.length) (fun _ => 0) j = slopeE x.length (arr x) (arr y)
          (fun i => xerr.at x.length i ^ 2) (fun i => yerr.at x.length i ^ 2) (fun _ => 0) (of4 j) := by
        have hm : mean x.length one (fun _ => (0 : ℝ)) = 0 := by unfold mean; simp
        have hc' : cov x.length one (arr x) (arr y) / x.length = trueCov x.length one (arr x) (arr y) fun _ => 0 := by rw [trueCov_one, hm, sub_zero]
        unfold slopeC slopeE
        rw [hc']
      rw [hs]; ring
    rw [e]
    exact fsqrt_nonneg (Finset.sum_nonneg fun i _ => sq_nonneg _)

/-- Four points with errors in both variables, not correlated, with a line of positive slope. -/
example : Accepts [-2, -2, 2, 2] (.scalar 1) [-2, 1, -1, 2] (.vector [1, 0, 1, 0]) (.vector [0, 0, 0, 0]) ∧
    Regular [-2, -2, 2, 2] (.scalar 1) [-2, 1, -1, 2] (.vector [1, 0, 1, 0]) (.vector [0, 0, 0, 0]) ∧
    (∀ i < 4, (Errs.vector [0, 0, 0, 0]).at 4 i = 0) ∧ 0 < cov 4 one (arr [-2, -2, 2, 2]) (arr [-2, 1, -1, 2]) := by
  refine ⟨⟨trivial, rfl, rfl, rfl, by simp⟩, ?_, ?_, ?_⟩
  · unfold Regular
    simp only [trueCov_one, mean_one]
    unfold cov
    simp only [mean_one]
    simp [Finset.sum_range_succ, arr, Errs.at]
    norm_num
    rw [show ({x ∈ Finset.range 4 | x < 4} : Finset ℕ).card = 4 by decide]
    norm_num
  · intro i hi
    match i, hi with
    | 0, _ => rfl
    | 1, _ => rfl
    | 2, _ => rfl
    | 3, _ => rfl
  · unfold cov
    simp only [mean_one]
    simp [Finset.sum_range_succ, arr]
    norm_num

theorem cov_comb (n : ℕ) (g p q : ℝ) (u v : ℕ → ℝ) (hn : 0 < n) :
    cov n one (fun i => g * (p * u i + q * v i)) (fun i => g * (p * u i + q * v i)) =
      g ^ 2 * (p ^ 2 * cov n one u u + 2 * (p * q) * cov n one u v + q ^ 2 * cov n one v v) := by
  have hm : mean n one (fun i => g * (p * u i + q * v i)) = g * (p * mean n one u + q * mean n one v) := by
    simp only [mean_one, ← Finset.mul_sum, Finset.sum_add_distrib]; ring
  unfold cov
  rw [hm]
  simp only [Finset.mul_sum, ← Finset.sum_add_distrib]
  refine Finset.sum_congr rfl fun i _ => ?_
  ring

theorem cov_self (n : ℕ) (u : ℕ → ℝ) : 0 ≤ cov n one u u := cov_nonneg (fun _ _ => zero_le_one) u

theorem cov_schwarz (n : ℕ) (u v : ℕ → ℝ) : cov n one u v ≤ √(cov n one u u) * √(cov n one v v) := by
  rw [← sqrt_mul (cov_self n u)]
  refine le_sqrt_of_sq_le ?_
  unfold cov one
  simp only [one_mul, ← sq]
  exact Finset.sum_mul_sq_le_sq_mul_sq _ _ _

theorem ifab_bound {n : ℕ} (hn : 0 < n) {g p q : ℝ} (hp : 0 ≤ p) (hq : 0 ≤ q) (u v : ℕ → ℝ) :
    cov n one (fun i => g * (p * u i + q * v i)) (fun i => g * (p * u i + q * v i)) / n / n ≤
      g ^ 2 * (p * √(cov n one u u / n) + q * √(cov n one v v / n)) ^ 2 / n := by
  have hpos : (0 : ℝ) < n := by exact_mod_cast hn
  have h1 : 0 ≤ cov n one u u := cov_self _ _
  have h2 : 0 ≤ cov n one v v := cov_self _ _
  rw [cov_comb _ _ _ _ _ _ hn]
  have hs := cov_schwarz n u v
  rw [sqrt_div h1, sqrt_div h2]
  refine div_le_div_of_nonneg_right ?_ hpos.le
  rw [mul_div_assoc]
  refine mul_le_mul_of_nonneg_left ?_ (sq_nonneg g)
  rw [show p * (√(cov n one u u) / √n) + q * (√(cov n one v v) / √n) = (p * √(cov n one u u) + q * √(cov n one v v)) / √n by ring, div_pow,
    sq_sqrt hpos.le]
  refine div_le_div_of_nonneg_right ?_ hpos.le
  have e1 := sq_sqrt h1
  have e2 := sq_sqrt h2
  nlinarith [mul_nonneg hp hq, mul_le_mul_of_nonneg_left hs (mul_nonneg hp hq)]

/-- **C124, what holds (2).**  The standard errors `serr_IFAB` of the bisector and of the orthogonal line are never less than the standard errors `serr`. -/
theorem C124_ifab (x y : List ℝ) (xerr yerr covar : Errs) (hA : Accepts x xerr y yerr covar) (hR : Regular x xerr y yerr covar) :
    ∃ l s3 s4 v3 v4, BCES x xerr y yerr covar = .ok (some (l, some s3, some s4)) ∧ (l 2).serr = some v3 ∧ (l 3).serr = some v4 ∧
      v3 ≤ s3 ∧ v4 ≤ s4 := by
  have hnn : 0 < x.length := by have := hA.2.2.2.2; omega
  have hpos : (0 : ℝ) < x.length := by exact_mod_cast hnn
  obtain ⟨r, hr, hb, ha, hbv, hav, h3, h4⟩ := bess_eq hR.1.ne' hR.2.2.1 (div_ne_zero hR.2.2.2 (n_ne hA.2.2.2.2)) (slope_sum (slope_mul hR.1 hR.2.1 hR.2.2.1))
  obtain ⟨l, hl, hj⟩ := BCES_some hA hr
  have nn : ∀ j, 0 ≤ r.bvar j := by
    intro j; rw [hbv]; exact div_nonneg (div_nonneg (cov_self _ _) hpos.le) hpos.le
  have i3 : r.bvar 2 ≤ r.ifab3 := by
    rw [hbv, h3]
    exact ifab_bound hnn (by positivity) (by positivity) _ _
  have i4 : r.bvar 3 ≤ r.ifab4 := by
    rw [hbv, h4]
    have := ifab_bound hnn (g := gam2 (trueCov x.length one (arr x) (arr y) (covar.at x.length) / trueCov x.length one (arr x) (arr x) fun i => xerr.at x.length i ^ 2)
      ((trueCov x.length one (arr y) (arr y) fun i => yerr.at x.length i ^ 2) / trueCov x.length one (arr x) (arr y) (covar.at x.length))
      (orthSlope (sgn (cov x.length one (arr x) (arr y) / x.length))
        (trueCov x.length one (arr x) (arr y) (covar.at x.length) / trueCov x.length one (arr x) (arr x) fun i => xerr.at x.length i ^ 2)
        ((trueCov x.length one (arr y) (arr y) fun i => yerr.at x.length i ^ 2) / trueCov x.length one (arr x) (arr y) (covar.at x.length))))
      (p := 1 / |trueCov x.length one (arr x) (arr y) (covar.at x.length) / trueCov x.length one (arr x) (arr x) fun i => xerr.at x.length i ^ 2|)
      (q := |trueCov x.length one (arr x) (arr y) (covar.at x.length) / trueCov x.length one (arr x) (arr x) fun i => xerr.at x.length i ^ 2|)
      (by positivity) (by positivity) (xi1 x.length (arr x) (xerr.at x.length) (arr y) (covar.at x.length))
      (xi2 x.length (arr x) (arr y) (yerr.at x.length) (covar.at x.length))
    simp only [one_div_mul_eq_div] at this
    exact this
  refine ⟨l, √r.ifab3, √r.ifab4, √(r.bvar 2), √(r.bvar 3), ?_, ?_, ?_, sqrt_le_sqrt i3, sqrt_le_sqrt i4⟩
  · rw [hl, fsqrt_nonneg ((nn 2).trans i3), fsqrt_nonneg ((nn 3).trans i4)]
  · rw [(hj 2).2.2.1, fsqrt_nonneg (nn 2)]
  · rw [(hj 3).2.2.1, fsqrt_nonneg (nn 3)]

theorem influence_zero {n : ℕ} {x y : ℕ → ℝ} (hc : cov n one x y ≠ 0) {i : ℕ} (hi : i < n) (j : Fin 6) (da db : ℝ) :
    InfluenceE n x y (fun _ => 0) (fun _ => 0) (fun _ => 0) j i da db ↔ Influence n x y j i da db := by
  have hpos : (0 : ℝ) < n := by exact_mod_cast (by omega : 0 < n)
  have hn' := hpos.ne'
  obtain ⟨hx, hy⟩ := cov_pos (w := one) (fun _ _ => zero_le_one) hc
  have hm : mean n one (fun _ => (0 : ℝ)) = 0 := by unfold mean; simp
  have z : ∀ u v : ℕ → ℝ, trueCov n one u v (fun _ => 0) = cov n one u v / n := by intro u v; rw [trueCov_one, hm, sub_zero]
  have e : inflBE n x y (fun _ => 0) (fun _ => 0) (fun _ => 0) j i = inflB n x y j i := by
    unfold inflBE inflB infl1 infl2
    simp only [z]
    rw [div_div_div_cancel_right₀ hn', div_div_div_cancel_right₀ hn', sgn_div (by omega : 0 < n), mul_zero, add_zero, mul_zero, add_zero, sub_zero, sub_zero,
      div_div, div_mul_cancel₀ _ hn', div_div, div_mul_cancel₀ _ hn']
  rw [influenceE_iff (by rw [z]; positivity) (by rw [z]; positivity) (by rw [z]; exact div_ne_zero hc hn') hi, influence_iff hc hi]
  unfold inflAE inflA slopeE slopeOf
  simp only [z]
  rw [e, div_div_div_cancel_right₀ hn', div_div_div_cancel_right₀ hn', sgn_div (by omega : 0 < n)]

/-- **C124, where it fails (1).**  For three points with an orthogonal line of negative slope, and no measurement errors, the standard error of the intercept is a fifth of what it should be. -/
theorem C124_violated_orthog : ∃ (x y : List ℝ) (l : _) (s3 s4 : _), BCES x (.scalar 0) y (.scalar 0) (.scalar 0) = .ok (some (l, s3, s4)) ∧
    ∃ v, (l 3).ierr = some v ∧ 0 < v ∧
      ∀ da db : ℕ → ℝ, (∀ i < x.length, InfluenceE x.length (arr x) (arr y) (fun _ => 0) (fun _ => 0) (fun _ => 0) 3 i (da i) (db i)) →
        √(∑ i ∈ Finset.range x.length, da i ^ 2) = 5 * v := by
  obtain ⟨x, y, r, hr, v, hv, hv0, h⟩ := C122_violated_orthog
  obtain ⟨l, s3, s4, hl, hj⟩ := C123_no_errors x y r hr
  refine ⟨x, y, l, s3, s4, hl, v, (hj 3).2.2.2.trans hv, hv0, fun da db hd => h da db fun i hi => ?_⟩
  rcases C121_lines x y with ⟨h', -⟩ | ⟨h1, h2, hc, -⟩
  · rw [hr] at h'; simp at h'
  exact (influence_zero hc hi 3 _ _).1 (hd i hi)

/-- **C124, where it fails (2).**  For the same points `serr_IFAB` of the orthogonal line is twice its `serr`, though there are no measurement errors. -/
theorem C124_violated_ifab : ∃ (x y : List ℝ) (l : _) (s3 : _) (v : ℝ), BCES x (.scalar 0) y (.scalar 0) (.scalar 0) = .ok (some (l, s3, some (2 * v))) ∧
    (l 3).serr = some v ∧ 0 < v := by
  have mx : mean 3 one (arr [0, 1, 2]) = 1 := by unfold mean arr one; simp [Finset.sum_range_succ]; norm_num
  have my : mean 3 one (arr [0, 1, -1]) = 0 := by unfold mean arr one; simp [Finset.sum_range_succ]
  have cxx : cov 3 one (arr [0, 1, 2]) (arr [0, 1, 2]) = 2 := by
    unfold cov; rw [mx]; unfold arr one; simp [Finset.sum_range_succ]; norm_num
  have cyy : cov 3 one (arr [0, 1, -1]) (arr [0, 1, -1]) = 2 := by
    unfold cov; rw [my]; unfold arr one; simp [Finset.sum_range_succ]; norm_num
  have cxy : cov 3 one (arr [0, 1, 2]) (arr [0, 1, -1]) = -1 := by
    unfold cov; rw [mx, my]; unfold arr one; simp [Finset.sum_range_succ]; norm_num
  have hat : (Errs.scalar 0).at 3 = fun _ => 0 := by funext i; simp [Errs.at]
  have hm : mean 3 one (fun _ => (0 : ℝ)) = 0 := by unfold mean; simp
  have z2 : ((0 : ℝ) ^ 2) = 0 := by norm_num
  have tx : (trueCov 3 one (arr [0, 1, 2]) (arr [0, 1, 2]) fun _ => 0) = 2 / 3 := by rw [trueCov_one, hm, cxx]; norm_num
  have ty : (trueCov 3 one (arr [0, 1, -1]) (arr [0, 1, -1]) fun _ => 0) = 2 / 3 := by rw [trueCov_one, hm, cyy]; norm_num
  have tc : (trueCov 3 one (arr [0, 1, 2]) (arr [0, 1, -1]) fun _ => 0) = -1 / 3 := by rw [trueCov_one, hm, cxy]; norm_num
  have hA : Accepts [0, 1, 2] (.scalar 0) [0, 1, -1] (.scalar 0) (.scalar 0) := ⟨trivial, trivial, trivial, rfl, by simp⟩
  have hR : Regular [0, 1, 2] (.scalar 0) [0, 1, -1] (.scalar 0) (.scalar 0) := by
    unfold Regular
    simp only [show ([0, 1, 2] : List ℝ).length = 3 from rfl, hat, z2]
    rw [tx, ty, tc, cxy]; norm_num
  obtain ⟨r, hr, hb, ha, hbv, hav, h3, h4⟩ := bess_eq hR.1.ne' hR.2.2.1 (div_ne_zero hR.2.2.2 (n_ne hA.2.2.2.2)) (slope_sum (slope_mul hR.1 hR.2.1 hR.2.2.1))
  obtain ⟨l, hl, hj⟩ := BCES_some hA hr
  have hb3 := hbv 3
  simp only [show ([0, 1, 2] : List ℝ).length = 3 from rfl, hat] at hb3 h4
  have c11 : cov 3 one (xi1 3 (arr [0, 1, 2]) (fun _ => 0) (arr [0, 1, -1]) fun _ => 0) (xi1 3 (arr [0, 1, 2]) (fun _ => 0) (arr [0, 1, -1]) fun _ => 0) = 9 / 8 := by
    unfold cov xi1
    simp only [z2, tx, tc, mx, my, mean_one]
    unfold arr one; simp [Finset.sum_range_succ]; norm_num
  have c22 : cov 3 one (xi2 3 (arr [0, 1, 2]) (arr [0, 1, -1]) (fun _ => 0) fun _ => 0) (xi2 3 (arr [0, 1, 2]) (arr [0, 1, -1]) (fun _ => 0) fun _ => 0) = 18 := by
    unfold cov xi2
    simp only [z2, ty, tc, cxy, mx, my, mean_one]
    unfold arr one; simp [Finset.sum_range_succ]; norm_num
  have c12 : cov 3 one (xi1 3 (arr [0, 1, 2]) (fun _ => 0) (arr [0, 1, -1]) fun _ => 0) (xi2 3 (arr [0, 1, 2]) (arr [0, 1, -1]) (fun _ => 0) fun _ => 0) = -9 / 4 := by
    unfold cov xi1 xi2
    simp only [z2, tx, ty, tc, cxy, mx, my, mean_one]
    unfold arr one; simp [Finset.sum_range_succ]; norm_num
  have hxi : xiC 3 (arr [0, 1, 2]) (fun _ => 0) (arr [0, 1, -1]) (fun _ => 0) (fun _ => 0) 3 = fun i => gam2 (-1 / 2) (-2) (orthSlope (-1) (-1 / 2) (-2)) *
      (2 * xi1 3 (arr [0, 1, 2]) (fun _ => 0) (arr [0, 1, -1]) (fun _ => 0) i + 1 / 2 * xi2 3 (arr [0, 1, 2]) (arr [0, 1, -1]) (fun _ => 0) (fun _ => 0) i) := by
    funext i
    show gam2 _ _ _ * _ = _
    simp only [z2, tx, ty, tc, cxy]
    have : sgn (-1 / (3 : ℕ)) = -1 := by unfold sgn; rw [if_pos (by norm_num)]
    rw [this, show (-1 / 3 / (2 / 3) : ℝ) = -1 / 2 by norm_num, show (2 / 3 / (-1 / 3) : ℝ) = -2 by norm_num,
      show |(-1 / 2 : ℝ)| = 1 / 2 by rw [abs_of_neg (by norm_num)]; norm_num]
    ring
  rw [hxi, cov_comb _ _ _ _ _ _ (by norm_num), c11, c22, c12] at hb3
  simp only [z2, tx, ty, tc, cxy] at h4
  have hs : sgn (-1 / (3 : ℕ)) = -1 := by unfold sgn; rw [if_pos (by norm_num)]
  rw [hs, show (-1 / 3 / (2 / 3) : ℝ) = -1 / 2 by norm_num, show (2 / 3 / (-1 / 3) : ℝ) = -2 by norm_num,
    show |(-1 / 2 : ℝ)| = 1 / 2 by rw [abs_of_neg (by norm_num)]; norm_num, c11, c22] at h4
  have hg : gam2 (-1 / 2) (-2) (orthSlope (-1) (-1 / 2) (-2)) ^ 2 = 1 := by
    have ho : orthSlope (-1) (-1 / 2) (-2) = -1 := by
      unfold orthSlope
      rw [show (4 + (-2 - 1 / (-1 / 2)) ^ 2 : ℝ) = 2 ^ 2 by norm_num, sqrt_sq (by norm_num)]; norm_num
    rw [ho]
    unfold gam2
    rw [show (4 * (-1 / 2) ^ 2 + (-1 / 2 * -2 - 1) ^ 2 : ℝ) = 1 by norm_num, sqrt_one]; norm_num
  have hv : r.bvar 3 = 1 / 2 := by rw [hb3, hg]; norm_num
  have hq : √((18 : ℝ) / (3 : ℕ)) = 4 * √(9 / 8 / (3 : ℕ)) := by
    rw [show ((18 : ℝ) / (3 : ℕ)) = 4 ^ 2 * (9 / 8 / (3 : ℕ)) by norm_num, sqrt_mul (by norm_num), sqrt_sq (by norm_num)]
  have hw : r.ifab4 = 2 ^ 2 * (1 / 2) := by
    have e := sq_sqrt (show (0 : ℝ) ≤ 9 / 8 / (3 : ℕ) by norm_num)
    rw [h4, hg, hq, show √((9 : ℝ) / 8 / (3 : ℕ)) / (1 / 2) + 1 / 2 * (4 * √(9 / 8 / (3 : ℕ))) = 4 * √(9 / 8 / (3 : ℕ)) by ring, mul_pow, e]
    norm_num
  refine ⟨[0, 1, 2], [0, 1, -1], l, fsqrt r.ifab3, √(1 / 2), ?_, ?_, by positivity⟩
  · rw [hl, fsqrt_nonneg (v := r.ifab4) (by rw [hw]; norm_num), hw, sqrt_mul (by norm_num), sqrt_sq (by norm_num)]
  · rw [(hj 3).2.2.1, fsqrt_nonneg (by rw [hv]; norm_num), hv]

/-- **C124, where it fails (3).**  Four points with errors of unit variance and covariance 1/2: the standard error of the slope of `xony` is half of what it should be. -/
theorem C124_violated_correlated : ∃ (x y : List ℝ) (xerr yerr covar : Errs) (l : _) (s3 s4 : _), Regular x xerr y yerr covar ∧
    BCES x xerr y yerr covar = .ok (some (l, s3, s4)) ∧
    (∀ i < x.length, covar.at x.length i ^ 2 ≤ xerr.at x.length i ^ 2 * yerr.at x.length i ^ 2) ∧ ∃ v, (l 1).serr = some v ∧ 0 < v ∧
      ∀ da db : ℕ → ℝ, (∀ i < x.length, InfluenceE x.length (arr x) (arr y) (fun i => xerr.at x.length i ^ 2) (fun i => yerr.at x.length i ^ 2)
        (covar.at x.length) 1 i (da i) (db i)) → √(∑ i ∈ Finset.range x.length, db i ^ 2) = 2 * v := by
  have mx : mean 4 one (arr [-2, -2, 2, 2]) = 0 := by rw [mean_one]; simp [Finset.sum_range_succ, arr]
  have my : mean 4 one (arr [-2, 1, -1, 2]) = 0 := by rw [mean_one]; simp [Finset.sum_range_succ, arr]
  have cxy : cov 4 one (arr [-2, -2, 2, 2]) (arr [-2, 1, -1, 2]) = 4 := by
    unfold cov; rw [mx, my]; simp [Finset.sum_range_succ, arr]; norm_num
  have tx : (trueCov 4 one (arr [-2, -2, 2, 2]) (arr [-2, -2, 2, 2]) fun i => (Errs.scalar 1).at 4 i ^ 2) = 3 := by
    rw [trueCov_one, mean_one]; unfold cov; rw [mx]; simp only [Finset.sum_range_succ, arr, Errs.at]; norm_num
  have ty : (trueCov 4 one (arr [-2, 1, -1, 2]) (arr [-2, 1, -1, 2]) fun i => (Errs.scalar 1).at 4 i ^ 2) = 3 / 2 := by
    rw [trueCov_one, mean_one]; unfold cov; rw [my]; simp only [Finset.sum_range_succ, arr, Errs.at]; norm_num
  have tc : trueCov 4 one (arr [-2, -2, 2, 2]) (arr [-2, 1, -1, 2]) ((Errs.scalar (1 / 2)).at 4) = 1 / 2 := by
    rw [trueCov_one, mean_one, cxy]; simp only [Finset.sum_range_succ, Errs.at]; norm_num
  have hA : Accepts [-2, -2, 2, 2] (.scalar 1) [-2, 1, -1, 2] (.scalar 1) (.scalar (1 / 2)) := ⟨trivial, trivial, trivial, rfl, by simp⟩
  have hR : Regular [-2, -2, 2, 2] (.scalar 1) [-2, 1, -1, 2] (.scalar 1) (.scalar (1 / 2)) := by
    unfold Regular
    simp only [show ([-2, -2, 2, 2] : List ℝ).length = 4 from rfl]
    rw [tx, ty, tc, cxy]; norm_num
  obtain ⟨r, hr, hb, ha, hbv, -⟩ := bess_eq hR.1.ne' hR.2.2.1 (div_ne_zero hR.2.2.2 (n_ne hA.2.2.2.2)) (slope_sum (slope_mul hR.1 hR.2.1 hR.2.2.1))
  obtain ⟨l, hl, hj⟩ := BCES_some hA hr
  have h1 := hbv 1
  have hx2 : ∀ i, xiC 4 (arr [-2, -2, 2, 2]) ((Errs.scalar 1).at 4) (arr [-2, 1, -1, 2]) ((Errs.scalar 1).at 4) ((Errs.scalar (1 / 2)).at 4) 1 i =
      (arr [-2, 1, -1, 2] i - 0) * (arr [-2, 1, -1, 2] i - 0 - 3 * (arr [-2, -2, 2, 2] i - 0)) - (Errs.scalar 1).at 4 i ^ 2 := by
    intro i
    show xi2 _ _ _ _ _ _ = _
    unfold xi2
    simp only [ty, tc, cxy, mx, my]
    norm_num
  have hv : r.bvar 1 = (15 / 4) ^ 2 := by
    rw [h1]
    show cov 4 _ _ _ / ((4 : ℕ) : ℝ) / ((4 : ℕ) : ℝ) = _
    unfold cov
    simp only [mean_one]
    simp only [show ([-2, -2, 2, 2] : List ℝ).length = 4 from rfl, hx2]
    simp only [Finset.sum_range_succ, Finset.sum_range_zero, Errs.at, arr, one]
    norm_num
  refine ⟨[-2, -2, 2, 2], [-2, 1, -1, 2], .scalar 1, .scalar 1, .scalar (1 / 2), l, _, _, hR, hl, ?_, 15 / 4, ?_, by norm_num, ?_⟩
  · intro i hi
    simp only [Errs.at, hi, if_true]; norm_num
  · rw [(hj 1).2.2.1, hv, fsqrt_nonneg (by positivity), sqrt_sq (by norm_num)]
  · intro da db h
    have hdb : ∀ i < 4, db i = (((arr [-2, 1, -1, 2] i - 0) * (arr [-2, 1, -1, 2] i - 0 - 3 * (arr [-2, -2, 2, 2] i - 0)) - (Errs.scalar 1).at 4 i ^ 2)
        + 3 * (Errs.scalar (1 / 2)).at 4 i) / (1 / 2) / 4 := by
      intro i hi
      have := ((influenceE_iff hR.1 hR.2.1 hR.2.2.1 hi 1 _ _).1 (h i hi)).2
      rw [this]
      show _ / _ / _ = _
      simp only [show ([-2, -2, 2, 2] : List ℝ).length = 4 from rfl]
      simp only [ty, tc, mx, my]
      norm_num
    rw [show √(∑ i ∈ Finset.range ([-2, -2, 2, 2] : List ℝ).length, db i ^ 2) = √((15 / 2) ^ 2) by
      congr 1
      rw [Finset.sum_congr (g := fun i => ((((arr [-2, 1, -1, 2] i - 0) * (arr [-2, 1, -1, 2] i - 0 - 3 * (arr [-2, -2, 2, 2] i - 0)) - (Errs.scalar 1).at 4 i ^ 2)
        + 3 * (Errs.scalar (1 / 2)).at 4 i) / (1 / 2) / 4) ^ 2) rfl (fun i hi => by rw [hdb i (Finset.mem_range.1 hi)])]
      simp only [List.length_cons, List.length_nil, Finset.sum_range_succ, Finset.sum_range_zero, Errs.at, arr]
      norm_num, sqrt_sq (by norm_num)]
    norm_num

end Verif.Regress
