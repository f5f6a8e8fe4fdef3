import Verif.Signals.Kepler
import Mathlib.Analysis.SpecialFunctions.Trigonometric.Bounds
import Mathlib.Analysis.Convex.SpecificFunctions.Deriv
import Mathlib.Analysis.Convex.Deriv
import Mathlib.Analysis.Real.Pi.Bounds
import Mathlib.Tactic.Linarith
import Mathlib.Tactic.Positivity

/-!
# Helper lemmas for C109: the function of Kepler's equation and Newton's steps on it
-/

set_option linter.unusedSectionVars false

namespace Verif.Signals.Kepler

open Real

/-- The tangent of the sine lies above it between 0 and `π`. -/
theorem sin_tangent {x y : ℝ} (hx : x ∈ Set.Icc 0 π) (hy : y ∈ Set.Icc 0 π) : sin y ≤ sin x + cos x * (y - x) := by
  have hc : ConcaveOn ℝ (Set.Icc 0 π) sin := strictConcaveOn_sin_Icc.concaveOn
  rcases lt_trichotomy x y with h | rfl | h
  · have := hc.slope_le_of_hasDerivAt hx hy h (hasDerivAt_sin x)
    rw [slope_def_field, div_le_iff₀ (by linarith)] at this
    linarith
  · simp
  · have := hc.le_slope_of_hasDerivAt hy hx h (hasDerivAt_sin x)
    rw [slope_def_field, le_div_iff₀ (by linarith)] at this
    linarith

/-- `x cos x ≤ sin x` between 0 and `π`. -/
theorem mul_cos_le_sin {x : ℝ} (h0 : 0 ≤ x) (h1 : x ≤ π) : x * cos x ≤ sin x := by
  have := sin_tangent (x := x) (y := 0) ⟨h0, h1⟩ ⟨le_refl 0, pi_pos.le⟩
  rw [sin_zero] at this
  linarith

variable {e : ℝ}

theorem den_pos (h0 : 0 ≤ e) (h1 : e < 1) (x : ℝ) : 0 < 1 - e * cos x := by
  nlinarith [cos_le_one x, neg_one_le_cos x]

/-- The function of Kepler's equation increases strictly. -/
theorem kep_strictMono (h0 : 0 ≤ e) (h1 : e < 1) : StrictMono fun x => x - e * sin x := by
  intro x y h
  have := abs_sin_sub_sin_le y x
  rw [abs_of_pos (sub_pos.2 h)] at this
  have h2 := le_abs_self (sin y - sin x)
  dsimp only
  nlinarith

theorem kep_exists (h0 : 0 ≤ e) (h1 : e < 1) (M : ℝ) : ∃ E, E - e * sin E = M := by
  have hc : ContinuousOn (fun x : ℝ => x - e * sin x) (Set.Icc (M - 1) (M + 1)) := by fun_prop
  have := intermediate_value_Icc (by linarith) hc
  obtain ⟨E, _, h⟩ := this (show M ∈ Set.Icc _ _ from by
    constructor
    · nlinarith [neg_one_le_sin (M - 1), sin_le_one (M - 1)]
    · nlinarith [neg_one_le_sin (M + 1), sin_le_one (M + 1)])
  exact ⟨E, h⟩

/-- The tangent of Kepler's function lies below it between 0 and `π`. -/
theorem kep_convex (h0 : 0 ≤ e) {x y : ℝ} (hx : x ∈ Set.Icc 0 π) (hy : y ∈ Set.Icc 0 π) :
    (x - e * sin x) + (1 - e * cos x) * (y - x) ≤ y - e * sin y := by
  nlinarith [mul_le_mul_of_nonneg_left (sin_tangent hx hy) h0]

/-- A Newton step from the right covers at least a third of the distance. -/
theorem kep_third (h0 : 0 ≤ e) (h1 : e < 1) {R x : ℝ} (hR : 0 ≤ R) (hx : R ≤ x) (hp : x ≤ π) :
    (1 - e * cos x) * (x - R) ≤ 3 * ((x - e * sin x) - (R - e * sin R)) := by
  let g : ℝ → ℝ := fun x => 3 * ((x - e * sin x) - (R - e * sin R)) - (1 - e * cos x) * (x - R)
  have hd : ∀ y, HasDerivAt g (3 * (1 - e * cos y) - (e * sin y * (y - R) + (1 - e * cos y))) y := by
    intro y
    have a : HasDerivAt (fun x => 3 * ((x - e * sin x) - (R - e * sin R))) (3 * (1 - e * cos y)) y :=
      (((hasDerivAt_id y).sub ((hasDerivAt_sin y).const_mul e)).sub_const _).const_mul 3
    have b : HasDerivAt (fun x => (1 - e * cos x) * (x - R)) (e * sin y * (y - R) + (1 - e * cos y)) y := by
      have := (((hasDerivAt_cos y).const_mul e).const_sub 1).mul ((hasDerivAt_id y).sub_const R)
      refine this.congr_deriv ?_
      simp only [id]
      ring
    exact a.sub b
  have hm : MonotoneOn g (Set.Icc R π) := by
    refine monotoneOn_of_deriv_nonneg (convex_Icc R π) (fun y _ => (hd y).continuousAt.continuousWithinAt)
      (fun y _ => (hd y).differentiableAt.differentiableWithinAt) fun y hy => ?_
    rw [interior_Icc] at hy
    rw [(hd y).deriv]
    have hy0 : 0 ≤ y := by linarith [hy.1]
    have key : y * sin y ≤ 2 * (1 - cos y) := by
      have h := mul_cos_le_sin (x := y / 2) (by linarith) (by linarith [hy.2, pi_pos])
      have hs : 0 ≤ sin (y / 2) := sin_nonneg_of_nonneg_of_le_pi (by linarith) (by linarith [hy.2, pi_pos])
      have e1 : sin y = 2 * sin (y / 2) * cos (y / 2) := by rw [← sin_two_mul]; ring_nf
      have e2 : cos y = 1 - 2 * sin (y / 2) ^ 2 := by
        have := cos_two_mul (y / 2)
        rw [show 2 * (y / 2) = y by ring] at this
        rw [this, cos_sq']; ring
      rw [e1, e2]
      nlinarith
    have hs : 0 ≤ sin y := sin_nonneg_of_nonneg_of_le_pi hy0 hy.2.le
    have : 0 ≤ e * (2 * (1 - cos y) - y * sin y) := mul_nonneg h0 (by linarith)
    have : 0 ≤ e * (sin y * R) := mul_nonneg h0 (mul_nonneg hs hR)
    nlinarith
  have := hm ⟨le_refl R, by linarith⟩ ⟨hx, hp⟩ hx
  simp only [g, sub_self, mul_zero, sub_zero] at this
  linarith

/-- Newton's method from the right is quadratic. -/
theorem kep_quad (h0 : 0 ≤ e) {R x : ℝ} (hx : R ≤ x) :
    (1 - e * cos x) * (x - R) - ((x - e * sin x) - (R - e * sin R)) ≤ e * (x - R) ^ 2 / 2 := by
  let g : ℝ → ℝ := fun d => d ^ 2 / 2 - (sin x - sin (x - d) - d * cos x)
  have hd : ∀ d, HasDerivAt g (d - (cos (x - d) - cos x)) d := by
    intro d
    have a : HasDerivAt (fun d : ℝ => d ^ 2 / 2) d d := by
      have := (hasDerivAt_pow 2 d).div_const 2
      refine this.congr_deriv ?_
      simp
    have b : HasDerivAt (fun d => sin (x - d)) (-cos (x - d)) d := by
      have := ((hasDerivAt_id d).const_sub x).sin
      refine this.congr_deriv ?_
      simp
    have c : HasDerivAt (fun d => sin x - sin (x - d) - d * cos x) (cos (x - d) - cos x) d := by
      have := (b.const_sub (sin x)).sub ((hasDerivAt_id d).mul_const (cos x))
      refine this.congr_deriv ?_
      simp
    exact a.sub c
  have hm : MonotoneOn g (Set.Ici 0) := by
    refine monotoneOn_of_deriv_nonneg (convex_Ici 0) (fun y _ => (hd y).continuousAt.continuousWithinAt)
      (fun y _ => (hd y).differentiableAt.differentiableWithinAt) fun y hy => ?_
    rw [interior_Ici] at hy
    rw [(hd y).deriv]
    have := abs_cos_sub_cos_le (x - y) x
    rw [show x - y - x = -y by ring, abs_neg, abs_of_pos (show (0 : ℝ) < y from hy)] at this
    linarith [le_abs_self (cos (x - y) - cos x)]
  have := hm (Set.mem_Ici.2 (le_refl 0)) (show x - R ∈ Set.Ici 0 from sub_nonneg.2 hx) (sub_nonneg.2 hx)
  simp only [g, sub_zero, sub_self, sub_sub_cancel, zero_mul] at this
  have : 0 ≤ e * ((x - R) ^ 2 / 2 - (sin x - sin R - (x - R) * cos x)) := mul_nonneg h0 (by linarith)
  nlinarith

/-! ## The first guess -/

theorem guess_neg (e f : ℝ) : guess e (-f) = -guess e f := by
  unfold guess
  rw [sin_neg, cos_neg]
  ring

theorem le_guess (h0 : 0 ≤ e) (h1 : e < 1) {f : ℝ} (hf : f ∈ Set.Icc 0 π) : f ≤ guess e f := by
  have hs : 0 ≤ sin f := sin_nonneg_of_nonneg_of_le_pi hf.1 hf.2
  have : 0 ≤ 1 + e * (cos f + 1 / 2 * e * (3 * cos f * cos f - 1)) := by
    nlinarith [sq_nonneg (3 * (e * cos f) + 1)]
  have := mul_nonneg (mul_nonneg h0 hs) this
  unfold guess
  linarith

theorem guess_le (h0 : 0 ≤ e) (h1 : e < 1) {f : ℝ} (hf : f ∈ Set.Icc 0 π) : guess e f ≤ π := by
  have hs : 0 ≤ sin f := sin_nonneg_of_nonneg_of_le_pi hf.1 hf.2
  have hs1 := sin_le_one f
  have hpi := pi_gt_three
  have hpi4 := pi_lt_d2
  unfold guess
  rcases le_or_gt (cos f) 0 with hc | hc
  · have hd : sin f ≤ π - f := by rw [← sin_pi_sub]; exact sin_le (by linarith [hf.2])
    have hg : e * (1 + e * (cos f + 1 / 2 * e * (3 * cos f * cos f - 1))) ≤ 1 := by
      have hx : cos f = -(-cos f) := by ring
      generalize -cos f = x at hx
      rw [hx] at hc ⊢
      have hx0 : 0 ≤ x := by linarith
      have hx1 : x ≤ 1 := by linarith [neg_one_le_cos f]
      have e3 : 0 ≤ e ^ 3 := pow_nonneg h0 3
      have a : x * x ≤ x := by nlinarith
      have b : e ^ 3 * (x * x) ≤ e ^ 3 * x := mul_le_mul_of_nonneg_left a e3
      -- linear in x now
      have c0 : e - e ^ 3 / 2 ≤ 1 := by nlinarith
      have c1 : e - e ^ 2 + e ^ 3 ≤ 1 := by nlinarith [mul_nonneg (sub_nonneg.2 h1.le) (by positivity : (0 : ℝ) ≤ 1 + e ^ 2)]
      have c2 : (1 - x) * (e - e ^ 3 / 2) + x * (e - e ^ 2 + e ^ 3) ≤ 1 := by nlinarith
      nlinarith
    have : sin f * (e * (1 + e * (cos f + 1 / 2 * e * (3 * cos f * cos f - 1)))) ≤ sin f * 1 := mul_le_mul_of_nonneg_left hg hs
    nlinarith
  · have hfp : f ≤ π / 2 := by
      by_contra h
      push Not at h
      exact absurd (cos_nonpos_of_pi_div_two_le_of_le h.le (by linarith [hf.2])) (by linarith)
    have hc1 := cos_le_one f
    have hcd : cos f ≤ π / 2 - f := by rw [← sin_pi_div_two_sub]; exact sin_le (by linarith)
    have hsc := sin_sq_add_cos_sq f
    have e2 : e ^ 2 ≤ 1 := by nlinarith
    have hg : e * (1 + e * (cos f + 1 / 2 * e * (3 * cos f * cos f - 1))) ≤ 11 / 20 + cos f + 3 / 2 * cos f ^ 2 := by
      have a : e - e ^ 3 / 2 ≤ 11 / 20 := by nlinarith [sq_nonneg (e - 4 / 5), mul_nonneg h0 (sq_nonneg (e - 4 / 5))]
      have b : e ^ 2 * cos f ≤ 1 * cos f := mul_le_mul_of_nonneg_right e2 hc.le
      have c : e ^ 3 * cos f ^ 2 ≤ 1 * cos f ^ 2 := mul_le_mul_of_nonneg_right (pow_le_one₀ h0 h1.le) (sq_nonneg _)
      nlinarith
    have h2 : sin f * (e * (1 + e * (cos f + 1 / 2 * e * (3 * cos f * cos f - 1)))) ≤ sin f * (11 / 20 + cos f + 3 / 2 * cos f ^ 2) :=
      mul_le_mul_of_nonneg_left hg hs
    have h3 : f + sin f * (11 / 20 + cos f + 3 / 2 * cos f ^ 2) ≤ π := by
      rcases le_or_gt (cos f) (3 / 5) with h | h
      · have : sin f * (11 / 20 + cos f + 3 / 2 * cos f ^ 2) ≤ 1 * (11 / 20 + cos f + 3 / 2 * cos f ^ 2) :=
          mul_le_mul_of_nonneg_right hs1 (by positivity)
        nlinarith
      · have hf1 : f ≤ π / 2 - 3 / 5 := by linarith
        have hs45 : sin f ≤ 4 / 5 := by nlinarith
        have a : sin f * cos f ≤ 1 / 2 := by nlinarith [sq_nonneg (sin f - cos f)]
        have b : sin f * cos f ^ 2 ≤ 1 / 2 := by nlinarith
        nlinarith
    nlinarith

/-! ## One iteration -/

/-- What one iteration does when the root is at `R` and everything lies between 0 and `π`. -/
theorem newton_step (h0 : 0 ≤ e) (h1 : e < 1) {f R : ℝ} (hR : R - e * sin R = f) (hR0 : 0 ≤ R) (err : ℝ) (n : ℕ) {EA lo hi : ℝ}
    (a1 : lo ≤ EA) (a2 : EA ≤ hi) (a3 : lo ≤ R) (a4 : R ≤ hi) (a5 : 0 ≤ EA) (a6 : hi ≤ π) :
    ∃ x lo' hi', newton e f err (n + 1) EA lo hi = (if |x - EA| < err ∨ x = EA then some x else newton e f err n x lo' hi') ∧
      ((EA < R ∧ lo' = EA ∧ hi' = hi ∧ R ≤ x ∧ x ≤ hi) ∨
       (EA < R ∧ lo' = EA ∧ hi' = hi ∧ x = EA + 1 / 2 * (hi - EA) ∧ (hi - EA) * (1 - e * cos EA) < f - (EA - e * sin EA)) ∨
       (R ≤ EA ∧ lo' = lo ∧ hi' = EA ∧ R ≤ x ∧ x ≤ EA ∧ x - R ≤ 2 / 3 * (EA - R) ∧ x - R ≤ e / (2 * (1 - e)) * (EA - R) ^ 2)) := by
  have hd := den_pos h0 h1 EA
  have hcv := kep_convex h0 (x := EA) (y := R) ⟨a5, a2.trans a6⟩ ⟨hR0, a4.trans a6⟩
  rw [hR] at hcv
  rw [newton]
  by_cases hW : EA - e * sin EA - f < 0
  · have hlt : EA < R := (kep_strictMono h0 h1).lt_iff_lt.1 (show EA - e * sin EA < R - e * sin R by linarith)
    simp only [if_pos hW]
    have hge : R ≤ EA + -(EA - e * sin EA - f) / (1 - e * cos EA) := by
      have : R - EA ≤ -(EA - e * sin EA - f) / (1 - e * cos EA) := by rw [le_div_iff₀ hd]; linarith
      linarith
    by_cases hout : hi < EA + -(EA - e * sin EA - f) / (1 - e * cos EA)
    · refine ⟨EA + 1 / 2 * (hi - EA), EA, hi, ?_, Or.inr (Or.inl ⟨hlt, rfl, rfl, rfl, ?_⟩)⟩
      · simp only [if_pos (Or.inr hout : EA + -(EA - e * sin EA - f) / (1 - e * cos EA) < EA ∨ EA + -(EA - e * sin EA - f) / (1 - e * cos EA) > hi)]
      · have : hi - EA < -(EA - e * sin EA - f) / (1 - e * cos EA) := by linarith
        rw [lt_div_iff₀ hd] at this
        linarith
    · have hno : ¬ (EA + -(EA - e * sin EA - f) / (1 - e * cos EA) < EA ∨ EA + -(EA - e * sin EA - f) / (1 - e * cos EA) > hi) := by
        push Not at hout ⊢
        exact ⟨by linarith, hout⟩
      refine ⟨EA + -(EA - e * sin EA - f) / (1 - e * cos EA), EA, hi, ?_, Or.inl ⟨hlt, rfl, rfl, hge, not_lt.1 hout⟩⟩
      simp only [if_neg hno, add_sub_cancel_left]
  · have hle : R ≤ EA := (kep_strictMono h0 h1).le_iff_le.1 (show R - e * sin R ≤ EA - e * sin EA by linarith)
    simp only [if_neg hW]
    push Not at hW
    have hge : R ≤ EA + -(EA - e * sin EA - f) / (1 - e * cos EA) := by
      have : R - EA ≤ -(EA - e * sin EA - f) / (1 - e * cos EA) := by rw [le_div_iff₀ hd]; linarith
      linarith
    have hle' : EA + -(EA - e * sin EA - f) / (1 - e * cos EA) ≤ EA := by
      have : -(EA - e * sin EA - f) / (1 - e * cos EA) ≤ 0 := div_nonpos_of_nonpos_of_nonneg (by linarith) hd.le
      linarith
    have hno : ¬ (EA + -(EA - e * sin EA - f) / (1 - e * cos EA) < lo ∨ EA + -(EA - e * sin EA - f) / (1 - e * cos EA) > EA) := by
      push Not
      exact ⟨by linarith, hle'⟩
    refine ⟨EA + -(EA - e * sin EA - f) / (1 - e * cos EA), lo, EA, ?_, Or.inr (Or.inr ⟨hle, rfl, rfl, hge, hle', ?_, ?_⟩)⟩
    · simp only [if_neg hno, add_sub_cancel_left]
    · have := kep_third h0 h1 hR0 hle (a2.trans a6)
      rw [hR] at this
      have : 1 / 3 * (EA - R) ≤ (EA - e * sin EA - f) / (1 - e * cos EA) := by rw [le_div_iff₀ hd]; linarith
      rw [neg_div]
      linarith
    · have := kep_quad h0 hle (R := R)
      rw [hR] at this
      have h3 : EA - R - (EA - e * sin EA - f) / (1 - e * cos EA) = ((1 - e * cos EA) * (EA - R) - (EA - e * sin EA - f)) / (1 - e * cos EA) := by
        field_simp
      have h4 : EA + -(EA - e * sin EA - f) / (1 - e * cos EA) - R = EA - R - (EA - e * sin EA - f) / (1 - e * cos EA) := by ring
      rw [h4, h3, div_le_iff₀ hd]
      have h5 : 1 - e ≤ 1 - e * cos EA := by nlinarith [cos_le_one EA]
      have h6 : e / (2 * (1 - e)) * (EA - R) ^ 2 * (1 - e) = e * (EA - R) ^ 2 / 2 := by
        have : 1 - e ≠ 0 := by linarith
        field_simp
      have h7 : e / (2 * (1 - e)) * (EA - R) ^ 2 * (1 - e) ≤ e / (2 * (1 - e)) * (EA - R) ^ 2 * (1 - e * cos EA) :=
        mul_le_mul_of_nonneg_left h5 (mul_nonneg (div_nonneg h0 (by linarith)) (sq_nonneg _))
      linarith

/-- What the loop returns is near the root. -/
theorem newton_near (h0 : 0 ≤ e) (h1 : e < 1) {f R : ℝ} (hR : R - e * sin R = f) (hR0 : 0 ≤ R) (err : ℝ) : ∀ (n : ℕ) {EA lo hi r : ℝ},
    lo ≤ EA → EA ≤ hi → lo ≤ R → R ≤ hi → 0 ≤ EA → hi ≤ π → newton e f err n EA lo hi = some r → |r - R| ≤ 2 * max err 0 ∧ 0 ≤ r ∧ r ≤ π
  | 0, _, _, _, _, _, _, _, _, _, _, h => by cases h
  | n + 1, EA, lo, hi, r, a1, a2, a3, a4, a5, a6, h => by
    obtain ⟨x, lo', hi', hs, hx⟩ := newton_step h0 h1 hR hR0 err n a1 a2 a3 a4 a5 a6
    rw [hs] at h
    by_cases hc : |x - EA| < err ∨ x = EA
    · rw [if_pos hc] at h
      have hxr : x = r := Option.some.inj h
      subst hxr
      have hm : |x - EA| ≤ max err 0 := by
        rcases hc with h | h
        · exact h.le.trans (le_max_left _ _)
        · rw [h, sub_self, abs_zero]; exact le_max_right _ _
      have hm0 : 0 ≤ max err 0 := le_max_right _ _
      rcases hx with ⟨b1, -, -, b2, b3⟩ | ⟨b1, -, -, b2, -⟩ | ⟨b1, -, -, b2, b3, b4, -⟩
      · have := le_abs_self (x - EA)
        refine ⟨?_, by linarith, by linarith⟩
        rw [abs_of_nonneg (by linarith)]
        linarith
      · have := le_abs_self (x - EA)
        refine ⟨?_, by linarith, by linarith⟩
        rw [abs_le]
        constructor <;> linarith
      · have := neg_abs_le (x - EA)
        refine ⟨?_, by linarith, by linarith⟩
        rw [abs_of_nonneg (by linarith)]
        linarith
    · rw [if_neg hc] at h
      rcases hx with ⟨b1, rfl, rfl, b2, b3⟩ | ⟨b1, rfl, rfl, b2, -⟩ | ⟨b1, rfl, rfl, b2, b3, b4, -⟩
      · exact newton_near h0 h1 hR hR0 err n (by linarith) b3 b1.le a4 (by linarith) a6 h
      · exact newton_near h0 h1 hR hR0 err n (by linarith) (by linarith) b1.le a4 (by linarith) a6 h
      · exact newton_near h0 h1 hR hR0 err n (by linarith) b3 a3 b1 (by linarith) (by linarith) h

/-- The loop does the same for the opposite phase. -/
theorem newton_neg (e f err : ℝ) : ∀ (n : ℕ) {EA lo hi : ℝ}, lo ≤ EA → EA ≤ hi →
    newton e (-f) err n (-EA) (-hi) (-lo) = (newton e f err n EA lo hi).map Neg.neg
  | 0, _, _, _, _, _ => rfl
  | n + 1, EA, lo, hi, a1, a2 => by
    rw [newton, newton]
    have eW : -EA - e * sin (-EA) - -f = -(EA - e * sin EA - f) := by rw [sin_neg]; ring
    rw [eW, cos_neg]
    generalize EA - e * sin EA - f = W
    generalize 1 - e * cos EA = D
    rcases lt_trichotomy W 0 with h | h | h
    · simp only [if_pos h, if_neg (show ¬ -W < 0 by linarith)]
      by_cases ho : EA + -W / D < EA ∨ EA + -W / D > hi
      · have ho' : -EA + - -W / D < -hi ∨ -EA + - -W / D > -EA := by
          rw [neg_div] at ho ⊢
          rw [neg_div] at *
          rcases ho with h | h
          · right; linarith
          · left; linarith
        simp only [if_pos ho, if_pos ho']
        have e1 : -hi + 1 / 2 * (-EA - -hi) = -(EA + 1 / 2 * (hi - EA)) := by ring
        rw [e1]
        have e2 : |-(EA + 1 / 2 * (hi - EA)) - -EA| = |EA + 1 / 2 * (hi - EA) - EA| := by rw [← abs_neg]; congr 1; ring
        simp only [e2, neg_inj]
        split_ifs
        · rfl
        · exact newton_neg e f err n (by linarith) (by linarith)
      · have ho' : ¬ (-EA + - -W / D < -hi ∨ -EA + - -W / D > -EA) := by
          push Not at ho ⊢
          rw [neg_div] at ho ⊢
          rw [neg_div] at *
          exact ⟨by linarith [ho.2], by linarith [ho.1]⟩
        simp only [if_neg ho, if_neg ho']
        have e1 : -EA + - -W / D = -(EA + -W / D) := by ring
        simp only [e1, neg_inj]
        have e2 : |- -W / D| = |-W / D| := by rw [neg_div, abs_neg]
        rw [e2]
        push Not at ho
        split_ifs
        · rfl
        · exact newton_neg e f err n ho.1 ho.2
    · subst h
      simp [not_lt.2 a1, not_lt.2 a2]
    · simp only [if_pos (show -W < 0 by linarith), if_neg (show ¬ W < 0 by linarith)]
      by_cases ho : EA + -W / D < lo ∨ EA + -W / D > EA
      · have ho' : -EA + - -W / D < -EA ∨ -EA + - -W / D > -lo := by
          rw [neg_div] at ho ⊢
          rw [neg_div] at *
          rcases ho with h | h
          · right; linarith
          · left; linarith
        simp only [if_pos ho, if_pos ho']
        have e1 : -EA + 1 / 2 * (-lo - -EA) = -(lo + 1 / 2 * (EA - lo)) := by ring
        rw [e1]
        have e2 : |-(lo + 1 / 2 * (EA - lo)) - -EA| = |lo + 1 / 2 * (EA - lo) - EA| := by rw [← abs_neg]; congr 1; ring
        simp only [e2, neg_inj]
        split_ifs
        · rfl
        · exact newton_neg e f err n (by linarith) (by linarith)
      · have ho' : ¬ (-EA + - -W / D < -EA ∨ -EA + - -W / D > -lo) := by
          push Not at ho ⊢
          rw [neg_div] at ho ⊢
          rw [neg_div] at *
          exact ⟨by linarith [ho.2], by linarith [ho.1]⟩
        simp only [if_neg ho, if_neg ho']
        have e1 : -EA + - -W / D = -(EA + -W / D) := by ring
        simp only [e1, neg_inj]
        have e2 : |- -W / D| = |-W / D| := by rw [neg_div, abs_neg]
        rw [e2]
        push Not at ho
        split_ifs
        · rfl
        · exact newton_neg e f err n ho.1 ho.2

end Verif.Signals.Kepler
