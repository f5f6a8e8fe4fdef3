import Verif.Regress.Regress
import Verif.Regress.Spec
import Mathlib.Tactic.FieldSimp
import Mathlib.Tactic.LinearCombination
import Mathlib.Tactic.Linarith
import Mathlib.Tactic.Positivity
import Mathlib.Algebra.Order.BigOperators.Ring.Finset
import Mathlib.Algebra.BigOperators.Field
import Mathlib.Algebra.Order.BigOperators.Group.Finset

/-!
# Linear regressions: helper lemmas
-/

set_option linter.unusedSectionVars false

namespace Verif.Regress

open Real

theorem tot_eq (n : ℕ) (f : ℕ → ℝ) : tot n f = ∑ i ∈ Finset.range n, f i := by
  unfold tot
  induction n with
  | zero => simp
  | succ n ih => rw [List.range_succ, List.foldl_append, ih, Finset.sum_range_succ]; simp

theorem sgn_mul (c : ℝ) : sgn c * c = |c| := by
  unfold sgn; split
  · rw [abs_of_neg (by assumption)]; ring
  · rw [abs_of_nonneg (by linarith)]; ring

theorem sgn_sq (c : ℝ) : sgn c ^ 2 = 1 := by unfold sgn; split <;> norm_num

theorem sgn_ne (c : ℝ) : sgn c ≠ 0 := by unfold sgn; split <;> norm_num

theorem sgn_abs (c : ℝ) : |sgn c| = 1 := by unfold sgn; split <;> norm_num

/-! ## The lines in terms of the moments -/

theorem slope0 {vx vy c : ℝ} (hx : 0 < vx) (b : ℝ) : (∀ b', Q vx vy c b ≤ Q vx vy c b') ↔ b = c / vx := by
  have key : ∀ t, Q vx vy c t = Q vx vy c (c / vx) + vx * (t - c / vx) ^ 2 := by
    intro t; unfold Q; field_simp; ring
  constructor
  · intro h
    have h1 := h (c / vx)
    rw [key b] at h1
    have h2 : (b - c / vx) ^ 2 ≤ 0 := by
      by_contra h3; push Not at h3; nlinarith [mul_pos hx h3]
    have h3 : b - c / vx = 0 := pow_eq_zero_iff (two_ne_zero) |>.1 (le_antisymm h2 (sq_nonneg _))
    linarith
  · rintro rfl t
    rw [key t]; nlinarith [mul_nonneg hx.le (sq_nonneg (t - c / vx))]

theorem slope1 {vx vy c : ℝ} (hy : 0 < vy) (hc : c ≠ 0) (b : ℝ) :
    (b ≠ 0 ∧ ∀ d, Q vy vx c (1 / b) ≤ Q vy vx c d) ↔ b = vy / c := by
  rw [slope0 hy]
  constructor
  · rintro ⟨h0, h⟩
    field_simp at h ⊢
    linarith
  · rintro rfl
    exact ⟨div_ne_zero hy.ne' hc, by rw [one_div_div]⟩

theorem bis_arctan {b1 b2 : ℝ} (h : 0 < b1 * b2) (b : ℝ) : arctan b = (arctan b1 + arctan b2) / 2 ↔ b = bisSlope b1 b2 := by
  have hb1 : b1 ≠ 0 := by rintro rfl; simp at h
  have hs : b1 + b2 ≠ 0 := by
    intro hs
    have : b2 = -b1 := by linarith
    subst this
    nlinarith [sq_nonneg b1]
  have key : arctan (bisSlope b1 b2) = (arctan b1 + arctan b2) / 2 := by
    set p := arctan b1 with hp
    set q := arctan b2 with hq
    have hp1 := arctan_lt_pi_div_two b1
    have hp2 := neg_pi_div_two_lt_arctan b1
    have hq1 := arctan_lt_pi_div_two b2
    have hq2 := neg_pi_div_two_lt_arctan b2
    rw [← hp] at hp1 hp2
    rw [← hq] at hq1 hq2
    have hcp : 0 < cos p := cos_pos_of_mem_Ioo ⟨by linarith, by linarith⟩
    have hcq : 0 < cos q := cos_pos_of_mem_Ioo ⟨by linarith, by linarith⟩
    have hch : 0 < cos ((p + q) / 2) := cos_pos_of_mem_Ioo ⟨by linarith, by linarith⟩
    have e1 : b1 = sin p / cos p := by rw [← tan_eq_sin_div_cos, tan_arctan]
    have e2 : b2 = sin q / cos q := by rw [← tan_eq_sin_div_cos, tan_arctan]
    have e3 : √((1 + b1 ^ 2) * (1 + b2 ^ 2)) = 1 / (cos p * cos q) := by
      rw [show (1 + b1 ^ 2) * (1 + b2 ^ 2) = (1 / (cos p * cos q)) ^ 2 by
        rw [e1, e2]; field_simp
        rw [add_comm (cos p ^ 2), add_comm (cos q ^ 2), sin_sq_add_cos_sq, sin_sq_add_cos_sq]; ring]
      exact sqrt_sq (by positivity)
    have e4 : b1 * b2 - 1 + √((1 + b1 ^ 2) * (1 + b2 ^ 2)) = (1 - cos (p + q)) / (cos p * cos q) := by
      rw [e3, e1, e2, cos_add]; field_simp
      try ring
    have e5 : b1 + b2 = sin (p + q) / (cos p * cos q) := by
      rw [e1, e2, sin_add]; field_simp
      try ring
    have hsn : sin (p + q) ≠ 0 := by
      intro h0; rw [h0] at e5; exact hs (by rw [e5]; simp)
    have e6 : bisSlope b1 b2 = tan ((p + q) / 2) := by
      unfold bisSlope
      rw [e4, e5, div_div_div_cancel_right₀ (by positivity), tan_eq_sin_div_cos]
      rw [div_eq_div_iff hsn hch.ne']
      have hd : p + q = 2 * ((p + q) / 2) := by ring
      conv_lhs => rw [hd]
      conv_rhs => rw [hd]
      rw [cos_two_mul, sin_two_mul]
      have : 2 * ((p + q) / 2) / 2 = (p + q) / 2 := by ring
      rw [this]
      have := sin_sq_add_cos_sq ((p + q) / 2)
      linear_combination (-2 * cos ((p + q) / 2)) * this
    rw [e6, arctan_tan (by linarith) (by linarith)]
  rw [← key]
  exact ⟨fun h => arctan_injective h, fun h => by rw [h]⟩

/-- The orthogonal slope solves its quadratic and has the sign of the covariance. -/
theorem orth_root {vx vy c : ℝ} (hc : c ≠ 0) :
    let b := orthSlope (sgn c) (c / vx) (vy / c)
    c * b ^ 2 - (vy - vx) * b - c = 0 ∧ 0 < c / b := by
  intro b
  have hb : b = 1 / 2 * ((vy - vx) / c + sgn c * √(4 + ((vy - vx) / c) ^ 2)) := by
    have : vy / c - 1 / (c / vx) = (vy - vx) / c := by field_simp
    simp only [b, orthSlope, this]
  set t := (vy - vx) / c with ht
  have hs := sq_sqrt (show 0 ≤ 4 + t ^ 2 by positivity)
  have hs0 := sqrt_nonneg (4 + t ^ 2)
  set s := √(4 + t ^ 2)
  have hq : b ^ 2 - t * b - 1 = 0 := by
    rw [hb]; linear_combination (1 / 4) * s ^ 2 * sgn_sq c + (1 / 4) * hs
  have hst : |t| < s := by
    rw [← sqrt_sq_eq_abs]; exact sqrt_lt_sqrt (sq_nonneg _) (by linarith)
  have hpos : 0 < sgn c * b := by
    rw [hb]
    have h1 : sgn c * (1 / 2 * (t + sgn c * s)) = 1 / 2 * (sgn c * t + s) := by linear_combination (1 / 2) * s * sgn_sq c
    rw [h1]
    have h2 : -|t| ≤ sgn c * t := by
      have := neg_abs_le (sgn c * t); rw [abs_mul, sgn_abs, one_mul] at this; exact this
    linarith
  refine ⟨?_, ?_⟩
  · have : (vy - vx) = t * c := by rw [ht]; field_simp
    rw [this]; linear_combination c * hq
  · have h1 : 0 < |c| := abs_pos.2 hc
    rw [← sgn_mul] at h1
    have h2 : c / b = (sgn c * c) / (sgn c * b) := by
      rw [mul_div_mul_left _ _ (sgn_ne c)]
    rw [h2]; exact div_pos h1 hpos

theorem slope3 {vx vy c : ℝ} (hc : c ≠ 0) (b : ℝ) :
    ((∀ b', Q vx vy c b / (1 + b ^ 2) ≤ Q vx vy c b' / (1 + b' ^ 2)) ∧ Q vx vy c b / (1 + b ^ 2) ≤ vx)
      ↔ b = orthSlope (sgn c) (c / vx) (vy / c) := by
  obtain ⟨hq, hpos⟩ := orth_root (vx := vx) (vy := vy) hc
  set r := orthSlope (sgn c) (c / vx) (vy / c)
  have hr : r ≠ 0 := by intro h; rw [h] at hpos; simp at hpos
  have key : ∀ t, Q vx vy c t / (1 + t ^ 2) = (vx - c / r) + c / r * (t - r) ^ 2 / (1 + t ^ 2) := by
    intro t
    have : (1 + t ^ 2) ≠ 0 := by positivity
    unfold Q; field_simp
    linear_combination (-1 : ℝ) * hq
  constructor
  · rintro ⟨h, -⟩
    have h1 := h r
    rw [key b, key r] at h1
    simp only [sub_self, ne_eq, OfNat.ofNat_ne_zero, not_false_eq_true, zero_pow, mul_zero, zero_div, add_zero] at h1
    by_contra hne
    have : 0 < c / r * (b - r) ^ 2 / (1 + b ^ 2) := by
      have := sub_ne_zero.2 hne; positivity
    linarith
  · rintro rfl
    refine ⟨fun t => ?_, ?_⟩
    · rw [key r, key t]
      have : 0 ≤ c / r * (t - r) ^ 2 / (1 + t ^ 2) := by positivity
      simp; linarith
    · rw [key r]; simp; linarith

theorem slope4 {vx vy c : ℝ} (hx : 0 < vx) (hy : 0 < vy) (hc : c ≠ 0) (b : ℝ) :
    (b ≠ 0 ∧ ∀ b', b' ≠ 0 → Q vx vy c b / |b| ≤ Q vx vy c b' / |b'|) ↔ b = sgn c * √(c / vx * (vy / c)) := by
  have e : c / vx * (vy / c) = vy / vx := by field_simp
  rw [e]
  have hs : 0 < √(vy / vx) := sqrt_pos.2 (div_pos hy hx)
  have hs2 := sq_sqrt (div_pos hy hx).le
  set s := √(vy / vx) with hsdef
  have hvy : vy = vx * s ^ 2 := by rw [hs2]; field_simp
  have key : ∀ t, t ≠ 0 → Q vx vy c t / |t| = 2 * vx * s - 2 * |c| + vx * (|t| - s) ^ 2 / |t| + 2 * (|c| - c * t / |t|) := by
    intro t ht
    have h1 : |t| ≠ 0 := abs_ne_zero.2 ht
    unfold Q
    rw [hvy, ← sq_abs t]
    field_simp; ring
  have hsg : ∀ t : ℝ, t ≠ 0 → c * t / |t| ≤ |c| := by
    intro t ht
    rw [div_le_iff₀ (abs_pos.2 ht), ← abs_mul]; exact le_abs_self _
  have hr0 : sgn c * s ≠ 0 := mul_ne_zero (sgn_ne c) hs.ne'
  have hra : |sgn c * s| = s := by rw [abs_mul, sgn_abs, one_mul, abs_of_pos hs]
  have hval : Q vx vy c (sgn c * s) / |sgn c * s| = 2 * vx * s - 2 * |c| := by
    rw [key _ hr0, hra]
    have : c * (sgn c * s) / s = |c| := by rw [← sgn_mul]; field_simp
    rw [this]; simp
  constructor
  · rintro ⟨h0, h⟩
    have h1 := h _ hr0
    rw [hval, key b h0] at h1
    have h2 := hsg b h0
    have hb : 0 < |b| := abs_pos.2 h0
    have h3 : 0 ≤ vx * (|b| - s) ^ 2 / |b| := by positivity
    have h4 : vx * (|b| - s) ^ 2 / |b| = 0 := by linarith
    have h5 : |b| = s := by
      have : (|b| - s) ^ 2 = 0 := by
        by_contra hne
        have : 0 < (|b| - s) ^ 2 := lt_of_le_of_ne (sq_nonneg _) (Ne.symm hne)
        have : 0 < vx * (|b| - s) ^ 2 / |b| := by positivity
        linarith
      have := pow_eq_zero_iff (two_ne_zero) |>.1 this
      linarith
    have h6 : c * b / |b| = |c| := by linarith
    have h7 : c * b = |c| * s := by rw [← h5]; field_simp at h6; linarith
    have h8 : c * b = c * (sgn c * s) := by rw [h7, ← sgn_mul]; ring
    exact mul_left_cancel₀ hc h8
  · rintro rfl
    refine ⟨hr0, fun t ht => ?_⟩
    rw [hval, key t ht]
    have h2 := hsg t ht
    have hb : 0 < |t| := abs_pos.2 ht
    have h3 : 0 ≤ vx * (|t| - s) ^ 2 / |t| := by positivity
    linarith

theorem slope_mul {vx vy c : ℝ} (hx : 0 < vx) (hy : 0 < vy) (hc : c ≠ 0) : 0 < c / vx * (vy / c) := by
  have : c / vx * (vy / c) = vy / vx := by field_simp
  rw [this]; exact div_pos hy hx

/-- The six slopes are what they should be, and nothing else is. -/
theorem isSlope_iff {vx vy c : ℝ} (hx : 0 < vx) (hy : 0 < vy) (hc : c ≠ 0) (j : Fin 6) (b : ℝ) :
    IsSlope vx vy c j b ↔ b = slopes (sgn c) (c / vx) (vy / c) j := by
  match j with
  | 0 => exact slope0 hx b
  | 1 => exact slope1 hy hc b
  | 2 =>
    show (∃ b1 b2, _) ↔ b = bisSlope _ _
    simp only [slope0 hx, slope1 hy hc]
    rw [← bis_arctan (slope_mul hx hy hc)]
    constructor
    · rintro ⟨_, _, rfl, rfl, h⟩; exact h
    · intro h; exact ⟨_, _, rfl, rfl, h⟩
  | 3 => exact slope3 hc b
  | 4 => exact slope4 hx hy hc b
  | 5 =>
    show (∃ b1 b2, _) ↔ b = 1 / 2 * (_ + _)
    simp only [slope0 hx, slope1 hy hc]
    constructor
    · rintro ⟨_, _, rfl, rfl, h⟩; rw [h]; ring
    · intro h; exact ⟨_, _, rfl, rfl, by rw [h]; ring⟩

/-! ## From the data to the moments -/

section data

variable {n : ℕ} {w x y : ℕ → ℝ}

theorem dev_sum (hW : ∑ i ∈ Finset.range n, w i ≠ 0) (u : ℕ → ℝ) : ∑ i ∈ Finset.range n, w i * (u i - mean n w u) = 0 := by
  simp only [mul_sub, Finset.sum_sub_distrib, ← Finset.sum_mul]
  unfold mean; field_simp; ring

theorem ss_eq (hW : ∑ i ∈ Finset.range n, w i ≠ 0) (a b : ℝ) :
    ss n w x y a b = Q (cov n w x x) (cov n w y y) (cov n w x y) b
      + (∑ i ∈ Finset.range n, w i) * (mean n w y - a - b * mean n w x) ^ 2 := by
  have h1 := dev_sum hW x
  have h2 := dev_sum hW y
  set d := mean n w y - a - b * mean n w x with hd
  have : ∀ i ∈ Finset.range n, w i * (y i - a - b * x i) ^ 2 =
      w i * ((y i - mean n w y) * (y i - mean n w y)) - 2 * b * (w i * ((x i - mean n w x) * (y i - mean n w y)))
        + b ^ 2 * (w i * ((x i - mean n w x) * (x i - mean n w x))) + w i * d ^ 2
        + 2 * d * (w i * (y i - mean n w y)) - 2 * d * b * (w i * (x i - mean n w x)) := by
    intro i _; rw [hd]; ring
  unfold ss
  rw [Finset.sum_congr rfl this]
  simp only [Finset.sum_add_distrib, Finset.sum_sub_distrib, ← Finset.mul_sum, ← Finset.sum_mul, h1, h2]
  unfold Q cov; ring

theorem cov_comm (u v : ℕ → ℝ) : cov n w u v = cov n w v u := by
  unfold cov; exact Finset.sum_congr rfl fun i _ => by ring

theorem ss_vert (hW : ∑ i ∈ Finset.range n, w i ≠ 0) (c : ℝ) :
    ∑ i ∈ Finset.range n, w i * (x i - c) ^ 2 = cov n w x x + (∑ i ∈ Finset.range n, w i) * (mean n w x - c) ^ 2 := by
  have := ss_eq (x := fun _ => 0) (y := x) hW c 0
  unfold ss Q at this
  simp only [zero_mul, mul_zero, sub_zero] at this
  rw [this]; ring

theorem yonx_iff (hW : 0 < ∑ i ∈ Finset.range n, w i) (hx : 0 < cov n w x x) (a b : ℝ) :
    YonX n w x y a b ↔ b = cov n w x y / cov n w x x ∧ Centred n w x y a b := by
  rw [← slope0 (vy := cov n w y y) hx]
  unfold YonX Centred
  simp only [ss_eq hW.ne']
  constructor
  · intro h
    have h0 : mean n w y - a - b * mean n w x = 0 := by
      have := h (mean n w y - b * mean n w x) b
      have e : mean n w y - (mean n w y - b * mean n w x) - b * mean n w x = 0 := by ring
      rw [e] at this
      have h2 : (mean n w y - a - b * mean n w x) ^ 2 ≤ 0 := by
        by_contra h3; push Not at h3; nlinarith [mul_pos hW h3]
      exact pow_eq_zero_iff (two_ne_zero) |>.1 (le_antisymm h2 (sq_nonneg _))
    refine ⟨fun b' => ?_, by linarith⟩
    have := h (mean n w y - b' * mean n w x) b'
    rw [h0] at this
    simpa using this
  · rintro ⟨h, hc⟩ a' b'
    have e : mean n w y - a - b * mean n w x = 0 := by linarith
    rw [e]
    have h2 : 0 ≤ (∑ i ∈ Finset.range n, w i) * (mean n w y - a' - b' * mean n w x) ^ 2 := mul_nonneg hW.le (sq_nonneg _)
    have := h b'
    linarith

theorem xony_iff (hW : 0 < ∑ i ∈ Finset.range n, w i) (hy : 0 < cov n w y y) (hc : cov n w x y ≠ 0) (a b : ℝ) :
    XonY n w x y a b ↔ b = cov n w y y / cov n w x y ∧ Centred n w x y a b := by
  have := fun a b => yonx_iff (x := y) (y := x) hW hy a b
  unfold YonX at this
  unfold XonY
  rw [this, cov_comm y x]
  unfold Centred
  constructor
  · rintro ⟨h0, h, h1⟩
    refine ⟨by field_simp at h ⊢; linarith, ?_⟩
    field_simp at h1; linarith
  · rintro ⟨h, h1⟩
    have h0 : b ≠ 0 := by rw [h]; exact div_ne_zero hy.ne' hc
    refine ⟨h0, by rw [h, one_div_div], ?_⟩
    field_simp; linarith

theorem centred_iff (a b : ℝ) : Centred n w x y a b ↔ a = mean n w y - b * mean n w x := by
  unfold Centred; constructor <;> intro h <;> linarith

/-- Minimising a positive multiple of the sum of squares over the line puts the centre on it. -/
theorem centre_of_min (hW : 0 < ∑ i ∈ Finset.range n, w i) {a b k : ℝ} (hk : 0 < k)
    (h : ∀ a', ss n w x y a b / k ≤ ss n w x y a' b / k) : Centred n w x y a b := by
  have := h (mean n w y - b * mean n w x)
  rw [div_le_div_iff_of_pos_right hk, ss_eq hW.ne', ss_eq hW.ne'] at this
  have e : mean n w y - (mean n w y - b * mean n w x) - b * mean n w x = 0 := by ring
  rw [e] at this
  have h2 : (mean n w y - a - b * mean n w x) ^ 2 ≤ 0 := by
    by_contra h3; push Not at h3; nlinarith [mul_pos hW h3]
  have := pow_eq_zero_iff (two_ne_zero) |>.1 (le_antisymm h2 (sq_nonneg _))
  unfold Centred; linarith

theorem ss_ge (hW : 0 < ∑ i ∈ Finset.range n, w i) (a b : ℝ) :
    Q (cov n w x x) (cov n w y y) (cov n w x y) b ≤ ss n w x y a b := by
  rw [ss_eq hW.ne']; nlinarith [mul_nonneg hW.le (sq_nonneg (mean n w y - a - b * mean n w x))]

theorem ss_centred (hW : 0 < ∑ i ∈ Finset.range n, w i) {a b : ℝ} (h : Centred n w x y a b) :
    ss n w x y a b = Q (cov n w x x) (cov n w y y) (cov n w x y) b := by
  have e : mean n w y - a - b * mean n w x = 0 := by unfold Centred at h; linarith
  rw [ss_eq hW.ne', e]; ring

/-- A line of the data is a slope of its moments through the centre. -/
theorem isLine_iff (hW : 0 < ∑ i ∈ Finset.range n, w i) (hx : 0 < cov n w x x) (hy : 0 < cov n w y y) (hc : cov n w x y ≠ 0)
    (j : Fin 6) (a b : ℝ) : IsLine n w x y j a b ↔ IsSlope (cov n w x x) (cov n w y y) (cov n w x y) j b ∧ Centred n w x y a b := by
  have C : ∀ b', Centred n w x y (mean n w y - b' * mean n w x) b' := fun b' => (centred_iff _ _).2 rfl
  match j with
  | 0 => show YonX n w x y a b ↔ (∀ b', _) ∧ _; rw [yonx_iff hW hx, slope0 hx]
  | 1 => show XonY n w x y a b ↔ (b ≠ 0 ∧ ∀ d, _) ∧ _; rw [xony_iff hW hy hc, slope1 hy hc]
  | 2 =>
    show (∃ a1 b1 a2 b2, _) ∧ _ ↔ (∃ b1 b2, _) ∧ _
    simp only [slope0 hx, slope1 hy hc, yonx_iff hW hx, xony_iff hW hy hc]
    refine and_congr_left fun _ => ?_
    constructor
    · rintro ⟨a1, b1, a2, b2, ⟨h1, -⟩, ⟨h2, -⟩, h⟩; exact ⟨b1, b2, h1, h2, h⟩
    · rintro ⟨b1, b2, h1, h2, h⟩; exact ⟨_, b1, _, b2, ⟨h1, C _⟩, ⟨h2, C _⟩, h⟩
  | 3 =>
    show (∀ a' b', _) ∧ (∀ c, _) ↔ ((∀ b', _) ∧ _) ∧ _
    have hp : ∀ t : ℝ, 0 < 1 + t ^ 2 := fun t => by positivity
    constructor
    · rintro ⟨h, hv⟩
      have hcen := centre_of_min hW (hp b) fun a' => h a' b
      refine ⟨⟨fun b' => ?_, ?_⟩, hcen⟩
      · rw [← ss_centred hW hcen, ← ss_centred hW (C b')]; exact h _ _
      · rw [← ss_centred hW hcen]
        have := hv (mean n w x)
        rw [ss_vert hW.ne'] at this
        simpa using this
    · rintro ⟨⟨h, hv⟩, hcen⟩
      refine ⟨fun a' b' => ?_, fun c => ?_⟩
      · rw [ss_centred hW hcen]
        exact (h b').trans (div_le_div_of_nonneg_right (ss_ge hW a' b') (hp b').le)
      · rw [ss_centred hW hcen, ss_vert hW.ne']
        nlinarith [mul_nonneg hW.le (sq_nonneg (mean n w x - c))]
  | 4 =>
    show (b ≠ 0 ∧ ∀ a' b', b' ≠ 0 → _) ↔ (b ≠ 0 ∧ ∀ b', b' ≠ 0 → _) ∧ _
    constructor
    · rintro ⟨h0, h⟩
      have hcen := centre_of_min hW (abs_pos.2 h0) fun a' => h a' b h0
      refine ⟨⟨h0, fun b' hb' => ?_⟩, hcen⟩
      rw [← ss_centred hW hcen, ← ss_centred hW (C b')]; exact h _ _ hb'
    · rintro ⟨⟨h0, h⟩, hcen⟩
      refine ⟨h0, fun a' b' hb' => ?_⟩
      rw [ss_centred hW hcen]
      exact (h b' hb').trans (div_le_div_of_nonneg_right (ss_ge hW a' b') (abs_nonneg _))
  | 5 =>
    show (∃ a1 b1 a2 b2, _) ∧ _ ↔ (∃ b1 b2, _) ∧ _
    simp only [slope0 hx, slope1 hy hc, yonx_iff hW hx, xony_iff hW hy hc]
    refine and_congr_left fun _ => ?_
    constructor
    · rintro ⟨a1, b1, a2, b2, ⟨h1, -⟩, ⟨h2, -⟩, h⟩; exact ⟨b1, b2, h1, h2, h⟩
    · rintro ⟨b1, b2, h1, h2, h⟩; exact ⟨_, b1, _, b2, ⟨h1, C _⟩, ⟨h2, C _⟩, h⟩

theorem cov_nonneg (hw : ∀ i < n, 0 ≤ w i) (u : ℕ → ℝ) : 0 ≤ cov n w u u :=
  Finset.sum_nonneg fun i hi => mul_nonneg (hw i (Finset.mem_range.1 hi)) (mul_self_nonneg _)

theorem cov_pos (hw : ∀ i < n, 0 ≤ w i) (hc : cov n w x y ≠ 0) : 0 < cov n w x x ∧ 0 < cov n w y y := by
  have cs : cov n w x y ^ 2 ≤ cov n w x x * cov n w y y := by
    have := Finset.sum_mul_sq_le_sq_mul_sq (Finset.range n) (fun i => √(w i) * (x i - mean n w x)) (fun i => √(w i) * (y i - mean n w y))
    have e : ∀ u v : ℕ → ℝ, ∀ i ∈ Finset.range n, √(w i) * (u i - mean n w u) * (√(w i) * (v i - mean n w v)) =
        w i * ((u i - mean n w u) * (v i - mean n w v)) := by
      intro u v i hi
      have := mul_self_sqrt (hw i (Finset.mem_range.1 hi))
      linear_combination ((u i - mean n w u) * (v i - mean n w v)) * this
    simp only [sq (√_ * _)] at this
    rw [Finset.sum_congr rfl (e x y), Finset.sum_congr rfl (e x x), Finset.sum_congr rfl (e y y)] at this
    exact this
  have hx := cov_nonneg hw x
  have hy := cov_nonneg hw y
  have h2 : 0 < cov n w x y ^ 2 := by positivity
  constructor
  · rcases hx.lt_or_eq with h | h
    · exact h
    · rw [← h] at cs; linarith
  · rcases hy.lt_or_eq with h | h
    · exact h
    · rw [← h] at cs; linarith

end data

end Verif.Regress
