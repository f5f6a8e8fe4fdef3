import Verif.Point.Bessel
import Verif.Point.Rayleigh
import Mathlib.Analysis.Complex.ExponentialBounds

/-!
# Accuracy of the approximation of the log Bessel function: lemmas

For small arguments the polynomial is compared with the series.  For large ones `F x = √x e^(-x) I0 x` satisfies `F' = 2 (A - F)`, `A' = -F / (8 x²)`, and the difference of `F` from the polynomial in `3.75 / x` is controlled by the same equations from its value at 3.75 on.  Polynomials are shown to be nonnegative on an interval by the signs of their coefficients after a change of variable that maps the interval to the positive numbers.
-/

set_option linter.unusedSectionVars false

namespace Verif.Point

open Real Verif.OnOff.Lz

/-! ## Polynomials on an interval -/

/-- A power of `1 + z`. -/
def onePow : ℕ → List ℚ
  | 0 => [1]
  | n + 1 => pmul [1, 1] (onePow n)

theorem pev_onePow (n : ℕ) (z : ℝ) : pev (onePow n) z = (1 + z) ^ n := by
  induction n with
  | zero => simp [onePow, pev]
  | succ n ih =>
    rw [onePow, pev_mul, ih, pow_succ]
    simp only [pev]
    push_cast
    ring

/-- The polynomial at `(a + b z) / (1 + z)`, times a power of `1 + z`. -/
def mob (a b : ℚ) : List ℚ → List ℚ
  | [] => []
  | c :: l => padd (psc c (onePow (l.length + 1))) (pmul [a, b] (mob a b l))

theorem pev_mob (a b : ℚ) (l : List ℚ) {z : ℝ} (hz : 0 ≤ z) : pev (mob a b l) z = (1 + z) ^ l.length * pev l ((a + b * z) / (1 + z)) := by
  have h1 : (1 + z) ≠ 0 := by positivity
  induction l with
  | nil => simp [mob, pev]
  | cons c l ih =>
    simp only [mob, pev_add, pev_sc, pev_onePow, pev_mul, ih, pev, List.length_cons]
    field_simp
    ring

/-- Nonnegative on the intervals between the break points. -/
def cover (l : List ℚ) : ℚ → List ℚ → Bool
  | _, [] => true
  | a, b :: bs => decide (a < b) && (mob a b l).all (fun c => decide (0 ≤ c)) && cover l b bs

theorem cover_nonneg {l : List ℚ} {a : ℚ} {bs : List ℚ} (h : cover l a bs = true) {t : ℝ} (h1 : (a : ℝ) ≤ t) (h2 : t < ((bs.getLastD a : ℚ) : ℝ)) : 0 ≤ pev l t := by
  induction bs generalizing a with
  | nil => exact absurd h2 (by simpa using h1)
  | cons b bs ih =>
    simp only [cover, Bool.and_eq_true, decide_eq_true_eq, List.all_eq_true] at h
    obtain ⟨⟨hab, hc⟩, hr⟩ := h
    by_cases hb : (b : ℝ) ≤ t
    · apply ih hr hb
      cases bs with
      | nil => simpa using h2
      | cons c bs => simpa only [List.getLastD_cons] using h2
    · push Not at hb
      have hab' : (a : ℝ) < b := by exact_mod_cast hab
      have hd : (b : ℝ) - t ≠ 0 := by linarith
      have hz : 0 ≤ (t - a) / (b - t) := div_nonneg (by linarith) (by linarith)
      have e := pev_mob a b l hz
      have h3 := pev_nonneg (mob a b l) hc hz
      have h4 : ((a : ℝ) + b * ((t - a) / (b - t))) / (1 + (t - a) / (b - t)) = t := by
        have h5 : 1 + (t - a) / (b - t) = (b - a) / (b - t) := by field_simp; ring
        rw [h5]
        have h6 : (b : ℝ) - a ≠ 0 := by linarith
        field_simp
        ring
      rw [e, h4] at h3
      have h5 : 0 < (1 + (t - a) / (b - t)) ^ l.length := by positivity
      exact nonneg_of_mul_nonneg_right h3 h5

/-! ## Small arguments -/

/-- The coefficients in _rayleigh.c:277-278. -/
def smallP : List ℚ := [1, 3.5156229, 3.0899424, 1.2067492, 0.2659732, 0.0360768, 0.0045813]

/-- The first coefficients of the series in `(x / 3.75)²`. -/
def smallS : List ℚ := (List.range 14).map fun k => 3.515625 ^ k / (k.factorial : ℚ) ^ 2

theorem pev_range (f : ℕ → ℚ) (n : ℕ) (z : ℝ) : pev ((List.range n).map f) z = ∑ k ∈ Finset.range n, (f k : ℝ) * z ^ k := by
  induction n generalizing f with
  | zero => simp [pev]
  | succ n ih =>
    rw [List.range_succ_eq_map, List.map_cons, List.map_map, pev, ih, Finset.sum_range_succ']
    simp only [Function.comp, pow_zero, mul_one]
    rw [Finset.mul_sum, add_comm]
    congr 1
    apply Finset.sum_congr rfl
    intro k _
    rw [pow_succ]
    simp only [Nat.succ_eq_add_one]
    ring

theorem exp_small : exp (3.515625 : ℝ) ≤ 81 := by
  have h : exp (3.515625 : ℝ) ≤ exp 4 := exp_le_exp.2 (by norm_num)
  have h4 : exp (4 : ℝ) = exp 1 ^ 4 := by rw [← exp_nat_mul]; norm_num
  have h1 : exp 1 < 3 := exp_one_lt_d9.trans (by norm_num)
  have := pow_le_pow_left₀ (exp_pos 1).le h1.le 4
  rw [h4] at h
  linarith

theorem small_diff {y : ℝ} (h0 : 0 ≤ y) (h1 : y < 1) : |pev smallP y - ser (bc 0) (3.515625 * y)| ≤ 1.7e-7 := by
  have hp : part 0 14 (3.515625 * y) = pev smallS y := by
    unfold part smallS
    rw [pev_range]
    apply Finset.sum_congr rfl
    intro k _
    unfold bc
    rw [mul_pow]
    push_cast
    simp only [add_zero]
    ring
  obtain ⟨a, b⟩ := bs_enclose 0 14 (s := 3.515625 * y) (by positivity)
  rw [hp] at a b
  have ht : (3.515625 * y) ^ 14 / ((Nat.factorial 14 : ℕ) : ℝ) ^ 2 * exp (3.515625 * y) ≤ 1e-12 := by
    have e1 : (3.515625 * y) ^ 14 ≤ 3.515625 ^ 14 := pow_le_pow_left₀ (by positivity) (by linarith) 14
    have e2 : exp (3.515625 * y) ≤ 81 := (exp_le_exp.2 (by linarith)).trans exp_small
    have e3 : ((Nat.factorial 14 : ℕ) : ℝ) = 87178291200 := by norm_num [Nat.factorial]
    rw [e3]
    calc _ ≤ (3.515625 : ℝ) ^ 14 / 87178291200 ^ 2 * 81 := by gcongr
      _ ≤ _ := by norm_num
  have c1 := cover_nonneg (l := padd [1.6e-7] (padd smallS (psc (-1) smallP))) (a := 0) (bs := [1/2, 3/4, 7/8, 15/16, 1]) (by decide +kernel) (t := y) (by simpa using h0) (by simpa using h1)
  have c2 := cover_nonneg (l := padd [1.6e-7] (padd smallP (psc (-1) smallS))) (a := 0) (bs := [1/2, 1]) (by decide +kernel) (t := y) (by simpa using h0) (by simpa using h1)
  simp only [pev_add, pev_sc] at c1 c2
  have e : pev [(1.6e-7 : ℚ)] y = 1.6e-7 := by simp only [pev]; push_cast; ring
  rw [e] at c1 c2
  push_cast at c1 c2
  rw [abs_le]
  constructor <;> norm_num at * <;> linarith

/-! ## Large arguments -/

/-- The scaled Bessel function. -/
noncomputable def bF (x : ℝ) : ℝ := √x * exp (-x) * I0 x

/-- `F + F' / 2`. -/
noncomputable def bA (x : ℝ) : ℝ := √x * exp (-x) * (I0 x + I1 x + I0 x / (2 * x)) / 2

theorem bw_deriv {x : ℝ} (hx : 0 < x) : HasDerivAt (fun x => √x * exp (-x)) (√x * exp (-x) * (1 / (2 * x) - 1)) x := by
  have h := (hasDerivAt_sqrt hx.ne').mul ((hasDerivAt_neg x).exp)
  refine h.congr_deriv ?_
  have hs : √x ≠ 0 := (sqrt_pos.2 hx).ne'
  have hq : √x ^ 2 = x := sq_sqrt hx.le
  have e : 1 / (2 * √x) = √x * (1 / (2 * x)) := by
    field_simp
    exact hq.symm
  rw [e]
  ring

theorem bF_deriv {x : ℝ} (hx : 0 < x) : HasDerivAt bF (2 * (bA x - bF x)) x := by
  have h := (bw_deriv hx).mul (I0_deriv x)
  refine h.congr_deriv ?_
  unfold bA bF
  field_simp
  ring

theorem bA_deriv {x : ℝ} (hx : 0 < x) : HasDerivAt bA (-bF x / (8 * x ^ 2)) x := by
  have h2 : HasDerivAt (fun x => I0 x / (2 * x)) ((I1 x * (2 * x) - I0 x * 2) / (2 * x) ^ 2) x := by
    refine ((I0_deriv x).div ((hasDerivAt_id x).const_mul 2) (by simpa using hx.ne')).congr_deriv ?_
    simp
  have h := ((bw_deriv hx).mul (((I0_deriv x).add (I1_deriv hx.ne')).add h2)).div_const 2
  refine h.congr_deriv ?_
  unfold bF
  simp only [Pi.add_apply]
  field_simp
  ring

/-- The coefficients in _rayleigh.c:282-286. -/
def largeP : List ℚ := [0.39894228, 0.01328592, 0.00225319, -0.00157565, 0.00916281, -0.02057706, 0.02635537, -0.01647633, 0.00392377]

/-- The integral of the polynomial, divided by eight times 3.75. -/
def largeV : List ℚ := 0 :: largeP.zipIdx.map fun c => c.1 / (c.2 + 1) / 30

/-- `p + p' / 2`. -/
def largeA : List ℚ := padd largeP (psc (-2 / 15) (pmul [0, 0, 1] (pder largeP)))

theorem largeV_der : pder largeV = psc (1 / 30) largeP ++ [0] := by decide +kernel

theorem pev_snoc (l : List ℚ) (z : ℝ) : pev (l ++ [0]) z = pev l z := by
  induction l with
  | nil => simp [pev]
  | cons a l ih => rw [List.cons_append, pev, pev, ih]

theorem inv_deriv {x : ℝ} (hx : 0 < x) : HasDerivAt (fun x : ℝ => 3.75 / x) (-3.75 / x ^ 2) x := by
  refine ((hasDerivAt_inv hx.ne').const_mul 3.75).congr_deriv ?_
  field_simp

theorem p_deriv (l : List ℚ) {x : ℝ} (hx : 0 < x) : HasDerivAt (fun x : ℝ => pev l (3.75 / x)) (pev (pder l) (3.75 / x) * (-3.75 / x ^ 2)) x :=
  (pev_der l (3.75 / x)).comp x (inv_deriv hx)

/-- The difference of the polynomial from the scaled function. -/
noncomputable def bE (x : ℝ) : ℝ := bF x - pev largeP (3.75 / x)

/-- `A` minus the part that is known. -/
noncomputable def bD (x : ℝ) : ℝ := bA x - pev largeV (3.75 / x)

/-- The difference for `A`. -/
noncomputable def bR (x : ℝ) : ℝ := bA x - pev largeA (3.75 / x)

theorem bE_deriv {x : ℝ} (hx : 0 < x) : HasDerivAt bE (2 * (bR x - bE x)) x := by
  refine ((bF_deriv hx).sub (p_deriv largeP hx)).congr_deriv ?_
  unfold bR bE largeA
  rw [pev_add, pev_sc, pev_mul]
  have e : pev [0, 0, 1] (3.75 / x) = (3.75 / x) ^ 2 := by simp only [pev]; push_cast; ring
  rw [e]
  push_cast
  field_simp
  ring

theorem bD_deriv {x : ℝ} (hx : 0 < x) : HasDerivAt bD (-bE x / (8 * x ^ 2)) x := by
  refine ((bA_deriv hx).sub (p_deriv largeV hx)).congr_deriv ?_
  unfold bE
  rw [largeV_der, pev_snoc, pev_sc]
  push_cast
  field_simp
  ring

/-- What remains is a polynomial. -/
def largeW : List ℚ := padd largeA (psc (-1) largeV)

theorem bR_eq (x : ℝ) : bR x = bD x - pev largeW (3.75 / x) := by
  unfold bR bD largeW
  rw [pev_add, pev_sc]
  push_cast
  ring

theorem largeW_one : pev largeW 1 = ((largeW.sum : ℚ) : ℝ) := by
  have : ∀ l : List ℚ, pev l 1 = ((l.sum : ℚ) : ℝ) := by
    intro l
    induction l with
    | nil => simp [pev]
    | cons a l ih => rw [pev, ih, List.sum_cons]; push_cast; ring
  exact this _

theorem W_near {t : ℝ} (h0 : 0 ≤ t) (h1 : t < 1) : |pev largeW t - pev largeW 1| ≤ 2e-7 := by
  have c1 := cover_nonneg (l := padd [2e-7 + largeW.sum] (psc (-1) largeW)) (a := 0) (bs := [1/4, 1/2, 3/4, 7/8, 1]) (by decide +kernel) (t := t) (by simpa using h0) (by simpa using h1)
  have c2 := cover_nonneg (l := padd [2e-7 - largeW.sum] largeW) (a := 0) (bs := [1/8, 1/4, 1/2, 3/4, 1]) (by decide +kernel) (t := t) (by simpa using h0) (by simpa using h1)
  rw [largeW_one]
  simp only [pev_add, pev_sc] at c1 c2
  have e : ∀ c : ℚ, pev [c] t = c := fun c => by simp [pev]
  rw [e] at c1 c2
  push_cast at c1 c2
  rw [abs_le]
  constructor <;> norm_num at c1 c2 ⊢ <;> linarith

theorem P_low {t : ℝ} (h0 : 0 ≤ t) (h1 : t < 1) : 0.395 ≤ pev largeP t := by
  have c1 := cover_nonneg (l := padd [-0.395] largeP) (a := 0) (bs := [1]) (by decide +kernel) (t := t) (by simpa using h0) (by simpa using h1)
  rw [pev_add] at c1
  have e : ∀ c : ℚ, pev [c] t = c := fun c => by simp [pev]
  rw [e] at c1
  norm_num at c1 ⊢
  linarith

/-! ## The values at 3.75 -/

theorem exp_375 : 42.521082 ≤ exp (3.75 : ℝ) ∧ exp (3.75 : ℝ) ≤ 42.5210820005 := by
  have e : exp (3.75 : ℝ) = exp (15 / 16) ^ 4 := by rw [← exp_nat_mul]; norm_num
  have l := sum_le_exp_of_nonneg (x := 15 / 16) (by norm_num) 16
  have u := exp_bound' (x := 15 / 16) (by norm_num) (by norm_num) (n := 16) (by norm_num)
  simp only [Finset.sum_range_succ, Finset.sum_range_zero, Nat.factorial] at l u
  rw [e]
  constructor
  · refine le_trans ?_ (pow_le_pow_left₀ ?_ l 4) <;> norm_num
  · refine (pow_le_pow_left₀ (exp_pos _).le u 4).trans ?_
    norm_num

theorem sqrt_375 : 1.936491673103 ≤ √(3.75 : ℝ) ∧ √(3.75 : ℝ) ≤ 1.936491673104 := by
  constructor
  · exact le_sqrt_of_sq_le (by norm_num)
  · rw [sqrt_le_left (by norm_num)]
    norm_num

theorem w_375 : 0.0455419190 ≤ √(3.75 : ℝ) * exp (-3.75) ∧ √(3.75 : ℝ) * exp (-3.75) ≤ 0.0455419192 := by
  obtain ⟨a, b⟩ := exp_375
  obtain ⟨c, d⟩ := sqrt_375
  rw [exp_neg, ← div_eq_mul_inv, le_div_iff₀ (exp_pos _), div_le_iff₀ (exp_pos _)]
  constructor
  · nlinarith
  · nlinarith

theorem ser_375 : (9.1189458608 ≤ ser (bc 0) 3.515625 ∧ ser (bc 0) 3.515625 ≤ 9.1189458609) ∧ 4.1493414559 ≤ ser (bc 1) 3.515625 ∧ ser (bc 1) 3.515625 ≤ 4.149341456 := by
  have ht : (3.515625 : ℝ) ^ 14 / ((Nat.factorial 14 : ℕ) : ℝ) ^ 2 * exp 3.515625 ≤ 1e-12 := by
    have e2 := exp_small
    have e3 : ((Nat.factorial 14 : ℕ) : ℝ) = 87178291200 := by norm_num [Nat.factorial]
    rw [e3]
    calc _ ≤ (3.515625 : ℝ) ^ 14 / 87178291200 ^ 2 * 81 := by gcongr
      _ ≤ _ := by norm_num
  obtain ⟨a, b⟩ := bs_enclose 0 14 (s := 3.515625) (by norm_num)
  obtain ⟨c, d⟩ := bs_enclose 1 14 (s := 3.515625) (by norm_num)
  have e0 : 9.1189458608 ≤ part 0 14 3.515625 ∧ part 0 14 3.515625 ≤ 9.11894586085 := by
    simp only [part, Finset.sum_range_succ, Finset.sum_range_zero, bc, Nat.factorial]
    norm_num
  have e1 : 4.1493414559 ≤ part 1 14 3.515625 ∧ part 1 14 3.515625 ≤ 4.14934145595 := by
    simp only [part, Finset.sum_range_succ, Finset.sum_range_zero, bc, Nat.factorial]
    norm_num
  refine ⟨⟨e0.1.trans a, ?_⟩, e1.1.trans c, ?_⟩
  · have := b.trans (add_le_add e0.2 ht)
    norm_num at this ⊢
    linarith
  · have := d.trans (add_le_add e1.2 ht)
    norm_num at this ⊢
    linarith

theorem start : |bE 3.75| ≤ 2e-8 ∧ |bR 3.75| ≤ 1.35e-7 := by
  obtain ⟨a, b⟩ := w_375
  obtain ⟨⟨c, d⟩, e, f⟩ := ser_375
  have hI0 : I0 3.75 = ser (bc 0) 3.515625 := by rw [I0_eq]; norm_num
  have hI1 : I1 3.75 = ser (bc 1) 3.515625 * 1.875 := by unfold I1; norm_num
  have hP : pev largeP (3.75 / 3.75) = 0.4152943 := by
    rw [div_self (by norm_num)]
    simp only [largeP, pev]
    norm_num
  have hA : pev largeA (3.75 / 3.75) = 309368789 / 750000000 := by
    rw [div_self (by norm_num)]
    unfold largeA
    rw [pev_add, pev_sc, pev_mul]
    simp only [largeP, pev, pder, padd]
    norm_num
  set w := √(3.75 : ℝ) * exp (-3.75) with hw
  set g := ser (bc 0) 3.515625 with hg
  set g1 := ser (bc 1) 3.515625 with hg1
  have hw0 : 0 < w := by norm_num at a; linarith
  have hE : bE 3.75 = w * g - 0.4152943 := by unfold bE bF; rw [hI0, hP]
  have hR : bR 3.75 = w * (g + g1 * 1.875 + g / 7.5) / 2 - (309368789 / 750000000) := by
    unfold bR bA
    rw [hI0, hI1, hA, ← hw, show (2 * 3.75 : ℝ) = 7.5 by norm_num]
  rw [hE, hR, abs_le, abs_le]
  have k1 : 0.0455419190 * 9.1189458608 ≤ w * g := mul_le_mul a c (by norm_num) hw0.le
  have k2 : w * g ≤ 0.0455419192 * 9.1189458609 := mul_le_mul b d (by norm_num at c; linarith) (by norm_num)
  have m1 : 9.1189458608 + 4.1493414559 * 1.875 + 9.1189458608 / 7.5 ≤ g + g1 * 1.875 + g / 7.5 := by gcongr
  have m2 : g + g1 * 1.875 + g / 7.5 ≤ 9.1189458609 + 4.149341456 * 1.875 + 9.1189458609 / 7.5 := by gcongr
  have k3 := mul_le_mul a m1 (by norm_num) hw0.le
  have k4 := mul_le_mul b m2 (le_trans (by norm_num) m1) (by norm_num)
  norm_num at k1 k2 k3 k4 ⊢
  refine ⟨⟨?_, ?_⟩, ?_, ?_⟩ <;> linarith

/-! ## From there on -/

theorem stays {X C : ℝ} (hR : ∀ x ∈ Set.Icc 3.75 X, |bR x| ≤ C) (h0 : |bE 3.75| ≤ C) {x : ℝ} (hx : x ∈ Set.Icc 3.75 X) : |bE x| ≤ C := by
  have hpos : ∀ y ∈ Set.Icc (3.75 : ℝ) X, 0 < y := fun y hy => lt_of_lt_of_le (by norm_num) hy.1
  have key : ∀ σ : ℝ, |σ| = 1 → 0 ≤ C - σ * bE x := by
    intro σ hσ
    have hd : ∀ y ∈ Set.Icc (3.75 : ℝ) X, HasDerivAt (fun y => (C - σ * bE y) * exp (2 * y)) (2 * (C - σ * bR y) * exp (2 * y)) y := by
      intro y hy
      have h := (((bE_deriv (hpos y hy)).const_mul σ).const_sub C).mul (((hasDerivAt_id y).const_mul 2).exp)
      refine h.congr_deriv ?_
      simp only [id]
      ring
    have hm : MonotoneOn (fun y => (C - σ * bE y) * exp (2 * y)) (Set.Icc (3.75 : ℝ) X) := by
      refine monotoneOn_of_hasDerivWithinAt_nonneg (convex_Icc _ _) (fun y hy => (hd y hy).continuousAt.continuousWithinAt) (fun y hy => (hd y (interior_subset hy)).hasDerivWithinAt) ?_
      intro y hy
      have h1 := hR y (interior_subset hy)
      have h2 : σ * bR y ≤ C := (le_abs_self _).trans (by rw [abs_mul, hσ, one_mul]; exact h1)
      have := exp_pos (2 * y)
      have h3 : 0 ≤ C - σ * bR y := by linarith
      positivity
    have h1 := hm (Set.left_mem_Icc.2 (hx.1.trans hx.2)) hx hx.1
    have h2 : σ * bE 3.75 ≤ C := (le_abs_self _).trans (by rw [abs_mul, hσ, one_mul]; exact h0)
    have h3 : 0 ≤ (C - σ * bE 3.75) * exp (2 * 3.75) := mul_nonneg (by linarith) (exp_pos _).le
    exact nonneg_of_mul_nonneg_left (h3.trans h1) (exp_pos _)
  have k1 := key 1 (by norm_num)
  have k2 := key (-1) (by norm_num)
  rw [abs_le]
  constructor <;> linarith

theorem drift {X M : ℝ} (hE : ∀ x ∈ Set.Icc 3.75 X, |bE x| ≤ M) {x : ℝ} (hx : x ∈ Set.Icc 3.75 X) : |bD x - bD 3.75| ≤ M / 30 := by
  have hpos : ∀ y ∈ Set.Icc (3.75 : ℝ) X, 0 < y := fun y hy => lt_of_lt_of_le (by norm_num) hy.1
  have hM : 0 ≤ M := (abs_nonneg _).trans (hE x hx)
  have key : ∀ σ : ℝ, |σ| = 1 → σ * (bD x - bD 3.75) ≤ M / 30 := by
    intro σ hσ
    have hd : ∀ y ∈ Set.Icc (3.75 : ℝ) X, HasDerivAt (fun y => σ * bD y + M / 8 * y⁻¹) (-(σ * bE y + M) / (8 * y ^ 2)) y := by
      intro y hy
      have h0 := hpos y hy
      have h := ((bD_deriv h0).const_mul σ).add ((hasDerivAt_inv h0.ne').const_mul (M / 8))
      refine h.congr_deriv ?_
      field_simp
      ring
    have hm : AntitoneOn (fun y => σ * bD y + M / 8 * y⁻¹) (Set.Icc (3.75 : ℝ) X) := by
      refine antitoneOn_of_hasDerivWithinAt_nonpos (convex_Icc _ _) (fun y hy => (hd y hy).continuousAt.continuousWithinAt) (fun y hy => (hd y (interior_subset hy)).hasDerivWithinAt) ?_
      intro y hy
      have h1 := hE y (interior_subset hy)
      have h2 : -(σ * bE y) ≤ M := (neg_le_abs _).trans (by rw [abs_mul, hσ, one_mul]; exact h1)
      have h3 := hpos y (interior_subset hy)
      exact div_nonpos_of_nonpos_of_nonneg (by linarith) (by positivity)
    have h1 := hm (Set.left_mem_Icc.2 (hx.1.trans hx.2)) hx hx.1
    simp only at h1
    have h2 : 0 ≤ M / 8 * x⁻¹ := mul_nonneg (by linarith) (inv_nonneg.2 (hpos x hx).le)
    have h3 : M / 8 * (3.75 : ℝ)⁻¹ = M / 30 := by norm_num; ring
    rw [h3] at h1
    linarith
  have k1 := key 1 (by norm_num)
  have k2 := key (-1) (by norm_num)
  rw [abs_le]
  constructor <;> linarith

theorem large_diff {x : ℝ} (hx : 3.75 ≤ x) : |bE x| ≤ 3.5e-7 := by
  have hpos : ∀ y ∈ Set.Icc (3.75 : ℝ) x, 0 < y := fun y hy => lt_of_lt_of_le (by norm_num) hy.1
  obtain ⟨s1, s2⟩ := start
  obtain ⟨m, hm, hmax⟩ := isCompact_Icc.exists_isMaxOn (Set.nonempty_Icc.2 hx) (f := fun y => |bE y|) (fun y hy => ((bE_deriv (hpos y hy)).continuousAt.abs).continuousWithinAt)
  set M := |bE m| with hM
  have hE : ∀ y ∈ Set.Icc (3.75 : ℝ) x, |bE y| ≤ M := fun y hy => hmax hy
  have hM0 : 0 ≤ M := abs_nonneg _
  have hR : ∀ y ∈ Set.Icc (3.75 : ℝ) x, |bR y| ≤ 3.35e-7 + M / 30 := by
    intro y hy
    have h0 := hpos y hy
    have h1 := drift hE hy
    have h2 : |pev largeW (3.75 / y) - pev largeW 1| ≤ 2e-7 := by
      rcases hy.1.eq_or_lt with h | h
      · rw [← h, div_self (by norm_num), sub_self, abs_zero]; norm_num
      · exact W_near (by positivity) (by rw [div_lt_one h0]; exact h)
    have e : bR y = bR 3.75 + (bD y - bD 3.75) - (pev largeW (3.75 / y) - pev largeW 1) := by
      rw [bR_eq y, bR_eq 3.75, div_self (by norm_num)]
      ring
    rw [e]
    have t1 := abs_sub (bR 3.75 + (bD y - bD 3.75)) (pev largeW (3.75 / y) - pev largeW 1)
    have t2 := abs_add_le (bR 3.75) (bD y - bD 3.75)
    norm_num at s2 h2 ⊢
    linarith
  have h := stays hR (by norm_num at s1 ⊢; linarith) hm
  have h' := hE x (Set.right_mem_Icc.2 hx)
  norm_num at h ⊢
  linarith

/-! ## The logarithm -/

theorem log_near {a b c : ℝ} (hc : 0 < c) (ha : c ≤ a) (hb : c ≤ b) : |log a - log b| ≤ |a - b| / c := by
  have key : ∀ a b : ℝ, c ≤ a → c ≤ b → log a - log b ≤ |a - b| / c := by
    intro a b ha hb
    have hb0 : 0 < b := hc.trans_le hb
    rw [← log_div (hc.trans_le ha).ne' hb0.ne']
    have h1 := log_le_sub_one_of_pos (div_pos (hc.trans_le ha) hb0)
    have h2 : a / b - 1 = (a - b) / b := by field_simp
    have h3 : (a - b) / b ≤ |a - b| / c := (div_le_div_of_nonneg_right (le_abs_self _) hb0.le).trans (div_le_div_of_nonneg_left (abs_nonneg _) hc hb)
    linarith
  rw [abs_le]
  have h1 := key a b ha hb
  have h2 := key b a hb ha
  rw [abs_sub_comm] at h2
  constructor <;> linarith

theorem lbessi0_small {x : ℝ} (hx : |x| < 3.75) : |lbessi0 x - log (I0 x)| ≤ 1.7e-7 := by
  have hy0 : 0 ≤ x / 3.75 * (x / 3.75) := mul_self_nonneg _
  have hy1 : x / 3.75 * (x / 3.75) < 1 := by
    have h := abs_lt.1 hx
    have : x ^ 2 < 3.75 ^ 2 := sq_lt_sq' h.1 h.2
    norm_num at this ⊢
    linarith
  unfold lbessi0
  simp only [if_pos hx]
  have e : (1.0 : ℝ) + x / 3.75 * (x / 3.75) * (3.5156229 + x / 3.75 * (x / 3.75) * (3.0899424 + x / 3.75 * (x / 3.75) * (1.2067492 + x / 3.75 * (x / 3.75) * (0.2659732 + x / 3.75 * (x / 3.75) * (0.360768e-1 + x / 3.75 * (x / 3.75) * 0.45813e-2))))) = pev smallP (x / 3.75 * (x / 3.75)) := by
    simp only [smallP, pev]
    norm_num
  rw [e]
  have e2 : I0 x = ser (bc 0) (3.515625 * (x / 3.75 * (x / 3.75))) := by
    rw [I0_eq]
    congr 1
    ring
  have h1 : (1 : ℝ) ≤ pev smallP (x / 3.75 * (x / 3.75)) := by
    have := pev_nonneg smallP.tail (by decide +kernel) hy0
    simp only [smallP, List.tail_cons] at this
    rw [smallP, pev]
    have h2 := mul_nonneg hy0 this
    push_cast
    linarith
  refine (log_near one_pos h1 (I0_ge_one x)).trans ?_
  rw [div_one, e2]
  exact small_diff hy0 hy1

theorem lbessi0_large {x : ℝ} (hx : 3.75 ≤ |x|) : |lbessi0 x - log (I0 x)| ≤ 9e-7 := by
  set a := |x| with ha
  have h0 : 0 < a := lt_of_lt_of_le (by norm_num) hx
  have hIa : I0 x = I0 a := by rw [I0_eq, I0_eq, ha, sq_abs]
  have hs : 0 < √a := sqrt_pos.2 h0
  unfold lbessi0
  simp only [← ha, if_neg (not_lt.2 hx)]
  have e : (0.39894228 : ℝ) + 3.75 / a * (0.1328592e-1 + 3.75 / a * (0.225319e-2 + 3.75 / a * (-0.157565e-2 + 3.75 / a * (0.916281e-2 + 3.75 / a * (-0.2057706e-1 + 3.75 / a * (0.2635537e-1 + 3.75 / a * (-0.1647633e-1 + 3.75 / a * 0.392377e-2))))))) = pev largeP (3.75 / a) := by
    simp only [largeP, pev]
    norm_num
  rw [e]
  have hP : 0.395 ≤ pev largeP (3.75 / a) := by
    rcases hx.eq_or_lt with h | h
    · rw [← h, div_self (by norm_num)]
      simp only [largeP, pev]
      norm_num
    · exact P_low (by positivity) (by rw [div_lt_one h0]; exact h)
  have hd := large_diff hx
  have hF : 0.39 ≤ bF a := by
    have := (abs_le.1 hd).1
    unfold bE at this
    norm_num at this hP ⊢
    linarith
  have hlog : log (bF a) = log (√a) - a + log (I0 x) := by
    unfold bF
    rw [log_mul (by positivity) (by linarith [I0_ge_one a]), log_mul hs.ne' (exp_pos _).ne', log_exp, hIa]
    ring
  have h1 : a + log (pev largeP (3.75 / a) / √a) - log (I0 x) = log (pev largeP (3.75 / a)) - log (bF a) := by
    rw [hlog, log_div (by norm_num at hP; linarith) hs.ne']
    ring
  rw [h1]
  refine (log_near (c := 0.39) (by norm_num) (by norm_num at hP ⊢; linarith) hF).trans ?_
  rw [abs_sub_comm, div_le_iff₀ (by norm_num)]
  change |bE a| ≤ _
  norm_num at hd ⊢
  linarith

end Verif.Point
