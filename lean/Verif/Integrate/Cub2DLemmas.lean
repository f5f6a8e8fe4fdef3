import Verif.Integrate.Cub2D
import Mathlib.Analysis.SpecialFunctions.Integrals.Basic
import Mathlib.Analysis.SpecialFunctions.Gaussian.GaussianIntegral
import Mathlib.MeasureTheory.Integral.Gamma
import Mathlib.Analysis.Real.Pi.Bounds

/-!
# Lemmas about cubature rules
-/

set_option linter.unusedSectionVars false
set_option linter.unusedSimpArgs false

namespace Verif.Cub

open Finset

/-- The polynomial of degree `d` with coefficients `c`: the sum of `c i j x^i y^j` over `i + j ≤ d`. -/
def poly (d : ℕ) (c : ℕ → ℕ → ℝ) (x y : ℝ) : ℝ := ∑ i ∈ range (d + 1), ∑ j ∈ range (d + 1 - i), c i j * x ^ i * y ^ j

/-- A rule: weights and nodes. -/
def app (l : List (ℝ × ℝ × ℝ)) (f : ℝ → ℝ → ℝ) : ℝ := (l.map fun n => n.1 * f n.2.1 n.2.2).sum

theorem app_add (l : List (ℝ × ℝ × ℝ)) (f g : ℝ → ℝ → ℝ) : app l (fun u v => f u v + g u v) = app l f + app l g := by
  unfold app
  induction l with
  | nil => simp
  | cons n l ih => simp only [List.map_cons, List.sum_cons] at ih ⊢; rw [ih]; ring

theorem app_mul (l : List (ℝ × ℝ × ℝ)) (a : ℝ) (f : ℝ → ℝ → ℝ) : app l (fun u v => a * f u v) = a * app l f := by
  unfold app
  induction l with
  | nil => simp
  | cons n l ih => simp only [List.map_cons, List.sum_cons] at ih ⊢; rw [ih]; ring

theorem app_sum {ι : Type} (l : List (ℝ × ℝ × ℝ)) (s : Finset ι) (f : ι → ℝ → ℝ → ℝ) : app l (fun u v => ∑ i ∈ s, f i u v) = ∑ i ∈ s, app l (f i) := by
  classical
  induction s using Finset.induction_on with
  | empty =>
    simp only [sum_empty]
    unfold app
    induction l with
    | nil => simp
    | cons n l ih => simp
  | insert a s ha ih =>
    rw [sum_insert ha, ← ih, ← app_add]
    congr 1
    funext u v
    rw [sum_insert ha]

/-- The moments of `a + s u` when those of `u` are `m`. -/
def shift (m : ℕ → ℝ) (a s : ℝ) (i : ℕ) : ℝ := ∑ k ∈ range (i + 1), s ^ k * a ^ (i - k) * (i.choose k : ℝ) * m k

theorem mono_app (l : List (ℝ × ℝ × ℝ)) (a s b t : ℝ) (i j : ℕ) :
    app l (fun u v => (s * u + a) ^ i * (t * v + b) ^ j) =
      ∑ k ∈ range (i + 1), ∑ q ∈ range (j + 1), (s ^ k * a ^ (i - k) * (i.choose k : ℝ)) * (t ^ q * b ^ (j - q) * (j.choose q : ℝ)) * app l (fun u v => u ^ k * v ^ q) := by
  have : (fun u v : ℝ => (s * u + a) ^ i * (t * v + b) ^ j) =
      fun u v => ∑ k ∈ range (i + 1), ∑ q ∈ range (j + 1), (s ^ k * a ^ (i - k) * (i.choose k : ℝ)) * (t ^ q * b ^ (j - q) * (j.choose q : ℝ)) * (u ^ k * v ^ q) := by
    funext u v
    rw [add_pow, add_pow, sum_mul_sum]
    refine sum_congr rfl fun k _ => sum_congr rfl fun q _ => ?_
    rw [mul_pow, mul_pow]; ring
  rw [this, app_sum]
  refine sum_congr rfl fun k _ => ?_
  rw [app_sum]
  exact sum_congr rfl fun q _ => app_mul _ _ _

/-- The error of a rule for a polynomial of an affine image of its variables. -/
theorem affine_err (l : List (ℝ × ℝ × ℝ)) (m : ℕ → ℝ) (d : ℕ) (ε : ℝ) (h : ∀ i j, i + j ≤ d → |app l (fun u v => u ^ i * v ^ j) - m i * m j| ≤ ε)
    (c : ℕ → ℕ → ℝ) (a s b t : ℝ) :
    |app l (fun u v => poly d c (s * u + a) (t * v + b)) - ∑ i ∈ range (d + 1), ∑ j ∈ range (d + 1 - i), c i j * (shift m a s i * shift m b t j)| ≤
      ε * poly d (fun i j => |c i j|) (|s| + |a|) (|t| + |b|) := by
  have h1 : app l (fun u v => poly d c (s * u + a) (t * v + b)) =
      ∑ i ∈ range (d + 1), ∑ j ∈ range (d + 1 - i), c i j * app l (fun u v => (s * u + a) ^ i * (t * v + b) ^ j) := by
    unfold poly
    rw [app_sum]
    refine sum_congr rfl fun i _ => ?_
    rw [app_sum]
    refine sum_congr rfl fun j _ => ?_
    rw [← app_mul]
    congr 1
    funext u v
    ring
  rw [h1, ← sum_sub_distrib]
  have h2 : ∀ i ∈ range (d + 1), ∀ j ∈ range (d + 1 - i),
      |app l (fun u v => (s * u + a) ^ i * (t * v + b) ^ j) - shift m a s i * shift m b t j| ≤ ε * ((|s| + |a|) ^ i * (|t| + |b|) ^ j) := by
    intro i hi j hj
    rw [mem_range] at hi hj
    rw [mono_app]
    have e1 : shift m a s i * shift m b t j = ∑ k ∈ range (i + 1), ∑ q ∈ range (j + 1),
        (s ^ k * a ^ (i - k) * (i.choose k : ℝ)) * (t ^ q * b ^ (j - q) * (j.choose q : ℝ)) * (m k * m q) := by
      unfold shift
      rw [sum_mul_sum]
      refine sum_congr rfl fun k _ => sum_congr rfl fun q _ => ?_
      ring
    have e2 : ε * ((|s| + |a|) ^ i * (|t| + |b|) ^ j) = ∑ k ∈ range (i + 1), ∑ q ∈ range (j + 1),
        |(s ^ k * a ^ (i - k) * (i.choose k : ℝ)) * (t ^ q * b ^ (j - q) * (j.choose q : ℝ))| * ε := by
      rw [add_pow, add_pow, sum_mul_sum, mul_sum]
      refine sum_congr rfl fun k _ => ?_
      rw [mul_sum]
      refine sum_congr rfl fun q _ => ?_
      simp only [abs_mul, abs_pow, Nat.abs_cast]
      ring
    rw [e1, e2, ← sum_sub_distrib]
    refine (abs_sum_le_sum_abs _ _).trans (sum_le_sum fun k hk => ?_)
    rw [← sum_sub_distrib]
    refine (abs_sum_le_sum_abs _ _).trans (sum_le_sum fun q hq => ?_)
    rw [mem_range] at hk hq
    rw [← mul_sub, abs_mul]
    exact mul_le_mul_of_nonneg_left (h k q (by omega)) (abs_nonneg _)
  refine (abs_sum_le_sum_abs _ _).trans ?_
  unfold poly
  rw [mul_sum]
  refine sum_le_sum fun i hi => ?_
  rw [← sum_sub_distrib, mul_sum]
  refine (abs_sum_le_sum_abs _ _).trans (sum_le_sum fun j hj => ?_)
  rw [← mul_sub, abs_mul]
  calc |c i j| * _ ≤ |c i j| * (ε * ((|s| + |a|) ^ i * (|t| + |b|) ^ j)) := mul_le_mul_of_nonneg_left (h2 i hi j hj) (abs_nonneg _)
    _ = _ := by ring

/-! ## The square -/

/-- Moments of the interval from -1 to 1. -/
noncomputable def m1 (k : ℕ) : ℝ := ∫ u in (-1 : ℝ)..1, u ^ k

theorem m1_val (k : ℕ) : m1 k = (1 - (-1) ^ (k + 1)) / (k + 1) := by
  unfold m1; rw [integral_pow]; simp

theorem int_pow (xl xu : ℝ) (i : ℕ) : ∫ x in xl..xu, x ^ i = 1 / 2 * (xu - xl) * shift m1 (1 / 2 * (xu + xl)) (1 / 2 * (xu - xl)) i := by
  set h := 1 / 2 * (xu - xl) with hh
  set m := 1 / 2 * (xu + xl) with hm
  have := intervalIntegral.smul_integral_comp_mul_add (a := -1) (b := 1) (fun x => x ^ i) h m
  rw [show h * -1 + m = xl by rw [hh, hm]; ring, show h * 1 + m = xu by rw [hh, hm]; ring] at this
  rw [← this, smul_eq_mul]
  congr 1
  unfold shift m1
  simp only [add_pow]
  rw [intervalIntegral.integral_finset_sum]
  · refine sum_congr rfl fun k _ => ?_
    rw [← intervalIntegral.integral_const_mul]
    congr 1
    funext u
    rw [mul_pow]; ring
  · intro k _
    apply Continuous.intervalIntegrable
    fun_prop

theorem int_poly (d : ℕ) (c : ℕ → ℕ → ℝ) (xl xu yl yu : ℝ) :
    ∫ x in xl..xu, ∫ y in yl..yu, poly d c x y =
      1 / 2 * (xu - xl) * (1 / 2 * (yu - yl)) * ∑ i ∈ range (d + 1), ∑ j ∈ range (d + 1 - i),
        c i j * (shift m1 (1 / 2 * (xu + xl)) (1 / 2 * (xu - xl)) i * shift m1 (1 / 2 * (yu + yl)) (1 / 2 * (yu - yl)) j) := by
  have h1 : ∀ x, ∫ y in yl..yu, poly d c x y = ∑ i ∈ range (d + 1), ∑ j ∈ range (d + 1 - i), c i j * (∫ y in yl..yu, y ^ j) * x ^ i := by
    intro x
    unfold poly
    rw [intervalIntegral.integral_finset_sum]
    · refine sum_congr rfl fun i _ => ?_
      rw [intervalIntegral.integral_finset_sum]
      · refine sum_congr rfl fun j _ => ?_
        rw [intervalIntegral.integral_const_mul]; ring
      · intro j _
        apply Continuous.intervalIntegrable
        fun_prop
    · intro i _
      apply Continuous.intervalIntegrable
      fun_prop
  simp only [h1]
  rw [intervalIntegral.integral_finset_sum, mul_sum]
  · refine sum_congr rfl fun i _ => ?_
    rw [intervalIntegral.integral_finset_sum, mul_sum]
    · refine sum_congr rfl fun j _ => ?_
      rw [intervalIntegral.integral_const_mul, int_pow, int_pow]; ring
    · intro j _
      apply Continuous.intervalIntegrable
      fun_prop
  · intro i _
    apply Continuous.intervalIntegrable
    fun_prop

/-- The error of a rule on a rectangle. -/
theorem rect_err (l : List (ℝ × ℝ × ℝ)) (d : ℕ) (ε : ℝ) (h : ∀ i j, i + j ≤ d → |app l (fun u v => u ^ i * v ^ j) - m1 i * m1 j| ≤ ε) (c : ℕ → ℕ → ℝ) (xl xu yl yu : ℝ) :
    |1 / 2 * (xu - xl) * (1 / 2 * (yu - yl)) * app l (fun u v => poly d c (1 / 2 * (xu - xl) * u + 1 / 2 * (xu + xl)) (1 / 2 * (yu - yl) * v + 1 / 2 * (yu + yl))) -
        ∫ x in xl..xu, ∫ y in yl..yu, poly d c x y| ≤
      ε * (|1 / 2 * (xu - xl)| * |1 / 2 * (yu - yl)|) *
        poly d (fun i j => |c i j|) (|1 / 2 * (xu - xl)| + |1 / 2 * (xu + xl)|) (|1 / 2 * (yu - yl)| + |1 / 2 * (yu + yl)|) := by
  rw [int_poly, ← mul_sub, abs_mul, abs_mul]
  calc _ ≤ |1 / 2 * (xu - xl)| * |1 / 2 * (yu - yl)| * (ε * poly d (fun i j => |c i j|) (|1 / 2 * (xu - xl)| + |1 / 2 * (xu + xl)|) (|1 / 2 * (yu - yl)| + |1 / 2 * (yu + yl)|)) :=
        mul_le_mul_of_nonneg_left (affine_err l m1 d ε h c _ _ _ _) (by positivity)
    _ = _ := by ring

end Verif.Cub
