import Verif.Grid.RefineLemmas
import Verif.Grid.IntervalProps
import Mathlib.Analysis.SpecialFunctions.Integrals.Basic
import Mathlib.MeasureTheory.Integral.IntervalIntegral.Basic

/-!
# Piecewise-linear interpolants and their integrals (specification for C31, C32, C34, C74)
-/

set_option linter.unusedSectionVars false
set_option linter.unusedSimpArgs false

namespace Verif.Grid1

open MeasureTheory intervalIntegral

/-- `p` interpolates the values `vs` at the abscissas `xs` linearly: between neighbours `a`, `b` with values `u`, `v` it is the straight line through
`(a, u)` and `(b, v)`. -/
def Interp : List ℝ → List ℝ → (ℝ → ℝ) → Prop
  | a :: b :: xs, u :: v :: vs, p => (∀ x, a ≤ x → x ≤ b → p x = u + (x - a) / (b - a) * (v - u)) ∧ Interp (b :: xs) (v :: vs) p
  | [a], [u], p => p a = u
  | _, _, _ => False

theorem cell_integral {a b : ℝ} (hab : a < b) (u v : ℝ) : ∫ x in a..b, (u + (x - a) / (b - a) * (v - u)) = 1 / 2 * (b - a) * (u + v) := by
  have h : b - a ≠ 0 := by linarith
  have e : (fun x : ℝ => u + (x - a) / (b - a) * (v - u)) = fun x => (u - a * ((v - u) / (b - a))) + ((v - u) / (b - a)) * x := by
    funext x; field_simp; ring
  rw [e, integral_add (by simp) (Continuous.intervalIntegrable (by fun_prop) _ _), intervalIntegral.integral_const, intervalIntegral.integral_const_mul, integral_id]
  simp only [smul_eq_mul]
  field_simp
  ring

/-- The integral of the interpolant is the trapezoid rule. -/
theorem interp_integral {p : ℝ → ℝ} : ∀ {xs vs : List ℝ} {a b : ℝ}, xs.head? = some a → xs.getLast? = some b → xs.Pairwise (· < ·) → Interp xs vs p →
    a ≤ b ∧ IntervalIntegrable p volume a b ∧ ∫ x in a..b, p x = trapSum (diffs xs) vs
  | [], _, _, _, h, _, _, _ => by simp at h
  | [x], vs, a, b, h1, h2, _, _ => by
    simp only [List.head?_cons, Option.some.injEq, List.getLast?_singleton] at h1 h2
    subst h1 h2
    refine ⟨le_refl _, by simp, ?_⟩
    cases vs <;> simp [diffs, trapSum]
  | x :: y :: xs, [], _, _, _, _, _, h => by simp [Interp] at h
  | x :: y :: xs, [u], _, _, _, _, _, h => by simp [Interp] at h
  | x :: y :: xs, u :: v :: vs, a, b, h1, h2, hp, h => by
    simp only [List.head?_cons, Option.some.injEq] at h1
    subst h1
    obtain ⟨h3, h4⟩ := h
    have hxy : x < y := (List.pairwise_cons.mp hp).1 y (by simp)
    have hlast : (y :: xs).getLast? = some b := by rw [← h2]; simp
    obtain ⟨i1, i2, i3⟩ := interp_integral (xs := y :: xs) (vs := v :: vs) (a := y) rfl hlast (List.pairwise_cons.mp hp).2 h4
    have heq : Set.EqOn p (fun z => u + (z - x) / (y - x) * (v - u)) (Set.uIcc x y) := by
      intro z hz
      rw [Set.uIcc_of_le (le_of_lt hxy)] at hz
      exact h3 z hz.1 hz.2
    have hint : IntervalIntegrable (fun z => u + (z - x) / (y - x) * (v - u)) volume x y := by
      apply Continuous.intervalIntegrable
      fun_prop
    have hint' : IntervalIntegrable p volume x y := hint.congr (fun z hz => (heq (Set.uIoc_subset_uIcc hz)).symm)
    refine ⟨by linarith, hint'.trans i2, ?_⟩
    rw [← integral_add_adjacent_intervals hint' i2, i3, integral_congr heq, cell_integral hxy]
    simp [diffs, trapSum]

theorem Interp.first {xs vs : List ℝ} {b u : ℝ} {p : ℝ → ℝ} (hp : (b :: xs).Pairwise (· < ·)) (h : Interp (b :: xs) (u :: vs) p) : p b = u := by
  cases xs with
  | nil => cases vs with
    | nil => exact h
    | cons _ _ => simp [Interp] at h
  | cons c xs => cases vs with
    | nil => simp [Interp] at h
    | cons v vs =>
      have hbc : b < c := (List.pairwise_cons.mp hp).1 c (by simp)
      have := h.1 b (le_refl _) (le_of_lt hbc); simpa using this

theorem Interp.congr {p q : ℝ → ℝ} : ∀ {xs vs : List ℝ} {a : ℝ}, xs.head? = some a → xs.Pairwise (· < ·) → (∀ x, a ≤ x → p x = q x) → Interp xs vs p → Interp xs vs q
  | [], _, _, h, _, _, _ => by simp at h
  | [x], vs, a, h1, _, h2, h3 => by
    simp only [List.head?_cons, Option.some.injEq] at h1
    subst h1
    cases vs with
    | nil => exact h3
    | cons v vs => cases vs with
      | nil => exact (h2 _ (le_refl _)).symm.trans h3
      | cons _ _ => exact h3
  | x :: y :: xs, [], _, _, _, _, h => by simp [Interp] at h
  | x :: y :: xs, [u], _, _, _, _, h => by simp [Interp] at h
  | x :: y :: xs, u :: v :: vs, a, h1, hp, h2, h3 => by
    simp only [List.head?_cons, Option.some.injEq] at h1
    subst h1
    have hxy : x < y := (List.pairwise_cons.mp hp).1 y (by simp)
    exact ⟨fun z hz1 hz2 => by rw [← h2 z hz1]; exact h3.1 z hz1 hz2, Interp.congr rfl (List.pairwise_cons.mp hp).2 (fun z hz => h2 z (by linarith)) h3.2⟩

/-- Interpolants exist for strictly increasing abscissas and as many values. -/
theorem interp_exists : ∀ (xs vs : List ℝ), xs ≠ [] → xs.length = vs.length → xs.Pairwise (· < ·) → ∃ p, Interp xs vs p
  | [], _, h, _, _ => absurd rfl h
  | [x], vs, _, h, _ => by
    obtain ⟨u, rfl⟩ := List.length_eq_one_iff.mp h.symm
    exact ⟨fun _ => u, rfl⟩
  | x :: y :: xs, [], _, h, _ => by simp at h
  | x :: y :: xs, [u], _, h, _ => by simp at h
  | x :: y :: xs, u :: v :: vs, _, h, hp => by
    have hp' := (List.pairwise_cons.mp hp).2
    have hxy : x < y := (List.pairwise_cons.mp hp).1 y (by simp)
    obtain ⟨q, hq⟩ := interp_exists (y :: xs) (v :: vs) (by simp) (by simpa using h) hp'
    refine ⟨fun z => if z ≤ y then u + (z - x) / (y - x) * (v - u) else q z, fun z _ hz => if_pos hz, ?_⟩
    refine Interp.congr (p := q) (a := y) rfl hp' ?_ hq
    intro z hz
    rcases lt_or_eq_of_le hz with hz | rfl
    · exact (if_neg (by linarith)).symm
    · rw [hq.first hp']
      beta_reduce
      rw [if_pos (le_refl _), div_self (by linarith)]
      ring

/-- A straight line interpolates its own values. -/
theorem interp_line (α β : ℝ) : ∀ xs : List ℝ, xs ≠ [] → xs.Pairwise (· < ·) → Interp xs (xs.map fun x => α + β * x) fun x => α + β * x
  | [], h, _ => absurd rfl h
  | [_], _, _ => rfl
  | x :: y :: xs, _, hp => by
    have hxy : x < y := (List.pairwise_cons.mp hp).1 y (by simp)
    refine ⟨fun z _ _ => ?_, interp_line α β (y :: xs) (by simp) (List.pairwise_cons.mp hp).2⟩
    have : y - x ≠ 0 := by linarith
    field_simp
    ring

end Verif.Grid1
