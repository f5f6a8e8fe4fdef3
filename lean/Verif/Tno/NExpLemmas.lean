import Verif.Tno.EtaProps
import Mathlib.MeasureTheory.Function.JacobianOneDim
import Mathlib.Analysis.SpecialFunctions.Integrals.Basic

/-!
# Lemmas for C163: substitution in the integral and additivity over the pieces
-/

set_option linter.unusedSectionVars false

noncomputable section

namespace Verif.Tno

open Set MeasureTheory

theorem exp_subst_le (g : ℝ → ℝ) {a b : ℝ} (h : a ≤ b) :
    ∫ y in Real.exp a..Real.exp b, g (Real.log y) / y = ∫ x in a..b, g x := by
  have hle : Real.exp a ≤ Real.exp b := Real.exp_le_exp.2 h
  have him : Real.exp '' Ioc a b = Ioc (Real.exp a) (Real.exp b) := by
    ext y
    constructor
    · rintro ⟨x, hx, rfl⟩
      exact ⟨Real.exp_lt_exp.2 hx.1, Real.exp_le_exp.2 hx.2⟩
    · intro hy
      have hy0 : 0 < y := (Real.exp_pos a).trans hy.1
      exact ⟨Real.log y, ⟨(Real.lt_log_iff_exp_lt hy0).2 hy.1, (Real.log_le_iff_le_exp hy0).2 hy.2⟩, Real.exp_log hy0⟩
  have := integral_image_eq_integral_abs_deriv_smul (s := Ioc a b) (f := Real.exp) (f' := Real.exp) measurableSet_Ioc
    (fun x _ => (Real.hasDerivAt_exp x).hasDerivWithinAt) (Real.exp_injective.injOn) (fun y => g (Real.log y) / y)
  rw [him] at this
  rw [intervalIntegral.integral_of_le hle, intervalIntegral.integral_of_le h, this]
  refine setIntegral_congr_fun measurableSet_Ioc fun x _ => ?_
  have := Real.exp_pos x
  simp only [smul_eq_mul, abs_of_pos this, Real.log_exp]
  field_simp

theorem exp_subst (g : ℝ → ℝ) (a b : ℝ) :
    ∫ y in Real.exp a..Real.exp b, g (Real.log y) / y = ∫ x in a..b, g x := by
  rcases le_total a b with h | h
  · exact exp_subst_le g h
  · rw [intervalIntegral.integral_symm, exp_subst_le g h, ← intervalIntegral.integral_symm]

/-- The transformed integral of `N_exp_rng` is the integral. -/
theorem transformed (f : ℝ → ℝ) {beta : ℝ} (hb : beta ≠ 0) (m1 m2 : ℝ) :
    (∫ y in Real.exp (beta * m1)..Real.exp (beta * m2), f (Real.log y / beta) / y) / beta = ∫ m in m1..m2, f m := by
  rw [exp_subst (fun x => f (x / beta)), intervalIntegral.integral_comp_div _ hb, mul_div_cancel_left₀ _ hb, mul_div_cancel_left₀ _ hb, smul_eq_mul,
    mul_div_cancel_left₀ _ hb]

/-- When `N_exp_rng` gives a number, it is the expected number in the range. -/
theorem nExpRng_eq {Q : (ℝ → ℝ) → ℝ → ℝ → ℝ} (hQ : ∀ f a b, Q f a b = ∫ x in a..b, f x) {et sg : ℝ → ℝ}
    (he : Antitone et) (h0 : ∀ m, 0 ≤ et m) (hs : ∀ m, 0 < sg m) {area m1 m2 v : ℝ} (h : nExpRng Q et sg area m1 m2 = some v) :
    v = area * ∫ m in m1..m2, et m * sg m := by
  simp only [nExpRng] at h
  split_ifs at h with h1 h2 h3 h4 h5
  · obtain rfl : 0 = v := by simpa using h
    have e1 : et m1 = 0 := by
      have := h1.1
      rwa [mul_eq_zero, or_iff_right (hs m1).ne'] at this
    have e2 : et m2 = 0 := by
      have := h1.2
      rwa [mul_eq_zero, or_iff_right (hs m2).ne'] at this
    have hz : ∀ m ∈ uIcc m1 m2, et m * sg m = 0 := by
      intro m hm
      have h3 : et m ≤ et (min m1 m2) := he hm.1
      have h4 : et (min m1 m2) = 0 := by rcases min_choice m1 m2 with h | h <;> rw [h] <;> assumption
      rw [show et m = 0 from le_antisymm (h4 ▸ h3) (h0 m), zero_mul]
    rw [intervalIntegral.integral_congr (g := fun _ => 0) hz]
    simp
  · rw [← Option.some.inj h, hQ]
  · rw [← Option.some.inj h, hQ]
    norm_num at h4
  · rw [← Option.some.inj h, hQ]
  · have hb : Real.log (sg m2 * et m2 / (sg m1 * et m1)) / (m2 - m1) ≠ 0 := by
      intro hb
      rw [hb] at h5
      norm_num at h5
    rw [← Option.some.inj h, hQ, transformed (fun m => et m * sg m) hb]

theorem nExpRng_number (Q : (ℝ → ℝ) → ℝ → ℝ → ℝ) (et sg : ℝ → ℝ) (area : ℝ) {m1 m2 : ℝ} (h : m1 ≠ m2) :
    ∃ v, nExpRng Q et sg area m1 m2 = some v := by
  simp only [nExpRng]
  split_ifs with h1 h2 h3 h4 h5
  all_goals first
    | exact ⟨_, rfl⟩
    | exact absurd h2.2.2 h

theorem pieces_eq {R : ℝ → ℝ → Option ℝ} {f : ℝ → ℝ} {area : ℝ} (hf : ∀ a b, IntervalIntegrable f volume a b)
    (hR : ∀ a b v, R a b = some v → v = area * ∫ x in a..b, f x) :
    ∀ (a : ℝ) (l : List ℝ) (v : ℝ), pieces R (a :: l) = some v → v = area * ∫ x in a..(a :: l).getLast (by simp), f x
  | a, [], v, h => by
      obtain rfl : 0 = v := by simpa [pieces] using h
      simp
  | a, [b], v, h => by
      rw [pieces] at h
      simpa using hR a b v h
  | a, b :: c :: l, v, h => by
      have ih := pieces_eq hf hR b (c :: l)
      rw [pieces] at h
      · cases h1 : R a b with
        | none => rw [h1] at h; simp [plus] at h
        | some x =>
          cases h2 : pieces R (b :: c :: l) with
          | none => rw [h1, h2] at h; simp [plus] at h
          | some y =>
            rw [h1, h2] at h
            obtain rfl : x + y = v := by simpa [plus] using h
            rw [hR a b x h1, ih y h2, ← mul_add, intervalIntegral.integral_add_adjacent_intervals (hf _ _) (hf _ _)]
            rfl
      · simp

theorem pieces_number {R : ℝ → ℝ → Option ℝ} (hR : ∀ a b, a ≠ b → ∃ v, R a b = some v) :
    ∀ (l : List ℝ), l.IsChain (· ≠ ·) → ∃ v, pieces R l = some v
  | [], _ => ⟨0, rfl⟩
  | [a], _ => ⟨0, rfl⟩
  | [a, b], h => by
      rw [pieces]
      exact hR a b (by simpa using h)
  | a :: b :: c :: l, h => by
      rw [List.isChain_cons_cons] at h
      obtain ⟨x, hx⟩ := hR a b h.1
      obtain ⟨y, hy⟩ := pieces_number hR (b :: c :: l) h.2
      refine ⟨x + y, ?_⟩
      rw [pieces, hx, hy]
      · rfl
      · simp

theorem integrable {et sg : ℝ → ℝ} (he : Antitone et) (hc : Continuous sg) (a b : ℝ) : IntervalIntegrable (fun m => et m * sg m) volume a b :=
  (he.antitoneOn _).intervalIntegrable.mul_continuousOn hc.continuousOn

end Verif.Tno
