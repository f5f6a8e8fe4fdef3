import Verif.Point.PeriodicLemmas
import Mathlib.MeasureTheory.Function.Floor
import Mathlib.Data.List.Rotate

/-!
# Periodic point processes: the integral over phase
-/

set_option linter.unusedSectionVars false

namespace Verif.Point

open Real MeasureTheory

/-! ## The bins as functions of the phase -/

theorem measurable_binOf (nb : ℕ) : Measurable (binOf nb) := by
  unfold binOf
  have h : Measurable fun y : ℝ => ⌊nb * Int.fract y⌋ := Int.measurable_floor.comp (measurable_const.mul measurable_fract)
  exact (Measurable.of_discrete (f := Int.toNat)).comp h

theorem measurable_countP (nb : ℕ) (phases : List ℝ) (j : ℕ) : Measurable fun u : ℝ => phases.countP fun p => binOf nb (p + u) = j := by
  induction phases with
  | nil => simp
  | cons p ps ih =>
    simp only [List.countP_cons]
    refine ih.add ?_
    have h : Measurable fun u : ℝ => binOf nb (p + u) := (measurable_binOf nb).comp (measurable_const.add measurable_id)
    have := (Measurable.of_discrete (f := fun k : ℕ => if decide (k = j) = true then 1 else 0)).comp h
    exact this

theorem measurable_counts (nb : ℕ) (phases : List ℝ) (G : List ℕ → ℝ) : Measurable fun u : ℝ => G (counts nb phases u) := by
  have h : Measurable fun u : ℝ => fun j : Fin nb => phases.countP fun p => binOf nb (p + u) = (j : ℕ) :=
    measurable_pi_lambda _ fun j => measurable_countP nb phases j
  have h2 := (Measurable.of_discrete (f := fun c : Fin nb → ℕ => G (List.ofFn c))).comp h
  convert h2 using 2 with u
  unfold counts
  simp only [Function.comp]
  congr 1
  apply List.ext_getElem
  · simp
  · intro i h1 h2
    simp

theorem integrable_counts {nb : ℕ} {phases : List ℝ} {G : List ℕ → ℝ} {M : ℝ} (hM : ∀ u v, |G (counts nb phases u) - G (counts nb phases v)| ≤ M) (a b : ℝ) :
    IntervalIntegrable (fun φ => G (counts nb phases (φ / twopi))) volume a b := by
  have hm : Measurable fun φ : ℝ => G (counts nb phases (φ / twopi)) := (measurable_counts nb phases G).comp (measurable_id.div_const _)
  rw [intervalIntegrable_iff]
  refine Measure.integrableOn_of_bounded (M := |G (counts nb phases 0)| + M) (by simp) hm.aestronglyMeasurable ?_
  refine Filter.Eventually.of_forall fun φ => ?_
  have h := hM (φ / twopi) 0
  rw [Real.norm_eq_abs]
  calc |G (counts nb phases (φ / twopi))| = |G (counts nb phases 0) + (G (counts nb phases (φ / twopi)) - G (counts nb phases 0))| := by ring_nf
    _ ≤ _ := (abs_add_le _ _).trans (by linarith)

/-- Shifting the phase by a bin width moves every event to the following bin. -/
theorem counts_rotate {nb : ℕ} (hn : 0 < nb) (phases : List ℝ) (u : ℝ) : (counts nb phases (u + 1 / nb)).rotate 1 = counts nb phases u := by
  have hn' : (0 : ℝ) < nb := Nat.cast_pos.2 hn
  apply List.ext_getElem
  · simp [counts]
  · intro j h1 h2
    rw [List.getElem_rotate]
    have hj : j < nb := by simpa [counts] using h2
    simp only [counts, List.getElem_map, List.getElem_range, List.length_map, List.length_range]
    apply List.countP_congr
    intro p _
    have e1 := binOf_emod hn (p + u)
    have e2 := binOf_emod hn (p + (u + 1 / nb))
    have e3 : (nb : ℝ) * (p + (u + 1 / nb)) = nb * (p + u) + ((1 : ℤ) : ℝ) := by
      push_cast
      field_simp
      ring
    rw [e3, Int.floor_add_intCast] at e2
    have l1 := binOf_lt hn (p + u)
    have l2 := binOf_lt hn (p + (u + 1 / nb))
    have e4 : ((binOf nb (p + (u + 1 / nb)) : ℕ) : ℤ) = (((binOf nb (p + u) + 1) % nb : ℕ) : ℤ) := by
      rw [e2, Int.natCast_emod, Int.natCast_add, e1]
      simp
    have e5 : binOf nb (p + (u + 1 / nb)) = (binOf nb (p + u) + 1) % nb := by exact_mod_cast e4
    rw [e5]
    simp only [decide_eq_true_eq]
    constructor
    · intro h
      rcases Nat.lt_or_ge (binOf nb (p + u) + 1) nb with a | a
      · rw [Nat.mod_eq_of_lt a] at h
        rcases Nat.lt_or_ge (j + 1) nb with b | b
        · rw [Nat.mod_eq_of_lt b] at h; omega
        · have : j + 1 = nb := by omega
          rw [this, Nat.mod_self] at h; omega
      · have : binOf nb (p + u) + 1 = nb := by omega
        rw [this, Nat.mod_self] at h
        rcases Nat.lt_or_ge (j + 1) nb with b | b
        · rw [Nat.mod_eq_of_lt b] at h; omega
        · omega
    · intro h
      rw [h]

theorem counts_perm {nb : ℕ} (hn : 0 < nb) (phases : List ℝ) (u : ℝ) : (counts nb phases (u + 1 / nb)).Perm (counts nb phases u) := by
  rw [← counts_rotate hn phases u]
  exact (List.rotate_perm _ 1).symm

theorem periodic_counts {nb : ℕ} (hn : 0 < nb) (phases : List ℝ) {G : List ℕ → ℝ} (hG : ∀ a b : List ℕ, a.Perm b → G a = G b) :
    Function.Periodic (fun φ => G (counts nb phases (φ / twopi))) (twopi / nb) := by
  intro φ
  have := twopi_pos
  have hn' : (0 : ℝ) < nb := Nat.cast_pos.2 hn
  have e : (φ + twopi / nb) / twopi = φ / twopi + 1 / nb := by field_simp
  simp only [e]
  exact hG _ _ (counts_perm hn phases _)

theorem sweep {nb : ℕ} (hn : 0 < nb) (phases : List ℝ) {G : List ℕ → ℝ} (hG : ∀ a b : List ℕ, a.Perm b → G a = G b) {M : ℝ} (hM : ∀ u v, |G (counts nb phases u) - G (counts nb phases v)| ≤ M) :
    ∫ φ in (0 : ℝ)..twopi, G (counts nb phases (φ / twopi)) = nb * ∫ φ in (0 : ℝ)..twopi / nb, G (counts nb phases (φ / twopi)) := by
  have hp := periodic_counts hn phases hG
  have hn' : (0 : ℝ) < nb := Nat.cast_pos.2 hn
  have h := hp.intervalIntegral_add_zsmul_eq (nb : ℤ) 0 (integrable_counts hM)
  have e : ((nb : ℤ) • (twopi / nb) : ℝ) = twopi := by
    simp
    field_simp
  rw [zero_add, e] at h
  rw [h]
  simp

/-! ## The loop -/

/-- One turn: a constant for the integrand, over a step at most `δ` longer than it is constant. -/
theorem turn {nb : ℕ} (hn : 0 < nb) {phases : List ℝ} {G : List ℕ → ℝ} {M : ℝ} (hM : ∀ u v, |G (counts nb phases u) - G (counts nb phases v)| ≤ M) {phi psi d δ : ℝ}
    (h0 : phi ≤ psi) (hd0 : 0 ≤ d) (hδ : 0 ≤ δ) (hd : ∀ p ∈ phases, d ≤ dist nb (p + phi / twopi)) (h1 : psi - phi ≤ twopi * d + δ) :
    |G (counts nb phases (phi / twopi)) * (psi - phi) - ∫ φ in phi..psi, G (counts nb phases (φ / twopi))| ≤ M * δ := by
  have tp := twopi_pos
  have hM0 : 0 ≤ M := (abs_nonneg _).trans (hM 0 0)
  have hI := integrable_counts (G := G) hM
  set c := min psi (phi + twopi * d) with hc
  have c1 : phi ≤ c := le_min h0 (by nlinarith)
  have c2 : c ≤ psi := min_le_left ..
  have c3 : psi - c ≤ δ := by
    rcases min_choice psi (phi + twopi * d) with h | h <;> rw [hc, h] <;> linarith
  have hconst : ∫ φ in phi..c, G (counts nb phases (φ / twopi)) = ∫ _ in phi..c, G (counts nb phases (phi / twopi)) := by
    apply intervalIntegral.integral_congr_ae
    have : ∀ᵐ φ : ℝ, φ ≠ c := by
      rw [ae_iff]
      simp
    filter_upwards [this] with φ hne hφ
    rw [Set.uIoc_of_le c1] at hφ
    have hlt : φ < c := lt_of_le_of_ne hφ.2 hne
    have hlt' : φ < phi + twopi * d := hlt.trans_le (min_le_right ..)
    rw [counts_eq hn (u := phi / twopi) (v := φ / twopi) (by have := hφ.1.le; gcongr)]
    intro p hp
    refine lt_of_lt_of_le ?_ (hd p hp)
    rw [← sub_div, div_lt_iff₀ tp]
    linarith
  rw [intervalIntegral.integral_const, smul_eq_mul] at hconst
  have hrest : |∫ φ in c..psi, (G (counts nb phases (phi / twopi)) - G (counts nb phases (φ / twopi)))| ≤ M * |psi - c| := by
    rw [← Real.norm_eq_abs]
    apply intervalIntegral.norm_integral_le_of_norm_le_const
    intro φ _
    exact hM _ _
  rw [intervalIntegral.integral_sub (by simp) (hI c psi), intervalIntegral.integral_const, smul_eq_mul, abs_of_nonneg (sub_nonneg.2 c2)] at hrest
  rw [← intervalIntegral.integral_add_adjacent_intervals (hI phi c) (hI c psi), hconst]
  have e : G (counts nb phases (phi / twopi)) * (psi - phi) - ((c - phi) * G (counts nb phases (phi / twopi)) + ∫ φ in c..psi, G (counts nb phases (φ / twopi))) =
      (psi - c) * G (counts nb phases (phi / twopi)) - ∫ φ in c..psi, G (counts nb phases (φ / twopi)) := by ring
  rw [e]
  exact hrest.trans (mul_le_mul_of_nonneg_left c3 hM0)

/-- The step of the loop beyond the point where a bin changes. -/
noncomputable def excess (nb : ℕ) : ℝ := twopi * (nb * tiny)

theorem excess_nonneg (nb : ℕ) : 0 ≤ excess nb := by
  have := twopi_pos
  have := tiny_pos
  unfold excess
  positivity

theorem exactLoop_spec {nb : ℕ} (hn : 0 < nb) {phases : List ℝ} (hp : ∀ p ∈ phases, 0 ≤ p) (lndfac lfac : ℝ) {M₁ M₂ : ℝ}
    (hM₁ : ∀ u v, |exp (plimult (counts nb phases u) - lndfac + lfac) - exp (plimult (counts nb phases v) - lndfac + lfac)| ≤ M₁)
    (hM₂ : ∀ u v, |chisqr phases.length (counts nb phases u) - chisqr phases.length (counts nb phases v)| ≤ M₂)
    (fuel : ℕ) (phi : ℝ) (h0 : 0 ≤ phi) (h1 : phi ≤ twopi / nb) (s : ℝ × ℝ) (hf : pending nb phases phi < fuel) :
    ∃ t, exactLoop phases.length lndfac phases nb (binbounds nb) lfac fuel phi s = .val t ∧
      |t.1 - s.1 - ∫ φ in phi..twopi / nb, exp (plimult (counts nb phases (φ / twopi)) - lndfac + lfac)| ≤ pending nb phases phi * (M₁ * excess nb) ∧
      |t.2 - s.2 - ∫ φ in phi..twopi / nb, chisqr phases.length (counts nb phases (φ / twopi))| ≤ pending nb phases phi * (M₂ * excess nb) := by
  have tp := twopi_pos
  have hn' : (0 : ℝ) < nb := Nat.cast_pos.2 hn
  have hex := excess_nonneg nb
  have m₁ : 0 ≤ M₁ := (abs_nonneg _).trans (hM₁ 0 0)
  have m₂ : 0 ≤ M₂ := (abs_nonneg _).trans (hM₂ 0 0)
  have I₁ := integrable_counts (G := fun c => exp (plimult c - lndfac + lfac)) hM₁
  have I₂ := integrable_counts (G := chisqr phases.length) hM₂
  induction fuel generalizing phi s with
  | zero => omega
  | succ fuel ih =>
    obtain ⟨d, e1, e2, e3, e4⟩ := fbindata_spec hn hp h0
    have hd0 : 0 < d := by
      rcases e4 with h | ⟨p, _, h⟩
      · rw [h]; positivity
      · rw [h]; exact dist_pos hn _
    have hst : twopi * (d + nb * tiny) = twopi * d + excess nb := by unfold excess; ring
    unfold exactLoop
    rw [e1]
    simp only [Out.bind]
    -- an event crosses before the end of the sweep unless the step reaches it
    have hcross : phi + twopi * d < twopi / nb → ∃ p ∈ phases, next nb p (nb * (phi / twopi)) < 1 ∧ next nb p (nb * (phi / twopi)) = nb * ((phi + twopi * d) / twopi) := by
      intro hlt
      rcases e4 with h | ⟨p, hpm, h⟩
      · rw [h] at hlt
        have : twopi * (1 / nb) = twopi / nb := by ring
        linarith
      · refine ⟨p, hpm, ?_⟩
        rw [dist_next hn] at h
        have e : next nb p (nb * (phi / twopi)) = nb * ((phi + twopi * d) / twopi) := by
          rw [h]
          field_simp
          ring
        refine ⟨?_, e⟩
        rw [e, ← mul_div_assoc, div_lt_one tp]
        rw [lt_div_iff₀ hn'] at hlt
        linarith
    split_ifs with hlt
    · rw [hst] at hlt
      obtain ⟨p, hpm, hp1, hp2⟩ := hcross (by linarith)
      have hpend : pending nb phases (phi + twopi * (d + nb * tiny)) < pending nb phases phi := by
        refine pending_lt (by rw [hst]; nlinarith) hpm hp1 ?_ h0
        rw [hp2, hst]
        have : phi + twopi * d ≤ phi + (twopi * d + excess nb) := by linarith
        gcongr
      obtain ⟨t, f1, f2, f3⟩ := ih (phi + twopi * (d + nb * tiny)) (by rw [hst]; nlinarith) (by rw [hst]; exact hlt.le)
        (s.1 + exp (plimult (counts nb phases (phi / twopi)) - lndfac + lfac) * (twopi * (d + nb * tiny)),
         s.2 + chisqr phases.length (counts nb phases (phi / twopi)) * (twopi * (d + nb * tiny))) (by omega)
      have hc : (pending nb phases (phi + twopi * (d + nb * tiny)) : ℝ) + 1 ≤ pending nb phases phi := by exact_mod_cast hpend
      refine ⟨t, f1, ?_, ?_⟩
      · have t1 := turn hn (G := fun c => exp (plimult c - lndfac + lfac)) hM₁ (phi := phi) (psi := phi + twopi * (d + nb * tiny)) (d := d) (δ := excess nb)
          (by rw [hst]; nlinarith) hd0.le hex e3 (by rw [hst]; linarith)
        rw [← intervalIntegral.integral_add_adjacent_intervals (I₁ phi (phi + twopi * (d + nb * tiny))) (I₁ _ (twopi / nb))]
        rw [add_sub_cancel_left] at t1
        simp only at f2
        have hb : (pending nb phases (phi + twopi * (d + nb * tiny)) : ℝ) * (M₁ * excess nb) + M₁ * excess nb ≤ pending nb phases phi * (M₁ * excess nb) := by
          nlinarith [mul_nonneg m₁ hex]
        rw [abs_le] at f2 t1 ⊢
        constructor <;> linarith [f2.1, f2.2, t1.1, t1.2]
      · have t1 := turn hn (G := chisqr phases.length) hM₂ (phi := phi) (psi := phi + twopi * (d + nb * tiny)) (d := d) (δ := excess nb)
          (by rw [hst]; nlinarith) hd0.le hex e3 (by rw [hst]; linarith)
        rw [← intervalIntegral.integral_add_adjacent_intervals (I₂ phi (phi + twopi * (d + nb * tiny))) (I₂ _ (twopi / nb))]
        rw [add_sub_cancel_left] at t1
        simp only at f3
        have hb : (pending nb phases (phi + twopi * (d + nb * tiny)) : ℝ) * (M₂ * excess nb) + M₂ * excess nb ≤ pending nb phases phi * (M₂ * excess nb) := by
          nlinarith [mul_nonneg m₂ hex]
        rw [abs_le] at f3 t1 ⊢
        constructor <;> linarith [f3.1, f3.2, t1.1, t1.2]
    · rw [hst] at hlt
      push Not at hlt
      refine ⟨_, rfl, ?_⟩
      simp only [add_sub_cancel_left]
      by_cases hend : phi + twopi * d < twopi / nb
      · obtain ⟨p, hpm, hp1, _⟩ := hcross hend
        have hpos : 0 < pending nb phases phi := List.countP_pos_iff.2 ⟨p, hpm, by simpa using hp1⟩
        have hc : (1 : ℝ) ≤ pending nb phases phi := by exact_mod_cast hpos
        have t1 := turn hn (G := fun c => exp (plimult c - lndfac + lfac)) hM₁ h1 hd0.le hex e3 (by linarith)
        have t2 := turn hn (G := chisqr phases.length) hM₂ h1 hd0.le hex e3 (by linarith)
        exact ⟨t1.trans (by nlinarith [mul_nonneg m₁ hex]), t2.trans (by nlinarith [mul_nonneg m₂ hex])⟩
      · push Not at hend
        have t1 := turn hn (G := fun c => exp (plimult c - lndfac + lfac)) hM₁ h1 hd0.le le_rfl e3 (by linarith)
        have t2 := turn hn (G := chisqr phases.length) hM₂ h1 hd0.le le_rfl e3 (by linarith)
        rw [mul_zero] at t1 t2
        exact ⟨t1.trans (by positivity), t2.trans (by positivity)⟩

end Verif.Point
