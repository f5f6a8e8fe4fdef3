import Verif.Point.PeriodicTrap

/-!
# C111–C113: the piecewise constant model of a periodic point process

Specification: `binOf nb y` is the number of the bin, `⌊nb · fract y⌋`, of an event at phase `y` (in periods); `counts nb phases u` are the numbers of events in the `nb` bins when the phases are shifted by `u`; `facts` is the product of the factorials of the counts; `chi2` is Pearson's statistic against equal expectations.
-/

set_option linter.unusedSectionVars false

namespace Verif.Point

open Real MeasureTheory

/-! ## C111: binning -/

/-- **C111** (for phases that are not negative).  Binning puts every event in the bin its phase belongs to and loses none.  The step it returns is positive; the counts stay as they are until the phase has moved by the step less the small excess; unless the step is a whole bin, an event then moves to the following bin.
Missing: events before time zero (the `C111_violated` theorems). -/
theorem C111_bins_partial {nb : ℕ} (hn : 0 < nb) {phases : List ℝ} (hp : ∀ p ∈ phases, 0 ≤ p) {phi : ℝ} (h0 : 0 ≤ phi) :
    ∃ step, fbindata phases phi nb (binbounds nb) = .val (counts nb phases (phi / twopi), step) ∧
      (counts nb phases (phi / twopi)).sum = phases.length ∧ excess nb < step ∧
      (∀ psi, phi ≤ psi → psi < phi + (step - excess nb) → counts nb phases (psi / twopi) = counts nb phases (phi / twopi)) ∧
      (step - excess nb = twopi / nb ∨
        step - excess nb ≤ twopi / nb ∧ ∃ p ∈ phases, binOf nb (p + (phi + (step - excess nb)) / twopi) = (binOf nb (p + phi / twopi) + 1) % nb) := by
  have tp := twopi_pos
  have hn' : (0 : ℝ) < nb := Nat.cast_pos.2 hn
  obtain ⟨d, e1, e2, e3, e4⟩ := fbindata_spec hn hp h0
  have hst : twopi * (d + nb * tiny) - excess nb = twopi * d := by unfold excess; ring
  have hd0 : 0 < d := by
    rcases e4 with h | ⟨p, _, h⟩
    · rw [h]; positivity
    · rw [h]; exact dist_pos hn _
  refine ⟨_, e1, counts_sum hn _ _, ?_, ?_, ?_⟩
  · have : 0 < twopi * d := by positivity
    linarith
  · intro psi h1 h2
    rw [hst] at h2
    apply counts_eq hn (by gcongr)
    intro p hp'
    refine lt_of_lt_of_le ?_ (e3 p hp')
    rw [← sub_div, div_lt_iff₀ tp]
    linarith
  · rw [hst]
    rcases e4 with h | ⟨p, hpm, h⟩
    · left
      rw [h]
      ring
    · right
      refine ⟨?_, p, hpm, ?_⟩
      · calc twopi * d ≤ twopi * (1 / nb) := by gcongr
          _ = twopi / nb := by ring
      · have hy : p + (phi + twopi * d) / twopi = (p + phi / twopi) + d := by field_simp; ring
        have hfl : (nb : ℝ) * (p + phi / twopi + d) = ((⌊nb * (p + phi / twopi)⌋ + 1 : ℤ) : ℝ) := by
          rw [h]
          unfold dist
          push_cast
          field_simp
          ring
        have a := binOf_emod hn (p + phi / twopi)
        have b := binOf_emod hn (p + phi / twopi + d)
        rw [hfl, Int.floor_intCast] at b
        rw [hy]
        have : ((binOf nb (p + phi / twopi + d) : ℕ) : ℤ) = (((binOf nb (p + phi / twopi) + 1) % nb : ℕ) : ℤ) := by
          rw [b, Int.natCast_emod, Int.natCast_add, a]
          simp
        exact_mod_cast this

example : ∃ step, fbindata [1 / 8, 5 / 2, 9 / 4] 0 4 (binbounds 4) = .val (counts 4 [1 / 8, 5 / 2, 9 / 4] (0 / twopi), step) := by
  obtain ⟨s, h, -⟩ := C111_bins_partial (nb := 4) (by norm_num) (phases := [1 / 8, 5 / 2, 9 / 4]) (by intro p hp; simp at hp; rcases hp with rfl | rfl | rfl <;> norm_num) (phi := 0) le_rfl
  exact ⟨s, h⟩

/-- The bins of the example: `1/8` and then `1/2` and `1/4` of a period. -/
example : counts 4 [1 / 8, 5 / 2, 9 / 4] (0 / twopi) = [1, 1, 1, 0] := by
  have f0 : ⌊(1 : ℝ) / 8⌋ = 0 := by rw [Int.floor_eq_iff]; norm_num
  have f1 : ⌊(5 : ℝ) / 2⌋ = 2 := by rw [Int.floor_eq_iff]; norm_num
  have f2 : ⌊(9 : ℝ) / 4⌋ = 2 := by rw [Int.floor_eq_iff]; norm_num
  have g0 : binOf 4 (1 / 8 + 0 / twopi) = 0 := by
    unfold binOf
    rw [zero_div, add_zero, ← Int.self_sub_floor, f0]
    have : ⌊((4 : ℕ) : ℝ) * (1 / 8 - ((0 : ℤ) : ℝ))⌋ = 0 := by rw [Int.floor_eq_iff]; norm_num
    rw [this]; rfl
  have g1 : binOf 4 (5 / 2 + 0 / twopi) = 2 := by
    unfold binOf
    rw [zero_div, add_zero, ← Int.self_sub_floor, f1]
    have : ⌊((4 : ℕ) : ℝ) * (5 / 2 - ((2 : ℤ) : ℝ))⌋ = 2 := by rw [Int.floor_eq_iff]; norm_num
    rw [this]; rfl
  have g2 : binOf 4 (9 / 4 + 0 / twopi) = 1 := by
    unfold binOf
    rw [zero_div, add_zero, ← Int.self_sub_floor, f2]
    have : ⌊((4 : ℕ) : ℝ) * (9 / 4 - ((2 : ℤ) : ℝ))⌋ = 1 := by rw [Int.floor_eq_iff]; norm_num
    rw [this]; rfl
  simp only [counts, List.range_succ, List.range_zero, List.nil_append, List.cons_append, List.map_cons, List.map_nil, List.countP_cons, List.countP_nil, g0, g1, g2]
  simp

/-- **C111** (phases).  The phases computed are the number of periods since time zero. -/
theorem C111_phases (w wdot wddot : ℝ) (data : List ℝ) :
    phasesdd w wdot wddot data = data.map (fun t => (w * t + wdot * t ^ 2 / 2 + wddot * t ^ 3 / 6) / twopi) ∧
      phasesd w wdot data = phasesdd w wdot 0 data ∧ phases0 w data = phasesd w 0 data := by
  have tp := twopi_pos.ne'
  refine ⟨?_, ?_, ?_⟩
  · unfold phasesdd
    apply List.map_congr_left
    intro t _
    ring
  · unfold phasesdd phasesd
    apply List.map_congr_left
    intro t _
    ring
  · unfold phasesd phases0
    apply List.map_congr_left
    intro t _
    ring

example : phases0 2 [3] = [2 / twopi * 3] := rfl

/-- **C111, violated** (range).  The phases are documented to lie in `[0, 1)`; they do not. -/
theorem C111_violated_range : ∃ w data, ∃ p ∈ phases0 w data, 1 ≤ p := by
  refine ⟨1, [twopi], 1 / twopi * twopi, by simp [phases0], ?_⟩
  rw [one_div, inv_mul_cancel₀ twopi_pos.ne']

/-- **C111, violated** (memory).  Events before time zero: whenever the phase is a bin width or more below a whole number, the counts are written outside of their array. -/
theorem C111_violated_memory {nb : ℕ} (hn : 0 < nb) {p : ℝ} {phases : List ℝ} {phi : ℝ} (h0 : p + phi / twopi < 0) (h1 : p + phi / twopi ≤ ⌈p + phi / twopi⌉ - 1 / nb) :
    fbindata (p :: phases) phi nb (binbounds nb) = .oob := by
  have hn' : (0 : ℝ) < nb := Nat.cast_pos.2 hn
  have ht : trunc (p + phi / twopi) = ⌈p + phi / twopi⌉ := if_neg (not_le.2 h0)
  have hx : (nb : ℝ) * (p + phi / twopi - ⌈p + phi / twopi⌉) ≤ -1 := by
    have : p + phi / twopi - ⌈p + phi / twopi⌉ ≤ -(1 / nb) := by linarith
    calc (nb : ℝ) * (p + phi / twopi - ⌈p + phi / twopi⌉) ≤ nb * (-(1 / nb)) := by gcongr
      _ = -1 := by field_simp
  have hj : trunc (nb * (p + phi / twopi - ⌈p + phi / twopi⌉)) ≤ -1 := by
    unfold trunc
    rw [if_neg (by linarith), Int.ceil_le]
    push_cast
    exact hx
  unfold fbindata fbinLoop
  simp only [ht]
  rw [if_neg (by omega)]
  rfl

example : fbindata (phases0 1 [-twopi / 2]) 0 4 (binbounds 4) = .oob := by
  have tp := twopi_pos
  have e : (1 : ℝ) / twopi * (-twopi / 2) + 0 / twopi = -1 / 2 := by field_simp; ring
  have c : ⌈(-1 : ℝ) / 2⌉ = 0 := by rw [Int.ceil_eq_iff]; norm_num
  exact C111_violated_memory (by norm_num) (by rw [e]; norm_num) (by rw [e, c]; norm_num)

/-- **C111, violated** (first bin).  Events before time zero: when the phase is less than a bin width below a whole number the event belongs to the last bin, but is counted in the first. -/
theorem C111_violated_first {nb : ℕ} (hn : 2 ≤ nb) {p phi : ℝ} (h0 : p + phi / twopi < 0) (h1 : ⌈p + phi / twopi⌉ - 1 / nb < p + phi / twopi) (h2 : p + phi / twopi < ⌈p + phi / twopi⌉) :
    ∃ step, fbindata [p] phi nb (binbounds nb) = .val (1 :: List.replicate (nb - 1) 0, step) ∧ binOf nb (p + phi / twopi) = nb - 1 := by
  have hn' : (0 : ℝ) < nb := by exact_mod_cast (by omega : 0 < nb)
  have ht : trunc (p + phi / twopi) = ⌈p + phi / twopi⌉ := if_neg (not_le.2 h0)
  have hx : -1 < (nb : ℝ) * (p + phi / twopi - ⌈p + phi / twopi⌉) := by
    have : -(1 / nb) < p + phi / twopi - ⌈p + phi / twopi⌉ := by linarith
    calc (-1 : ℝ) = nb * (-(1 / nb)) := by field_simp
      _ < _ := by gcongr
  have hx0 : (nb : ℝ) * (p + phi / twopi - ⌈p + phi / twopi⌉) < 0 := by nlinarith
  have hj : trunc (nb * (p + phi / twopi - ⌈p + phi / twopi⌉)) = 0 := by
    unfold trunc
    rw [if_neg (by linarith), Int.ceil_eq_iff]
    constructor
    · push_cast; linarith
    · push_cast; linarith
  have hb : (List.replicate nb 0).modify 0 (· + 1) = 1 :: List.replicate (nb - 1) 0 := by
    obtain ⟨m, rfl⟩ : ∃ m, nb = m + 1 := ⟨nb - 1, by omega⟩
    rfl
  unfold fbindata fbinLoop
  simp only [ht, hj]
  rw [if_pos ⟨le_rfl, by omega⟩]
  simp only [fbinLoop, Int.toNat_zero, hb]
  refine ⟨_, rfl, ?_⟩
  · have e := binOf_emod (by omega : 0 < nb) (p + phi / twopi)
    have hf : ⌊nb * (p + phi / twopi)⌋ = -1 + nb * ⌈p + phi / twopi⌉ := by
      rw [Int.floor_eq_iff]
      push_cast
      constructor <;> nlinarith
    rw [hf, Int.add_mul_emod_self_left] at e
    have : (-1 : ℤ) % nb = nb - 1 := by
      rw [Int.emod_eq_iff (by omega)]
      refine ⟨by omega, by omega, ⟨1, by ring⟩⟩
    rw [this] at e
    omega

example : ∃ step, fbindata [-1 / 8] 0 4 (binbounds 4) = .val ([1, 0, 0, 0], step) ∧ binOf 4 (-1 / 8 + 0 / twopi) = 3 := by
  have e : (-1 : ℝ) / 8 + 0 / twopi = -1 / 8 := by simp
  have c : ⌈(-1 : ℝ) / 8⌉ = 0 := by rw [Int.ceil_eq_iff]; norm_num
  exact C111_violated_first (by norm_num) (by rw [e]; norm_num) (by rw [e, c]; norm_num) (by rw [e, c]; norm_num)

/-! ## C112: integrals over phase -/

/-- The integral over phase of the scaled product of factorials, the quantity to be computed. -/
noncomputable def scaledInt (nb : ℕ) (phases : List ℝ) (lndfac lfac : ℝ) : ℝ := ∫ φ in (0 : ℝ)..twopi, exp (lfac - lndfac) * facts (counts nb phases (φ / twopi))

/-- The average over phase of chi-squared. -/
noncomputable def avgChi (nb : ℕ) (phases : List ℝ) : ℝ := (∫ φ in (0 : ℝ)..twopi, chi2 (counts nb phases (φ / twopi))) / twopi

theorem chi_int {nb : ℕ} (hn : 0 < nb) (phases : List ℝ) : ∫ φ in (0 : ℝ)..twopi, chisqr phases.length (counts nb phases (φ / twopi)) = twopi * avgChi nb phases := by
  have tp := twopi_pos.ne'
  unfold avgChi
  rw [mul_div_cancel₀ _ tp]
  congr 1
  funext φ
  exact chisqr_counts hn phases _

/-- The integral of the approximate integrand against that of the exact one. -/
theorem int_near {nb : ℕ} (hn : 0 < nb) (phases : List ℝ) (lndfac lfac : ℝ) :
    |(∫ φ in (0 : ℝ)..twopi, exp (plimult (counts nb phases (φ / twopi)) - lndfac + lfac)) - scaledInt nb phases lndfac lfac| ≤ (exp (nb * ε) - 1) * scaledInt nb phases lndfac lfac := by
  have tp := twopi_pos
  have I₁ := integrable_counts (G := fun c => exp (plimult c - lndfac + lfac)) (integrand_osc hn phases lndfac lfac) 0 twopi
  have I₂ := integrable_counts (G := fun c => exp (lfac - lndfac) * (facts c : ℝ)) (scaled_osc hn phases lndfac lfac) 0 twopi
  unfold scaledInt
  rw [← intervalIntegral.integral_sub I₁ I₂, ← intervalIntegral.integral_const_mul, ← Real.norm_eq_abs]
  apply intervalIntegral.norm_integral_le_of_norm_le tp.le _ (I₂.const_mul _)
  refine Filter.Eventually.of_forall fun φ _ => ?_
  have h := integrand_near (counts nb phases (φ / twopi)) lndfac lfac
  rw [counts_length] at h
  exact h

/-- **C112** (exact).  For any number of bins and any events with phases that are not negative, the exact computation ends after at most one turn more than there are events; the integral it returns is that of the scaled product of factorials over all phases, up to the accuracy of the log factorials and of the small excess of the steps; and so is the average of chi-squared. -/
theorem C112_exact {nb : ℕ} (hn : 0 < nb) {phases : List ℝ} (hp : ∀ p ∈ phases, 0 ≤ p) (lndfac lfac : ℝ) {fuel : ℕ} (hf : phases.length < fuel) :
    ∃ q c, qlwExact fuel lndfac phases nb (binbounds nb) lfac = .val (q, c) ∧
      |q - scaledInt nb phases lndfac lfac| ≤ (exp (nb * (3 / 10 ^ 10)) - 1) * scaledInt nb phases lndfac lfac + nb * (phases.length * (top nb phases.length lndfac lfac * excess nb)) ∧
      |c - avgChi nb phases| ≤ nb * (phases.length * (phases.length * (nb - 1) * excess nb)) / twopi := by
  have tp := twopi_pos
  have hn' : (0 : ℝ) < nb := Nat.cast_pos.2 hn
  have hex := excess_nonneg nb
  have hle : pending nb phases 0 ≤ phases.length := pending_le ..
  have hle' : (pending nb phases 0 : ℝ) ≤ phases.length := by exact_mod_cast hle
  have hosc := integrand_osc hn phases lndfac lfac
  have hchi := chisqr_osc hn phases
  obtain ⟨t, e1, e2, e3⟩ := exactLoop_spec hn hp lndfac lfac hosc hchi fuel 0 le_rfl (by positivity) (0, 0) (by omega)
  have m1 := (abs_nonneg _).trans (hosc 0 0)
  have m2 := (abs_nonneg _).trans (hchi 0 0)
  have s1 := sweep hn phases (G := fun c => exp (plimult c - lndfac + lfac)) (fun a b h => by rw [plimult_perm h]) hosc
  have s2 := sweep hn phases (G := chisqr phases.length) (fun a b h => chisqr_perm _ h) hchi
  refine ⟨t.1 * nb, t.2 * nb / twopi, by unfold qlwExact; rw [e1]; rfl, ?_, ?_⟩
  · have h1 := int_near hn phases lndfac lfac
    rw [show (3 / 10 ^ 10 : ℝ) = ε from rfl]
    rw [sub_zero] at e2
    have h2 : |t.1 * nb - ∫ φ in (0 : ℝ)..twopi, exp (plimult (counts nb phases (φ / twopi)) - lndfac + lfac)| ≤ nb * (phases.length * (top nb phases.length lndfac lfac * excess nb)) := by
      rw [s1, mul_comm t.1, ← mul_sub, abs_mul, abs_of_pos hn']
      refine mul_le_mul_of_nonneg_left (e2.trans ?_) hn'.le
      exact mul_le_mul_of_nonneg_right hle' (mul_nonneg m1 hex)
    calc |t.1 * nb - scaledInt nb phases lndfac lfac| ≤ _ := abs_sub_le _ (∫ φ in (0 : ℝ)..twopi, exp (plimult (counts nb phases (φ / twopi)) - lndfac + lfac)) _
      _ ≤ _ := by linarith
  · rw [sub_zero] at e3
    have e : t.2 * nb / twopi - avgChi nb phases = nb * (t.2 - ∫ φ in (0 : ℝ)..twopi / nb, chisqr phases.length (counts nb phases (φ / twopi))) / twopi := by
      have := chi_int hn phases
      rw [s2] at this
      rw [mul_sub, this]
      field_simp
    rw [e, abs_div, abs_of_pos tp, abs_mul, abs_of_pos hn']
    refine div_le_div_of_nonneg_right (mul_le_mul_of_nonneg_left (e3.trans ?_) hn'.le) tp.le
    exact mul_le_mul_of_nonneg_right hle' (mul_nonneg m2 hex)

example : ∃ q c, qlwExact 4 0 [1 / 8, 5 / 2, 9 / 4] 4 (binbounds 4) 0 = .val (q, c) := by
  obtain ⟨q, c, h, -⟩ := C112_exact (nb := 4) (by norm_num) (phases := [1 / 8, 5 / 2, 9 / 4]) (by intro p hp; simp at hp; rcases hp with rfl | rfl | rfl <;> norm_num) 0 0 (fuel := 4) (by simp)
  exact ⟨q, c, h⟩

/-- **C112** (trapezoid).  With the abscissas the code computes for `n + 1 ≥ 2` points, in single precision, the trapezoid sum is the integral up to the accuracy of the log factorials, an error of first order in the spacing and the rounding of the spacing. -/
theorem C112_trap {nb : ℕ} (hn : 0 < nb) {phases : List ℝ} (hp : ∀ p ∈ phases, 0 ≤ p) (lndfac lfac : ℝ) {rnd : ℝ → ℝ} (hr : ∀ x, |rnd x - x| ≤ |x| / 2 ^ 24) {n : ℕ} (h1 : 0 < n) :
    ∃ q c, qlwTrap lndfac phases nb (binbounds nb) (trapAbsc rnd (n + 1) nb) lfac = .val (q, c) ∧
      |q - scaledInt nb phases lndfac lfac| ≤ (exp (nb * (3 / 10 ^ 10)) - 1) * scaledInt nb phases lndfac lfac + (3 * phases.length / n + 1 / 2 ^ 24) * (twopi * top nb phases.length lndfac lfac) ∧
      |c - avgChi nb phases| ≤ (3 * phases.length / n + 1 / 2 ^ 24) * (phases.length * (nb - 1)) := by
  have tp := twopi_pos
  have hn' : (0 : ℝ) < nb := Nat.cast_pos.2 hn
  have h1' : (0 : ℝ) < n := Nat.cast_pos.2 h1
  set h0 : ℝ := twopi / nb / n with hh0
  have h0p : 0 < h0 := by positivity
  set h : ℝ := rnd h0 with hh
  have hrn := hr h0
  rw [abs_of_pos h0p, ← hh] at hrn
  have hlo : h0 - h0 / 2 ^ 24 ≤ h := by linarith [(abs_le.1 hrn).1]
  have hhi : h ≤ h0 + h0 / 2 ^ 24 := by linarith [(abs_le.1 hrn).2]
  have hpos : 0 ≤ h := by
    refine le_trans ?_ hlo
    have : h0 / 2 ^ 24 ≤ h0 := div_le_self h0p.le (by norm_num)
    linarith
  have habs : trapAbsc rnd (n + 1) nb = (List.range (n + 1)).map fun (i : ℕ) => (i : ℝ) * h := by
    unfold trapAbsc
    apply List.map_congr_left
    intro i _
    rw [hh, hh0]
    push_cast
    rw [add_sub_cancel_right]
  have hnh0 : n * h0 = twopi / nb := by rw [hh0]; field_simp
  have hgap : |twopi / nb - n * h| ≤ twopi / nb / 2 ^ 24 := by
    rw [← hnh0, ← mul_sub, abs_mul, abs_of_pos h1', abs_sub_comm, mul_div_assoc]
    exact mul_le_mul_of_nonneg_left hrn h1'.le
  have hcr : ((crossed nb phases (n * h) - crossed nb phases 0 : ℤ) : ℝ) ≤ 2 * phases.length := by
    have hk : (nb : ℝ) * (n * h / twopi) - nb * (0 / twopi) ≤ (2 : ℕ) := by
      have h3 : n * h ≤ twopi / nb * (1 + 1 / 2 ^ 24) := by
        have := (abs_le.1 hgap).1
        have e : twopi / nb * (1 + 1 / 2 ^ 24) = twopi / nb + twopi / nb / 2 ^ 24 := by ring
        linarith
      calc (nb : ℝ) * (n * h / twopi) - nb * (0 / twopi) = nb * (n * h) / twopi := by ring
        _ ≤ nb * (twopi / nb * (1 + 1 / 2 ^ 24)) / twopi := by gcongr
        _ = 1 + 1 / 2 ^ 24 := by field_simp
        _ ≤ (2 : ℕ) := by norm_num
    have := crossed_le phases 2 hk
    have h4 : crossed nb phases (n * h) - crossed nb phases 0 ≤ 2 * phases.length := by
      push_cast at this
      linarith
    have h5 : ((crossed nb phases (n * h) - crossed nb phases 0 : ℤ) : ℝ) ≤ ((2 * phases.length : ℤ) : ℝ) := by exact_mod_cast h4
    push_cast at h5 ⊢
    exact h5
  have hosc := integrand_osc hn phases lndfac lfac
  have hchi := chisqr_osc hn phases
  have m1 := (abs_nonneg _).trans (hosc 0 0)
  have m2 := (abs_nonneg _).trans (hchi 0 0)
  have key : ∀ G : List ℕ → ℝ, ∀ M : ℝ, (∀ a b : List ℕ, a.Perm b → G a = G b) → (∀ u v, |G (counts nb phases u) - G (counts nb phases v)| ≤ M) → (∀ u, |G (counts nb phases u)| ≤ M) →
      |nb * (h * ∑ i ∈ Finset.range n, (0.5 * G (counts nb phases ((i : ℕ) * h / twopi)) + 0.5 * G (counts nb phases ((i + 1 : ℕ) * h / twopi)))) - ∫ φ in (0 : ℝ)..twopi, G (counts nb phases (φ / twopi))| ≤
        (3 * phases.length / n + 1 / 2 ^ 24) * (twopi * M) := by
    intro G M hG hM hB
    have hI := integrable_counts (G := G) hM
    have M0 := (abs_nonneg _).trans (hM 0 0)
    have t := trap_sum hn hM hpos n
    have tail : |∫ φ in n * h..twopi / nb, G (counts nb phases (φ / twopi))| ≤ M * |twopi / nb - n * h| := by
      rw [← Real.norm_eq_abs]
      apply intervalIntegral.norm_integral_le_of_norm_le_const
      intro φ _
      exact hB _
    rw [sweep hn phases hG hM, ← mul_sub, abs_mul, abs_of_pos hn', ← intervalIntegral.integral_add_adjacent_intervals (hI 0 (n * h)) (hI _ _)]
    have hb1 : ((crossed nb phases (n * h) - crossed nb phases 0 : ℤ) : ℝ) * (M * h) ≤ 2 * phases.length * (M * h) :=
      mul_le_mul_of_nonneg_right hcr (by positivity)
    have hb2 : h ≤ 3 / 2 * h0 := by
      have : h0 / 2 ^ 24 ≤ 1 / 2 * h0 := by
        rw [div_le_iff₀ (by norm_num)]
        nlinarith
      linarith
    have hb3 : 2 * (phases.length : ℝ) * (M * h) ≤ 3 * phases.length * (M * h0) := by
      have : M * h ≤ M * (3 / 2 * h0) := mul_le_mul_of_nonneg_left hb2 M0
      have l0 : (0 : ℝ) ≤ phases.length := Nat.cast_nonneg _
      nlinarith
    have hb4 : M * |twopi / nb - n * h| ≤ M * (twopi / nb / 2 ^ 24) := mul_le_mul_of_nonneg_left hgap M0
    have tot : |h * ∑ i ∈ Finset.range n, (0.5 * G (counts nb phases ((i : ℕ) * h / twopi)) + 0.5 * G (counts nb phases ((i + 1 : ℕ) * h / twopi))) -
        ((∫ φ in (0 : ℝ)..n * h, G (counts nb phases (φ / twopi))) + ∫ φ in n * h..twopi / nb, G (counts nb phases (φ / twopi)))| ≤ 3 * phases.length * (M * h0) + M * (twopi / nb / 2 ^ 24) := by
      rw [abs_le] at *
      constructor <;> linarith [t.1, t.2, tail.1, tail.2]
    calc (nb : ℝ) * _ ≤ nb * (3 * phases.length * (M * h0) + M * (twopi / nb / 2 ^ 24)) := mul_le_mul_of_nonneg_left tot hn'.le
      _ = (3 * phases.length / n + 1 / 2 ^ 24) * (twopi * M) := by rw [hh0]; field_simp
  refine ⟨_, _, by rw [habs]; exact qlwTrap_spec hn hp lndfac lfac hpos h1, ?_, ?_⟩
  · have k := key (fun c => exp (plimult c - lndfac + lfac)) _ (fun a b h => by rw [plimult_perm h]) hosc
      (fun u => by rw [abs_of_pos (exp_pos _)]; exact integrand_top hn phases lndfac lfac u)
    have h2 := int_near hn phases lndfac lfac
    rw [show (3 / 10 ^ 10 : ℝ) = ε from rfl]
    refine (abs_sub_le _ (∫ φ in (0 : ℝ)..twopi, exp (plimult (counts nb phases (φ / twopi)) - lndfac + lfac)) _).trans ?_
    linarith
  · have k := key (chisqr phases.length) _ (fun a b h => chisqr_perm _ h) hchi
      (fun u => by rw [abs_of_nonneg (chisqr_bounds hn u).1]; exact (chisqr_bounds hn u).2)
    rw [chi_int hn] at k
    have e : ∀ x : ℝ, x / twopi - avgChi nb phases = (x - twopi * avgChi nb phases) / twopi := by
      intro x
      field_simp
    rw [e, abs_div, abs_of_pos tp, div_le_iff₀ tp]
    refine k.trans (le_of_eq ?_)
    ring

example : ∃ q c, qlwTrap 0 [1 / 8, 5 / 2, 9 / 4] 4 (binbounds 4) (trapAbsc id 11 4) 0 = .val (q, c) := by
  obtain ⟨q, c, h, -⟩ := C112_trap (nb := 4) (by norm_num) (phases := [1 / 8, 5 / 2, 9 / 4]) (by intro p hp; simp at hp; rcases hp with rfl | rfl | rfl <;> norm_num) 0 0 (rnd := id)
    (fun x => by simp only [id, sub_self, abs_zero]; positivity) (n := 10) (by norm_num)
  exact ⟨q, c, h⟩

/-! ## C113: the log likelihoods -/

/-- **C113** (multiplicity).  The log likelihood for frequency and phase is the log of the inverse multiplicity `Π nⱼ! / N!` of the counts. -/
theorem C113_limult (N : ℕ) (bins : List ℕ) : |limult N bins - log (facts bins / N.factorial)| ≤ (bins.length + 1) * (3 / 10 ^ 10) := by
  have h1 := plimult_near bins
  have h2 := factln_near N
  have e : limult N bins = plimult bins - factln N := by
    unfold limult
    rw [foldl_sum, plimult_eq]
    ring
  rw [e, log_div (Nat.cast_ne_zero.2 (facts_pos bins).ne') (Nat.cast_ne_zero.2 (Nat.factorial_pos N).ne'), show (3 / 10 ^ 10 : ℝ) = ε from rfl]
  rw [abs_le] at *
  constructor <;> linarith [h1.1, h1.2, h2.1, h2.2]

example : |limult 3 [1, 2] - log (2 / 6)| ≤ 3 * (3 / 10 ^ 10) := by
  have := C113_limult 3 [1, 2]
  norm_num [facts, Nat.factorial] at this ⊢
  exact this

/-- The log of the factor of Occam for `nb` bins and `N` events. -/
noncomputable def occam (nb N : ℕ) : ℝ := log ((nb - 1).factorial * nb ^ N * N.factorial / (N + nb - 1).factorial)

theorem occam_eq {nb : ℕ} (hn : 0 < nb) (N : ℕ) : occam nb N = log (nb - 1).factorial + N * log nb + log N.factorial - log (N + nb - 1).factorial := by
  unfold occam
  have a : ((nb - 1).factorial : ℝ) ≠ 0 := Nat.cast_ne_zero.2 (Nat.factorial_pos _).ne'
  have b : (N.factorial : ℝ) ≠ 0 := Nat.cast_ne_zero.2 (Nat.factorial_pos _).ne'
  have c : ((N + nb - 1).factorial : ℝ) ≠ 0 := Nat.cast_ne_zero.2 (Nat.factorial_pos _).ne'
  have d : (nb : ℝ) ^ N ≠ 0 := pow_ne_zero _ (Nat.cast_ne_zero.2 hn.ne')
  rw [log_div (mul_ne_zero (mul_ne_zero a d) b) c, log_mul (mul_ne_zero a d) b, log_mul a d, log_pow]

/-- A state of the saved variables that can be reached: by the first call (`curnb = curnd = -1`) or any later one. -/
def Saved.Good (s : Saved) : Prop := s.curnb < 0 ∨ ∃ nb N : ℕ, s.curnb = nb ∧ s.curnd = N ∧ s.curf = (factln (nb - 1) + N * log nb) - factln (N + nb - 1) + factln N

/-- **C113** (odds).  Whatever calls were made before, the log odds are those of the model against a constant rate, given the integral of the scaled inverse multiplicity; and the next call will find that too. -/
theorem C113_lodds {s : Saved} (hs : s.Good) {nb : ℕ} (hn : 0 < nb) (N : ℕ) (intimult lfac : ℝ) :
    |(lodds s nb N intimult lfac).2 - (occam nb N + log (intimult / twopi) - lfac)| ≤ 3 * (3 / 10 ^ 10) ∧ (lodds s nb N intimult lfac).1.Good := by
  have key : (lodds s nb N intimult lfac).1.curf = (factln (nb - 1) + N * log nb) - factln (N + nb - 1) + factln N ∧ (lodds s nb N intimult lfac).1.curnb = nb ∧ (lodds s nb N intimult lfac).1.curnd = N := by
    unfold lodds
    simp only
    split_ifs with h
    · exact ⟨rfl, rfl, rfl⟩
    · push Not at h
      rcases hs with hs | ⟨nb', N', h1, h2, h3⟩
      · omega
      · obtain rfl : nb' = nb := by omega
        obtain rfl : N' = N := by omega
        exact ⟨h3, h1, h2⟩
  constructor
  · have e : (lodds s nb N intimult lfac).2 = (lodds s nb N intimult lfac).1.curf + log (intimult / twopi) - lfac := rfl
    rw [e, key.1, occam_eq hn, show (3 / 10 ^ 10 : ℝ) = ε from rfl]
    have h1 := factln_near (nb - 1)
    have h2 := factln_near N
    have h3 := factln_near (N + nb - 1)
    rw [abs_le] at *
    constructor <;> linarith [h1.1, h1.2, h2.1, h2.2, h3.1, h3.2]
  · exact .inr ⟨nb, N, key.2.1, key.2.2, key.1⟩

/-- The first call. -/
example (x : ℝ) : Saved.Good { curf := x } := .inl (by norm_num)

example (x : ℝ) : |(lodds { curf := x } 4 10 1 0).2 - (occam 4 10 + log (1 / twopi) - 0)| ≤ 3 * (3 / 10 ^ 10) := (C113_lodds (.inl (by norm_num)) (by norm_num) 10 1 0).1

/-- **C113, violated** (bins).  The log likelihood for frequency, phase and bins should be `occam` plus the log of the inverse multiplicity, so that with one bin it is zero: the model is that of a constant rate.  It adds `N · nb` in place of `N · log nb`, and for one bin is at least `N` minus the error of the log factorials. -/
theorem C113_violated_bins (N : ℕ) : occam 1 N + log (facts [N] / N.factorial) = 0 ∧ N - 5 * (3 / 10 ^ 10) ≤ llWpb N [N] := by
  constructor
  · have hN : (N.factorial : ℝ) ≠ 0 := Nat.cast_ne_zero.2 (Nat.factorial_pos N).ne'
    rw [occam_eq (by norm_num)]
    simp [facts, hN]
  · have h1 := C113_limult N [N]
    have h2 := factln_near 0
    have h4 := factln_near N
    have hN : (N.factorial : ℝ) ≠ 0 := Nat.cast_ne_zero.2 (Nat.factorial_pos N).ne'
    unfold llWpb
    simp only [facts, List.map_cons, List.map_nil, List.prod_cons, List.prod_nil, mul_one, div_self hN, log_one, List.length_cons, List.length_nil, zero_add, Nat.factorial_zero, Nat.cast_one, sub_zero, Nat.sub_self, add_zero] at h1 h2 ⊢
    rw [show (3 / 10 ^ 10 : ℝ) = ε from rfl] at *
    rw [abs_le] at *
    linarith [h1.1, h2.1, h4.1, h4.2]

end Verif.Point
