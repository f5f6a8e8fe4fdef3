import Verif.Signals.PhaseCurve
import Verif.Signals.KeplerProps

/-!
# C207: velocity curves and data folded at the period
-/

set_option linter.unusedSectionVars false

namespace Verif.Signals.Kepler

open Real

/-! ## Specification -/

/-- The radial velocity with the three amplitudes at eccentric anomaly E. -/
noncomputable def ampVelocity (amps : ℝ × ℝ × ℝ) (e E : ℝ) : ℝ := amps.1 + amps.2.1 * (e + cosTA e E) + amps.2.2 * sinTA e E

/-- `p` is the phase of time `t`: whole periods off it, in the interval from 0 to 1. -/
def IsPhase (tau t p : ℝ) : Prop := 0 ≤ p ∧ p < 1 ∧ ∃ k : ℤ, t = (k + p) * tau

/-! ## Helpers -/

theorem newton_at_root (e f err : ℝ) (n : ℕ) (lo hi : ℝ) (h : f - e * sin f - f = 0) (h1 : lo ≤ f) : newton e f err (n + 1) f lo hi = some f := by
  rw [newton]
  simp only [h, lt_irrefl, if_false, neg_zero, zero_div, add_zero, gt_iff_lt, or_false, not_lt.2 h1, or_true, if_true]

theorem written_near (x : ℝ) : |written x - x| ≤ 1 / 20000 := by
  have := abs_sub_round (10000 * x)
  unfold written
  rw [abs_sub_comm, show x - (round (10000 * x) : ℝ) / 10000 = (10000 * x - round (10000 * x)) / 10000 by ring, abs_div, abs_of_pos (show (0 : ℝ) < 10000 by norm_num)]
  linarith

theorem foldPhase_spec {tau : ℝ} (ht : tau ≠ 0) (t : ℝ) : IsPhase tau t (foldPhase tau t) := by
  have e : foldPhase tau t = t / tau - ⌊t / tau⌋ := by unfold foldPhase; field_simp
  rw [e]
  refine ⟨by linarith [Int.floor_le (t / tau)], by linarith [Int.lt_floor_add_one (t / tau)], ⌊t / tau⌋, ?_⟩
  rw [add_sub_cancel]
  field_simp

/-- Times whole periods apart have the same phase for the solver, or opposite ends of the turn. -/
theorem phase_turn (g : Glob) (hg : g.tau ≠ 0) (t : ℝ) (k : ℤ) : g.phase (t + k * g.tau) = g.phase t ∨ (|g.phase (t + k * g.tau)| = π ∧ |g.phase t| = π) := by
  obtain ⟨a, ha⟩ := phase_eq g t
  obtain ⟨b, hb⟩ := phase_eq g (t + k * g.tau)
  have hm : mean g.tau g.Tp (t + k * g.tau) = mean g.tau g.Tp t + 2 * π * k := by unfold mean; field_simp; ring
  rw [hm] at hb
  obtain ⟨l1, u1⟩ := phase_mem g t
  obtain ⟨l2, u2⟩ := phase_mem g (t + k * g.tau)
  have hp := pi_pos
  have hd : g.phase (t + k * g.tau) - g.phase t = 2 * π * ((k + a - b : ℤ) : ℝ) := by rw [ha, hb]; push_cast; ring
  have h1 : ((k + a - b : ℤ) : ℝ) ≤ 1 := by
    by_contra hc; push Not at hc
    nlinarith
  have h2 : (-1 : ℝ) ≤ ((k + a - b : ℤ) : ℝ) := by
    by_contra hc; push Not at hc
    nlinarith
  have h1' : k + a - b ≤ 1 := by exact_mod_cast h1
  have h2' : -1 ≤ k + a - b := by exact_mod_cast h2
  obtain h | h | h : k + a - b = 0 ∨ k + a - b = 1 ∨ k + a - b = -1 := by omega
  · rw [h] at hd; left; push_cast at hd; linarith
  · rw [h] at hd; right
    push_cast at hd
    rw [show g.phase (t + k * g.tau) = π by linarith, show g.phase t = -π by linarith, abs_neg, abs_of_pos hp]
    exact ⟨rfl, rfl⟩
  · rw [h] at hd; right
    push_cast at hd
    rw [show g.phase (t + k * g.tau) = -π by linarith, show g.phase t = π by linarith, abs_neg, abs_of_pos hp]
    exact ⟨rfl, rfl⟩

theorem rowTA_apo {g : Glob} {t : ℝ} (h : |g.phase t| = π) : g.rowTA t = (-1, 0) := by
  have hp := pi_pos
  have hsin : sin (g.phase t) = 0 := by
    rcases (abs_eq hp.le).1 h with h | h <;> rw [h]
    · exact sin_pi
    · rw [sin_neg, sin_pi, neg_zero]
  unfold Glob.rowTA
  rw [newton_at_root g.e (g.phase t) g.err 19 (-π) π (by rw [hsin]; ring) (phase_mem g t).1]
  simp only
  unfold trueAnom
  rw [if_neg (by intro hc; rw [hc, abs_zero] at h; linarith), if_pos h]

theorem rowTA_periodic (g : Glob) (hg : g.tau ≠ 0) (t : ℝ) (k : ℤ) : g.rowTA (t + k * g.tau) = g.rowTA t := by
  rcases phase_turn g hg t k with h | ⟨h1, h2⟩
  · unfold Glob.rowTA; rw [h]
  · rw [rowTA_apo h1, rowTA_apo h2]

theorem vel_periodic (g : Glob) {tau : ℝ} (ht : tau ≠ 0) (e T0 : ℝ) (amps : ℝ × ℝ × ℝ) (t : ℝ) (k : ℤ) : g.vel tau e T0 amps (t + k * tau) = g.vel tau e T0 amps t := by
  unfold Glob.vel
  rw [show t + (k : ℝ) * tau = t + k * (g.setupTp tau e T0).tau from rfl, rowTA_periodic (g.setupTp tau e T0) ht t k]

theorem solve0_phase {e f err r : ℝ} (h0 : 0 ≤ e) (h1 : e < 1) (hf : -π ≤ f ∧ f ≤ π) (h : newton e f err 20 f (-π) π = some r) :
    ∃ R, Solves e f R ∧ |r - R| ≤ 2 * max err 0 ∧ -π ≤ r ∧ r ≤ π := by
  have hp := pi_pos
  rcases le_total 0 f with hf0 | hf0
  · obtain ⟨R, hR⟩ := kep_exists h0 h1 f
    obtain ⟨r0, r1⟩ := root_mem h0 h1 hf0 hf.2 hR
    obtain ⟨a, b, c⟩ := newton_near h0 h1 hR r0 err 20 (by linarith) hf.2 (by linarith) r1 hf0 le_rfl h
    exact ⟨R, hR, a, by linarith, c⟩
  · obtain ⟨R, hR⟩ := kep_exists h0 h1 (-f)
    obtain ⟨r0, r1⟩ := root_mem h0 h1 (by linarith) (by linarith [hf.1]) hR
    have hn := newton_neg e (-f) err 20 (EA := -f) (lo := -π) (hi := π) (by linarith) (by linarith [hf.1])
    rw [neg_neg, neg_neg] at hn
    rw [hn] at h
    rcases hs : newton e (-f) err 20 (-f) (-π) π with _ | r'
    · rw [hs] at h; cases h
    rw [hs] at h
    have hr : -r' = r := Option.some.inj h
    obtain ⟨a, b, c⟩ := newton_near h0 h1 hR r0 err 20 (by linarith) (by linarith [hf.1]) (by linarith) r1 (by linarith) le_rfl hs
    refine ⟨-R, ?_, ?_, by linarith, by linarith⟩
    · unfold Solves at *; rw [sin_neg]; linarith
    · rw [← hr, ← abs_neg]
      convert a using 2
      ring

theorem conv0_phase {e f err : ℝ} (h0 : 0 ≤ e) (h1 : e < 1) (hf : -π ≤ f ∧ f ≤ π) (hF : Fin' (e / (2 * (1 - e))) err 18 (44 / 21))
    (hF' : Fin' (e / (2 * (1 - e))) err 19 (22 / 7)) : (newton e f err 20 f (-π) π).isSome := by
  have hp := pi_pos
  rcases le_total 0 f with hf0 | hf0
  · obtain ⟨R, hR⟩ := kep_exists h0 h1 f
    obtain ⟨r0, r1⟩ := root_mem h0 h1 hf0 hf.2 hR
    exact newton_conv h0 h1 hR r0 r1 le_rfl hf.2 hf0 hF hF'
  · obtain ⟨R, hR⟩ := kep_exists h0 h1 (-f)
    obtain ⟨r0, r1⟩ := root_mem h0 h1 (by linarith) (by linarith [hf.1]) hR
    have hn := newton_neg e (-f) err 20 (EA := -f) (lo := -π) (hi := π) (by linarith) (by linarith [hf.1])
    rw [neg_neg, neg_neg] at hn
    rw [hn, Option.isSome_map]
    exact newton_conv h0 h1 hR r0 r1 le_rfl (by linarith [hf.1]) (by linarith) hF hF'

/-! ## The property -/

/-- **C207** (velocities, partial).  For eccentricities up to 0.98 with a tolerance of 1e-8 or more, or up to 0.99 with one of 1e-5 or more (kepler_vec.py sets 1e-3), the velocity at any time is that of the orbit,
up to twice the tolerance times the amplitudes and a factor for the eccentricity.  Missing: eccentricities over 0.99. -/
theorem C207_velocity_partial (g : Glob) {tau e : ℝ} (T0 : ℝ) (amps : ℝ × ℝ × ℝ) (h0 : 0 ≤ e) (h : (e ≤ 98 / 100 ∧ 1 / 10 ^ 8 ≤ g.err) ∨ (e ≤ 99 / 100 ∧ 1 / 10 ^ 5 ≤ g.err)) (t : ℝ) :
    ∃ E, Solves e (mean tau T0 t) E ∧ |g.vel tau e T0 amps t - ampVelocity amps e E| ≤ (|amps.2.1| + |amps.2.2|) * √((1 + e) / (1 - e)) * (2 * g.err) := by
  have h1 : e < 1 := by rcases h with h | h <;> linarith [h.1]
  have herr : max g.err 0 = g.err := max_eq_left (by rcases h with h | h <;> linarith [h.2, show (0 : ℝ) ≤ 1 / 10 ^ 8 by norm_num, show (0 : ℝ) ≤ 1 / 10 ^ 5 by norm_num])
  obtain ⟨G, hG⟩ : ∃ G, G = g.setupTp tau e T0 := ⟨_, rfl⟩
  have ge : G.e = e := by rw [hG]; rfl
  have gerr : G.err = g.err := by rw [hG]; rfl
  have gt : G.tau = tau := by rw [hG]; rfl
  have gT : G.Tp = T0 := by rw [hG]; rfl
  have hs : (newton G.e (G.phase t) G.err 20 (G.phase t) (-π) π).isSome := by
    rw [ge, gerr]
    rcases h with ⟨h2, h3⟩ | ⟨h2, h3⟩
    · obtain ⟨a, b⟩ := fin_98 (by linarith) h0 h3
      exact conv0_phase h0 h1 (phase_mem G t) a b
    · obtain ⟨a, b⟩ := fin_99 (by linarith) h0 h3
      exact conv0_phase h0 h1 (phase_mem G t) a b
  obtain ⟨r, hr⟩ := Option.isSome_iff_exists.1 hs
  obtain ⟨k, hk⟩ := phase_eq G t
  obtain ⟨R, a1, a2, a3⟩ := solve0_phase (by rw [ge]; exact h0) (by rw [ge]; exact h1) (phase_mem G t) hr
  rw [hk, ge, gt, gT] at a1
  rw [gerr, herr] at a2
  have hrow : G.rowTA t = (cosTA e r, sinTA e r) := by
    unfold Glob.rowTA
    rw [hr]
    simp only
    rw [ge, trueAnom_eq h0 h1 a3]
  obtain ⟨l1, l2⟩ := TA_lipschitz h0 h1 r R
  have hRk : R = (R + 2 * π * k) - 2 * π * k := by ring
  obtain ⟨t1, t2⟩ := cosTA_turn e (R + 2 * π * k) k
  rw [← hRk] at t1 t2
  refine ⟨R + 2 * π * k, a1.turn, ?_⟩
  unfold Glob.vel ampVelocity
  rw [← hG, hrow, ← t1, ← t2]
  dsimp only
  rw [show amps.1 * 1 + amps.2.1 * (e + cosTA e r) + amps.2.2 * sinTA e r - (amps.1 + amps.2.1 * (e + cosTA e R) + amps.2.2 * sinTA e R) = amps.2.1 * (cosTA e r - cosTA e R) + amps.2.2 * (sinTA e r - sinTA e R) by ring]
  refine (abs_add_le _ _).trans ?_
  rw [abs_mul, abs_mul]
  have l1' := l1.trans (mul_le_mul_of_nonneg_left a2 (sqrt_nonneg _))
  have l2' := l2.trans (mul_le_mul_of_nonneg_left a2 (sqrt_nonneg _))
  have m1 := mul_le_mul_of_nonneg_left l1' (abs_nonneg amps.2.1)
  have m2 := mul_le_mul_of_nonneg_left l2' (abs_nonneg amps.2.2)
  linarith

variable {g : Glob} {tau e T0 : ℝ} {amps : ℝ × ℝ × ℝ} {data : List (ℝ × ℝ)} {col : Option (List ℝ)} {n : ℕ} {sigma : Option ℝ} {out : PhaseOut}

/-- **C207** (the curve).  The curve has n points, at equally spaced phases from -1/2 to 3/2, and the velocity at each is the one at the time that many periods after time 0. -/
theorem C207_curve (h : phaseCurve g tau e T0 amps data col n sigma = .ok out) :
    out.curve.length = n ∧ (∀ i, i < n → out.curve[i]? = some (written (-(1 / 2) + 2 * i / ((n : ℝ) - 1)), written (g.vel tau e T0 amps (tau * (-(1 / 2) + 2 * i / ((n : ℝ) - 1)))))) ∧
    (2 ≤ n → (∃ v : ℝ, out.curve[0]? = some (-(1 / 2 : ℝ), v)) ∧ ∃ v : ℝ, out.curve[n - 1]? = some ((3 / 2 : ℝ), v)) := by
  unfold phaseCurve at h
  split_ifs at h with hn
  push Not at hn
  have hc : out.curve = ((List.range n).map fun i : ℕ => -(1 / 2 : ℝ) + (i : ℝ) * (2 / ((n : ℝ) - 1))).map fun p => (written p, written (g.vel tau e T0 amps (tau * p))) := by
    dsimp only at h
    split at h
    · cases h
    · split_ifs at h
      have := Except.ok.inj h
      rw [← this]
  have key : ∀ i, i < n → out.curve[i]? = some (written (-(1 / 2) + 2 * i / ((n : ℝ) - 1)), written (g.vel tau e T0 amps (tau * (-(1 / 2) + 2 * i / ((n : ℝ) - 1))))) := by
    intro i hi
    rw [hc]
    simp only [List.map_map, List.getElem?_map, List.getElem?_range hi, Option.map_some, Function.comp]
    rw [show (i : ℝ) * (2 / ((n : ℝ) - 1)) = 2 * i / ((n : ℝ) - 1) by ring]
  have w0 : written (-(1 / 2)) = -(1 / 2) := by
    unfold written
    rw [show (10000 : ℝ) * -(1 / 2) = ((-5000 : ℤ) : ℝ) by norm_num, round_intCast]
    norm_num
  have w1 : written (3 / 2) = 3 / 2 := by
    unfold written
    rw [show (10000 : ℝ) * (3 / 2) = ((15000 : ℤ) : ℝ) by norm_num, round_intCast]
    norm_num
  refine ⟨by rw [hc]; simp, key, fun h2 => ⟨?_, ?_⟩⟩
  · rw [key 0 (by omega)]
    rw [show -(1 / 2 : ℝ) + 2 * ((0 : ℕ) : ℝ) / ((n : ℝ) - 1) = -(1 / 2) by simp, w0]
    exact ⟨_, rfl⟩
  · rw [key (n - 1) (by omega)]
    have hn1 : ((n - 1 : ℕ) : ℝ) = (n : ℝ) - 1 := by rw [Nat.cast_sub (by omega)]; simp
    have hn2 : (n : ℝ) - 1 ≠ 0 := by rw [← hn1]; exact_mod_cast (by omega : n - 1 ≠ 0)
    rw [hn1, mul_div_assoc, div_self hn2]
    rw [show -(1 / 2 : ℝ) + 2 * 1 = 3 / 2 by norm_num, w1]
    exact ⟨_, rfl⟩

/-- **C207** (the data, partial).  Each datum is written at its phase, up to the rounding, and the curve at that phase has the velocity that the datum is compared with.
Missing: that the phase written is below 1 (`C207_violated_phase`). -/
theorem C207_data_partial (h : phaseCurve g tau e T0 amps data col n sigma = .ok out) {i : ℕ} {l : ℝ × ℝ × ℝ} (hl : out.data[i]? = some l) :
    ∃ t v p, data[i]? = some (t, v) ∧ IsPhase tau t p ∧ |l.1 - p| ≤ 1 / 20000 ∧ 0 ≤ l.1 ∧ l.1 ≤ 1 ∧ |l.2.1 - v| ≤ 1 / 20000 ∧ g.vel tau e T0 amps t = g.vel tau e T0 amps (tau * p) := by
  unfold phaseCurve at h
  split_ifs at h with hn
  push Not at hn
  dsimp only at h
  split at h
  · cases h
  · rename_i sigs _
    split_ifs at h
    rw [← Except.ok.inj h] at hl
    dsimp only at hl
    rw [List.getElem?_zipWith_eq_some] at hl
    obtain ⟨d, s, hd, hs, rfl⟩ := hl
    have hp := foldPhase_spec hn.2 d.1
    refine ⟨d.1, d.2, foldPhase tau d.1, hd, hp, written_near _, ?_, ?_, written_near _, ?_⟩
    · unfold written
      apply div_nonneg _ (by norm_num)
      have : (0 : ℤ) ≤ round (10000 * foldPhase tau d.1) := by
        rw [round_eq]
        apply Int.floor_nonneg.2
        linarith [hp.1]
      exact_mod_cast this
    · unfold written
      rw [div_le_one (by norm_num)]
      have : round (10000 * foldPhase tau d.1) ≤ 10000 := by
        rw [round_eq]
        apply Int.le_of_lt_add_one
        rw [Int.floor_lt]
        push_cast
        linarith [hp.2.1]
      exact_mod_cast this
    · obtain ⟨k, hk⟩ := hp.2.2
      have := vel_periodic g hn.2 e T0 amps (tau * foldPhase tau d.1) k
      rw [← this, show tau * foldPhase tau d.1 + k * tau = (k + foldPhase tau d.1) * tau by ring, ← hk]

/-- **C207** (chi-squared).  What is returned is the sum of the squares of the residuals over the standard deviations: the one given, or without one those of the third column.
It is never negative, and zero exactly if the curve goes through all data. -/
theorem C207_chisq (h : phaseCurve g tau e T0 amps data col n sigma = .ok out) (hcol : ∀ l, col = some l → l.length = data.length) :
    ∃ sigs : List ℝ, sigs.length = data.length ∧ (∀ s, sigma = some s → s ≠ 0 → ∀ x ∈ sigs, x = s) ∧ (sigma = none ∨ sigma = some 0 → col = some sigs) ∧
      out.chisq = ((data.zip sigs).map fun x => ((x.1.2 - g.vel tau e T0 amps x.1.1) / x.2) ^ 2).sum ∧ 0 ≤ out.chisq ∧ (out.chisq = 0 ↔ ∀ d ∈ data, d.2 = g.vel tau e T0 amps d.1) := by
  unfold phaseCurve at h
  split_ifs at h with hn
  push Not at hn
  dsimp only at h
  split at h
  · cases h
  · rename_i sigs hsig
    split_ifs at h with hz
    have ho := Except.ok.inj h
    have e1 : out.chisq = ((data.zip sigs).map fun x => ((x.1.2 - g.vel tau e T0 amps x.1.1) / x.2) ^ 2).sum := by
      rw [← ho]
      simp only [List.zip, List.map_zipWith, pow_two]
    have hS : sigs.length = data.length ∧ (∀ s, sigma = some s → s ≠ 0 → ∀ x ∈ sigs, x = s) ∧ (sigma = none ∨ sigma = some 0 → col = some sigs) := by
      clear h ho e1
      rcases sigma with _ | s
      · rcases col with _ | l
        · cases hsig
        · have := Except.ok.inj hsig
          subst this
          exact ⟨hcol _ rfl, by simp, fun _ => rfl⟩
      · simp only at hsig
        split_ifs at hsig with hs
        · have := Except.ok.inj hsig
          subst this
          refine ⟨by simp, ?_, ?_⟩
          · intro s' h1 _ x hx
            rw [List.mem_map] at hx
            obtain ⟨_, _, rfl⟩ := hx
            exact Option.some.inj h1
          · rintro (h1 | h1)
            · cases h1
            · exact absurd (Option.some.inj h1) hs
        · rcases col with _ | l
          · cases hsig
          · have := Except.ok.inj hsig
            subst this
            refine ⟨hcol _ rfl, ?_, fun _ => rfl⟩
            intro s' h1 h2
            rw [← Option.some.inj h1] at h2
            exact absurd h2 hs
    have hnn : ∀ y ∈ (data.zip sigs).map fun x => ((x.1.2 - g.vel tau e T0 amps x.1.1) / x.2) ^ 2, 0 ≤ y := by
      intro y hy
      rw [List.mem_map] at hy
      obtain ⟨_, _, rfl⟩ := hy
      positivity
    refine ⟨sigs, hS.1, hS.2.1, hS.2.2, e1, e1 ▸ List.sum_nonneg hnn, ?_⟩
    rw [e1]
    constructor
    · intro h0 d hd
      obtain ⟨i, hi, rfl⟩ := List.getElem_of_mem hd
      have hm : (data[i], sigs[i]'(by omega)) ∈ data.zip sigs := by
        rw [List.mem_iff_getElem]
        exact ⟨i, by simp; omega, by simp⟩
      have := List.all_zero_of_le_zero_le_of_sum_eq_zero hnn h0 (List.mem_map_of_mem hm)
      have hne : sigs[i]'(by omega) ≠ 0 := fun hc => hz (hc ▸ List.getElem_mem _)
      rw [sq_eq_zero_iff, div_eq_zero_iff, or_iff_left hne] at this
      linarith
    · intro h0
      apply List.sum_eq_zero
      intro y hy
      rw [List.mem_map] at hy
      obtain ⟨x, hx, rfl⟩ := hy
      rw [h0 x.1 (List.of_mem_zip hx).1]
      simp

/-- **C207 fails**: the phase 0.99999 is written as 1. -/
theorem C207_violated_phase (g : Glob) (e T0 : ℝ) (amps : ℝ × ℝ × ℝ) (v : ℝ) (n : ℕ) (hn : n ≠ 1) :
    ∃ out, phaseCurve g 1 e T0 amps [(99999 / 100000, v)] none n (some 1) = .ok out ∧ ∃ r, out.data = [(1, r)] := by
  unfold phaseCurve
  rw [if_neg (by simp [hn])]
  simp only [ne_eq, one_ne_zero, not_false_eq_true, if_true, List.map_cons, List.map_nil, List.mem_singleton, zero_ne_one, if_false, List.zipWith_cons_cons, List.zipWith_nil_left]
  refine ⟨_, rfl, (written v, written 1), ?_⟩
  have h1 : foldPhase 1 (99999 / 100000) = 99999 / 100000 := by
    unfold foldPhase
    rw [show ⌊(99999 / 100000 : ℝ) / 1⌋ = 0 by rw [Int.floor_eq_zero_iff]; constructor <;> norm_num]
    norm_num
  have h2 : written (99999 / 100000) = 1 := by
    unfold written
    rw [show round ((10000 : ℝ) * (99999 / 100000)) = 10000 by rw [round_eq, Int.floor_eq_iff]; constructor <;> norm_num]
    norm_num
  rw [h1, h2]

/-- **C207 fails** for a curve of one point: `ZeroDivisionError`. -/
theorem C207_violated_one (g : Glob) (tau e T0 : ℝ) (amps : ℝ × ℝ × ℝ) (data : List (ℝ × ℝ)) (col : Option (List ℝ)) (sigma : Option ℝ) : phaseCurve g tau e T0 amps data col 1 sigma = .error .zeroDiv := by
  simp [phaseCurve]

/-- Non-vacuity: the call at the end of kepler_vec.py goes through, and its orbit is one of those for which the velocities are right. -/
example (data : List (ℝ × ℝ)) : (∃ out, phaseCurve { err := 1 / 10 ^ 3 } (171 / 10) (3 / 5) (75 / 2) (15, 3, -9) data none 200 (some 5) = .ok out) ∧ ((3 / 5 : ℝ) ≤ 98 / 100 ∧ (1 / 10 ^ 8 : ℝ) ≤ 1 / 10 ^ 3) := by
  refine ⟨?_, by norm_num, by norm_num⟩
  unfold phaseCurve
  rw [if_neg (by norm_num)]
  simp only [ne_eq, OfNat.ofNat_ne_zero, not_false_eq_true, if_true, List.mem_map, and_false, exists_false, if_false]
  exact ⟨_, rfl⟩

end Verif.Signals.Kepler
