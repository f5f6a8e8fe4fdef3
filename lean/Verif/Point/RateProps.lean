import Verif.Point.PeriodicProps

/-!
# C115: rate estimates of the periodic model

Specification: the rate, relative to its average, in the bin with `n` of `N` events is `nb (n + 1) / (N + nb)`; the estimate at a phase is the average of this over the unknown phase of the bins, weighted by the likelihood.  With a single bin it is one for all data.
-/

set_option linter.unusedSectionVars false

namespace Verif.Point

open Real

/-- The phases of the estimate are binned like the events. -/
theorem trunc_fmod {nb : ℕ} {x : ℝ} (hx : 0 ≤ x) : trunc (1 + nb * fmod x twopi / twopi) - 1 = binOf nb (x / twopi) := by
  have tp := twopi_pos
  have e1 : fmod x twopi = twopi * Int.fract (x / twopi) := by
    unfold fmod trunc
    rw [if_pos (by positivity), ← Int.self_sub_floor]
    field_simp
  have e2 : (nb : ℝ) * fmod x twopi / twopi = nb * Int.fract (x / twopi) := by
    rw [e1]
    field_simp
  have h0 := Int.fract_nonneg (x / twopi)
  have e3 : trunc (1 + nb * Int.fract (x / twopi)) = ⌊1 + nb * Int.fract (x / twopi)⌋ := if_pos (by positivity)
  rw [e2, binOf_cast, e3, add_comm (1 : ℝ), Int.floor_add_one]
  ring

/-- The largest rate. -/
noncomputable def rateTop (nb N : ℕ) : ℝ := nb * (N + 1) / (N + nb)

theorem counts_le {nb : ℕ} (phases : List ℝ) (u : ℝ) (j : ℕ) : (counts nb phases u).getD j 0 ≤ phases.length := by
  unfold counts
  rw [List.getD_eq_getElem?_getD, List.getElem?_map]
  by_cases hj : j < nb
  · rw [List.getElem?_range hj]
    exact List.countP_le_length
  · rw [List.getElem?_eq_none (by simpa using hj)]
    simp

theorem rateOne_spec {nb : ℕ} (hn : 0 < nb) (phases : List ℝ) {arg phi dphi rp nrm u : ℝ} {s : ℝ × ℝ} (h0 : 0 ≤ phi) (h1 : phi ≤ twopi / nb) (hd : 0 ≤ dphi) (ha : 0 < arg) (hr : 0 ≤ rp)
    (hs0 : 0 ≤ s.1) (hs1 : s.1 ≤ rateTop nb phases.length * nrm) :
    ∃ t, rateOne phases.length nb (counts nb phases u) arg phi dphi rp s = .val t ∧ 0 ≤ t.1 ∧ t.1 ≤ rateTop nb phases.length * (nrm + arg * dphi) := by
  have hn' : (0 : ℝ) < nb := Nat.cast_pos.2 hn
  have hlt := binOf_lt hn ((rp + phi) / twopi)
  have hc : (((counts nb phases u).getD (binOf nb ((rp + phi) / twopi)) 0 : ℕ) : ℝ) ≤ phases.length := by exact_mod_cast counts_le phases u _
  have hrc : (nb : ℝ) * (((counts nb phases u).getD (binOf nb ((rp + phi) / twopi)) 0 : ℕ) + 1) / (phases.length + nb) ≤ rateTop nb phases.length := by
    unfold rateTop
    gcongr
  have hrc0 : (0 : ℝ) ≤ (nb : ℝ) * (((counts nb phases u).getD (binOf nb ((rp + phi) / twopi)) 0 : ℕ) + 1) / (phases.length + nb) := by positivity
  unfold rateOne
  simp only [trunc_fmod (add_nonneg hr h0)]
  rw [if_pos ⟨by omega, by omega⟩]
  simp only [Int.toNat_natCast]
  split_ifs with h
  · refine ⟨_, rfl, ?_, ?_⟩
    · simp only
      positivity
    · simp only
      have := mul_le_mul_of_nonneg_right hrc (mul_nonneg ha.le hd)
      nlinarith
  · push Not at h
    have hdel : 0 ≤ twopi / nb - phi := by linarith
    refine ⟨_, rfl, ?_, ?_⟩
    · simp only
      positivity
    · simp only
      have h2 := mul_le_mul_of_nonneg_right hrc (mul_nonneg ha.le hdel)
      have h3 : rateTop nb phases.length * (arg * (twopi / nb - phi)) ≤ rateTop nb phases.length * (arg * dphi) := by
        apply mul_le_mul_of_nonneg_left _ (hrc0.trans hrc)
        apply mul_le_mul_of_nonneg_left _ ha.le
        linarith
      nlinarith

/-- What is known of the sums. -/
def RateOk (B nrm : ℝ) (s : List (ℝ × ℝ)) : Prop := ∀ x ∈ s, 0 ≤ x.1 ∧ x.1 ≤ B * nrm

theorem rateAll_spec {nb : ℕ} (hn : 0 < nb) (phases : List ℝ) {arg phi dphi nrm u : ℝ} (h0 : 0 ≤ phi) (h1 : phi ≤ twopi / nb) (hd : 0 ≤ dphi) (ha : 0 < arg) (rps : List ℝ) (hr : ∀ r ∈ rps, 0 ≤ r)
    (ss : List (ℝ × ℝ)) (hl : ss.length = rps.length) (hs : RateOk (rateTop nb phases.length) nrm ss) :
    ∃ ts, rateAll phases.length nb (counts nb phases u) arg phi dphi rps ss = .val ts ∧ ts.length = rps.length ∧ RateOk (rateTop nb phases.length) (nrm + arg * dphi) ts := by
  induction rps generalizing ss with
  | nil => exact ⟨[], rfl, rfl, by simp [RateOk]⟩
  | cons r rps ih =>
    match ss, hl with
    | s :: ss, hl =>
      obtain ⟨a, b⟩ := hs s (List.mem_cons_self ..)
      obtain ⟨t, e1, e2, e3⟩ := rateOne_spec hn phases (u := u) h0 h1 hd ha (hr r (List.mem_cons_self ..)) a b
      obtain ⟨ts, f1, f2, f3⟩ := ih (fun x hx => hr x (List.mem_cons_of_mem _ hx)) ss (by simpa using hl) (fun x hx => hs x (List.mem_cons_of_mem _ hx))
      refine ⟨t :: ts, by simp [rateAll, e1, f1, Out.bind], by simp [f2], ?_⟩
      intro x hx
      rcases List.mem_cons.1 hx with rfl | hx
      · exact ⟨e2, e3⟩
      · exact f3 x hx

theorem rateLoop_spec {nb : ℕ} (hn : 0 < nb) {phases : List ℝ} (hp : ∀ p ∈ phases, 0 ≤ p) (lndfac lfac : ℝ) {rps : List ℝ} (hr : ∀ r ∈ rps, 0 ≤ r)
    (fuel : ℕ) (phi nrm : ℝ) (h0 : 0 ≤ phi) (h1 : phi ≤ twopi / nb) (hnrm : 0 ≤ nrm) (s : List (ℝ × ℝ)) (hl : s.length = rps.length) (hs : RateOk (rateTop nb phases.length) nrm s) (hf : pending nb phases phi < fuel) :
    ∃ nrm' t, rateLoop lndfac phases nb (binbounds nb) lfac rps fuel phi nrm s = .val (nrm', t) ∧ 0 < nrm' ∧ t.length = rps.length ∧ RateOk (rateTop nb phases.length) nrm' t := by
  have tp := twopi_pos
  have hn' : (0 : ℝ) < nb := Nat.cast_pos.2 hn
  have hex := excess_nonneg nb
  induction fuel generalizing phi nrm s with
  | zero => omega
  | succ fuel ih =>
    obtain ⟨d, e1, e2, e3, e4⟩ := fbindata_spec hn hp h0
    have hd0 : 0 < d := by
      rcases e4 with h | ⟨p, _, h⟩
      · rw [h]; positivity
      · rw [h]; exact dist_pos hn _
    have hst : twopi * (d + nb * tiny) = twopi * d + excess nb := by unfold excess; ring
    have hpos : 0 < twopi * (d + nb * tiny) := by rw [hst]; positivity
    have ha := exp_pos (plimult (counts nb phases (phi / twopi)) - lndfac + lfac)
    obtain ⟨ts, f1, f2, f3⟩ := rateAll_spec hn phases (u := phi / twopi) h0 h1 hpos.le ha rps hr s hl hs
    unfold rateLoop
    rw [e1]
    simp only [Out.bind]
    rw [f1]
    simp only
    have hnn : 0 < nrm + exp (plimult (counts nb phases (phi / twopi)) - lndfac + lfac) * (twopi * (d + nb * tiny)) := by positivity
    split_ifs with hlt
    · have hpend : pending nb phases (phi + twopi * (d + nb * tiny)) < pending nb phases phi := by
        rw [hst] at hlt
        rcases e4 with h | ⟨p, hpm, h⟩
        · rw [h] at hlt
          have : twopi * (1 / nb) = twopi / nb := by ring
          linarith
        · rw [dist_next hn] at h
          have e : next nb p (nb * (phi / twopi)) = nb * ((phi + twopi * d) / twopi) := by
            rw [h]
            field_simp
            ring
          refine pending_lt (by linarith) hpm ?_ ?_ h0
          · rw [e, ← mul_div_assoc, div_lt_one tp]
            have : phi + twopi * d < twopi / nb := by linarith
            rw [lt_div_iff₀ hn'] at this
            linarith
          · rw [e, hst]
            have : phi + twopi * d ≤ phi + (twopi * d + excess nb) := by linarith
            gcongr
      exact ih _ _ (by linarith) hlt.le hnn.le ts f2 f3 (by omega)
    · exact ⟨_, _, rfl, hnn, f2, f3⟩

/-- **C115** (what does hold).  For any number of bins, events with phases that are not negative and phases that are not negative, the estimate ends, gives one rate for each phase, and all rates lie between zero and the largest possible one.
Missing: that the rates are the averages asked for (`C115_violated_one`). -/
theorem C115_rates_partial {nb : ℕ} (hn : 0 < nb) {phases : List ℝ} (hp : ∀ p ∈ phases, 0 ≤ p) (lndfac lfac : ℝ) {rps : List ℝ} (hr : ∀ r ∈ rps, 0 ≤ r) {fuel : ℕ} (hf : phases.length < fuel) :
    ∃ rates, rateWb fuel lndfac phases nb (binbounds nb) lfac rps = .val rates ∧ rates.length = rps.length ∧ ∀ r ∈ rates, 0 ≤ r.1 ∧ r.1 ≤ nb * (phases.length + 1) / (phases.length + nb) := by
  have tp := twopi_pos
  have hn' : (0 : ℝ) < nb := Nat.cast_pos.2 hn
  obtain ⟨nrm, t, e1, e2, e3, e4⟩ := rateLoop_spec hn hp lndfac lfac hr fuel 0 0 le_rfl (by positivity) le_rfl (rps.map fun _ => (0, 0)) (by simp)
    (by intro x hx; obtain ⟨_, _, rfl⟩ := List.mem_map.1 hx; simp) ((pending_le ..).trans_lt hf)
  unfold rateWb
  rw [e1]
  refine ⟨_, rfl, by simp [e3], ?_⟩
  intro r hr'
  obtain ⟨x, hx, rfl⟩ := List.mem_map.1 hr'
  obtain ⟨a, b⟩ := e4 x hx
  refine ⟨by simp only; positivity, ?_⟩
  simp only
  rw [div_le_iff₀ e2]
  exact b

example : ∃ rates, rateWb 3 0 [1 / 4, 2] 2 (binbounds 2) 0 [0, 1, 2] = .val rates ∧ rates.length = 3 := by
  obtain ⟨r, h, h', -⟩ := C115_rates_partial (nb := 2) (by norm_num) (phases := [1 / 4, 2]) (by intro p hp; simp at hp; rcases hp with rfl | rfl <;> norm_num) 0 0 (rps := [0, 1, 2])
    (by intro p hp; simp at hp; rcases hp with rfl | rfl | rfl <;> norm_num) (fuel := 3) (by simp)
  exact ⟨r, h, h'⟩

/-- One event and one bin: the two turns of the loop. -/
theorem one_bin (lndfac lfac : ℝ) {q rp : ℝ} (hq : tiny < q) (hq1 : q < 1) (hr : 0 ≤ rp) :
    rateWb 2 lndfac [q] 1 (binbounds 1) lfac [rp] = .val [(1 / (2 - q + tiny), 1 / (2 - q + tiny))] := by
  have tp := twopi_pos
  have ht := tiny_pos
  have cc : ∀ u, counts 1 [q] u = [1] := by
    intro u
    have h := counts_sum (nb := 1) (by norm_num) [q] u
    have hl := counts_length 1 [q] u
    match hc : counts 1 [q] u, hl with
    | [a], _ => rw [hc] at h; simpa using h
  have f0 : ⌊q⌋ = 0 := by rw [Int.floor_eq_iff]; constructor <;> push_cast <;> linarith
  obtain ⟨d, e1, e2, e3, e4⟩ := fbindata_spec (nb := 1) (by norm_num) (phases := [q]) (by intro p hp; rw [List.mem_singleton.1 hp]; linarith) (phi := 0) le_rfl
  have hd : d = 1 - q := by
    have hh : dist 1 (q + 0 / twopi) = 1 - q := by
      unfold dist
      simp [f0]
    have := e3 q (List.mem_singleton.2 rfl)
    rcases e4 with h | ⟨p, hp, h⟩
    · rw [hh, h] at this
      norm_num at this
      linarith
    · rw [List.mem_singleton.1 hp, hh] at h
      exact h
  obtain ⟨d', g1, g2, g3, g4⟩ := fbindata_spec (nb := 1) (by norm_num) (phases := [q]) (by intro p hp; rw [List.mem_singleton.1 hp]; linarith) (phi := twopi * (1 - q + tiny)) (by nlinarith)
  have hy : q + twopi * (1 - q + tiny) / twopi = 1 + tiny := by field_simp; ring
  have hd' : d' = 1 - tiny := by
    have f1 : ⌊1 + tiny⌋ = 1 := by rw [Int.floor_eq_iff]; constructor <;> push_cast <;> linarith
    have hh : dist 1 (q + twopi * (1 - q + tiny) / twopi) = 1 - tiny := by
      rw [hy]
      unfold dist
      simp only [Nat.cast_one, one_mul, f1, div_one]
      push_cast
      ring
    have := g3 q (List.mem_singleton.2 rfl)
    rcases g4 with h | ⟨p, hp, h⟩
    · rw [hh, h] at this
      norm_num at this
      linarith
    · rw [List.mem_singleton.1 hp, hh] at h
      exact h
  rw [hd] at e1
  rw [hd'] at g1
  simp only [cc, Nat.cast_one, one_mul] at e1 g1
  have hb : ∀ x : ℝ, 0 ≤ x → trunc (1 + ((1 : ℕ) : ℝ) * fmod (rp + x) twopi / twopi) - 1 = 0 := by
    intro x hx
    rw [trunc_fmod (add_nonneg hr hx)]
    have := binOf_lt (nb := 1) (by norm_num) ((rp + x) / twopi)
    omega
  have hb0 := hb 0 le_rfl
  simp only [Nat.cast_one] at hb0
  have hlt : twopi * (1 - q + tiny) < twopi := by nlinarith
  have hge : ¬ twopi * (1 - q + tiny) + twopi * (1 - tiny + tiny) < twopi := by nlinarith
  have hE := exp_pos (plimult [1] - lndfac + lfac)
  unfold rateWb
  simp only [List.map_cons, List.map_nil]
  rw [rateLoop, e1]
  simp only [Out.bind, rateAll, rateOne, hb0, List.length_singleton, Nat.cast_one, div_one, zero_add, Int.toNat_zero, List.getD_cons_zero]
  rw [if_pos (by decide), if_pos hlt]
  simp only
  rw [if_pos hlt, rateLoop, g1]
  have hb' := hb (twopi * (1 - q + tiny)) (by nlinarith)
  simp only [Nat.cast_one] at hb'
  simp only [Out.bind, rateAll, rateOne, hb', List.length_singleton, Nat.cast_one, div_one, zero_add, Int.toNat_zero, List.getD_cons_zero]
  rw [if_pos (by decide), if_neg hge]
  simp only
  rw [if_neg hge]
  have hden : (2 - q + tiny) ≠ 0 := by nlinarith
  have hden' : 1 - q + tiny + (1 - tiny + tiny) ≠ 0 := by nlinarith
  generalize exp (plimult [1] - lndfac + lfac) = E at *
  have key : ∀ a b : ℝ, a = E * twopi → b = E * twopi * (2 - q + tiny) → a / b = 1 / (2 - q + tiny) := by
    intro a b ha hb
    rw [ha, hb]
    field_simp
  simp only [List.map_cons, List.map_nil]
  congr 1
  congr 1
  ext
  · apply key <;> ring
  · apply key <;> ring

/-- **C115, violated** (one bin).  With one bin the rate is constant: its estimate must be one, with uncertainty zero.  For an event anywhere but at the start of the period the estimate is less than one (for an event in the middle of the period, two thirds), and so is the "uncertainty". -/
theorem C115_violated_one (lndfac lfac : ℝ) {q rp : ℝ} (hq : tiny < q) (hq1 : q < 1) (hr : 0 ≤ rp) :
    ∃ r sig, rateWb 2 lndfac [q] 1 (binbounds 1) lfac [rp] = .val [(r, sig)] ∧ 0 < r ∧ r < 1 ∧ 0 < sig := by
  have ht := tiny_pos
  have h2 : 1 < 2 - q + tiny := by linarith
  refine ⟨_, _, one_bin lndfac lfac hq hq1 hr, by positivity, ?_, by positivity⟩
  rw [div_lt_one (by linarith)]
  exact h2

example : rateWb 2 0 [1 / 2] 1 (binbounds 1) 0 [0] = .val [(1 / (3 / 2 + tiny), 1 / (3 / 2 + tiny))] := by
  have ht : tiny < 1 / 2 := by unfold tiny; norm_num
  have := one_bin 0 0 ht (by norm_num) (le_refl (0 : ℝ))
  rw [show (2 : ℝ) - 1 / 2 = 3 / 2 by norm_num] at this
  exact this

end Verif.Point
