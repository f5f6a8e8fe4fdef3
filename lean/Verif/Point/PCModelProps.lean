import Verif.Point.PCModelLemmas

/-!
# C114: a periodic model answers for the parameters in force

Specification: the parameters in force are those given in the call, and for those not given the attributes `w`, `wdot` and `wddot` of the object; the phases are the polynomial of time with these; `counts`, `facts`, `chi2`, `scaledInt`, `avgChi`, `occam` are those of C111–C113.  `PC.init` followed by `PC.run` is any history of calls on an object.
-/

set_option linter.unusedSectionVars false

namespace Verif.Point

open Real

/-- **C114** (phase and frequency).  After any history of calls, `lml_pw` and `chi_pw` return the log of the inverse multiplicity and chi-squared of the counts for the parameters in force; these become the attributes, and `logbfac` is the factor for the number of bins.
Missing: the other attributes and methods (the `C114_violated` theorems). -/
theorem C114_phase_partial (rnd : ℝ → ℝ) (data : List ℝ) (nb0 qpts : Option ℕ) (fuel : ℕ) (calls : List Call) {s : PC} (hs : s = (PC.init rnd data nb0 qpts).run rnd fuel calls)
    {nb : ℕ} (hn : s.nbins = some nb) (h0 : 0 < nb) {w wd wdd : Option ℝ} {w' : ℝ} (hw : w.or s.w = some w') {ph : List ℝ} (hph : ph = phasesdd w' (wd.getD s.wdot) (wdd.getD s.wddot) data)
    (hp : ∀ p ∈ ph, 0 ≤ p) {phi : ℝ} (hphi : 0 ≤ phi) :
    (∃ s' lml, s.lmlPw phi w wd wdd = (s', .ret lml) ∧ |lml - log (facts (counts nb ph (phi / twopi)) / data.length.factorial)| ≤ (nb + 1) * (3 / 10 ^ 10) ∧
      s'.w = some w' ∧ s'.wdot = wd.getD s.wdot ∧ s'.wddot = wdd.getD s.wddot ∧ s'.nbins = some nb ∧ s'.logbfac = some (occam nb data.length)) ∧
    ∃ s' c, s.chiPw phi w wd wdd = (s', .ret c) ∧ c = chi2 (counts nb ph (phi / twopi)) ∧
      s'.w = some w' ∧ s'.wdot = wd.getD s.wdot ∧ s'.wddot = wdd.getD s.wddot ∧ s'.nbins = some nb := by
  have hi : s.Inv rnd data := by rw [hs]; exact (PC.Inv.init rnd data nb0 qpts).run fuel calls
  have hu := PC.update_spec hi hn (wd := wd) (wdd := wdd) hw
  rw [← hph] at hu
  obtain ⟨d, e1, -⟩ := fbindata_spec h0 hp hphi
  constructor
  · unfold PC.lmlPw
    rw [hu]
    simp only [PC.bin, hn, Option.getD_some, e1, Out.bind]
    refine ⟨_, _, rfl, ?_, rfl, rfl, rfl, rfl, hi.logb_eq nb hn h0⟩
    have := C113_limult data.length (counts nb ph (phi / twopi))
    rw [counts_length] at this
    rw [hi.data_eq]
    exact this
  · unfold PC.chiPw
    rw [hu]
    simp only [PC.bin, hn, Option.getD_some, e1, Out.bind]
    refine ⟨_, _, rfl, ?_, rfl, rfl, rfl, rfl⟩
    have hl : data.length = ph.length := by rw [hph, phasesdd_length]
    rw [hi.data_eq, hl]
    exact chisqr_counts h0 ph _

/-- The offset with which the quadrature is done. -/
theorem smlChi_spec {rnd : ℝ → ℝ} {data : List ℝ} {s : PC} (hi : s.Inv rnd data) (fuel : ℕ)
    {nb : ℕ} (hn : s.nbins = some nb) (h0 : 0 < nb) {w wd wdd : Option ℝ} {w' : ℝ} (hw : w.or s.w = some w') {ph : List ℝ} (hph : ph = phasesdd w' (wd.getD s.wdot) (wdd.getD s.wddot) data) (hp : ∀ p ∈ ph, 0 ≤ p) :
    ∃ s' o, s.smlChi fuel w wd wdd = (s', s'.quad fuel) ∧ s'.offset = some o ∧ s'.phases = ph ∧ s'.nbins = some nb ∧ s'.qpts = s.qpts ∧ s'.absc = s.absc ∧ s'.data = data ∧
      s'.w = some w' ∧ s'.wdot = wd.getD s.wdot ∧ s'.wddot = wdd.getD s.wddot := by
  have hu := PC.update_spec hi hn (wd := wd) (wdd := wdd) hw
  rw [← hph] at hu
  obtain ⟨d, e1, -⟩ := fbindata_spec h0 hp (phi := 0) le_rfl
  unfold PC.smlChi
  rw [hu]
  simp only [PC.needOffset]
  cases ho : s.offset with
  | some o => exact ⟨_, o, rfl, rfl, rfl, hn, rfl, rfl, hi.data_eq, rfl, rfl, rfl⟩
  | none =>
    simp only [PC.bin, hn, Option.getD_some, e1, Out.bind]
    exact ⟨_, _, rfl, rfl, rfl, rfl, rfl, rfl, hi.data_eq, rfl, rfl, rfl⟩

theorem top_eq (nb N : ℕ) : top nb N (log N.factorial) 0 = exp (nb * (3 / 10 ^ 10)) := by
  have hN : (0 : ℝ) < N.factorial := Nat.cast_pos.2 (Nat.factorial_pos N)
  unfold top
  rw [zero_sub, exp_neg, exp_log hN, inv_mul_cancel₀ hN.ne', mul_one]
  rfl

/-- **C114** (frequency, exact).  After any history of calls, with `qpts` zero, `sml_w` times `exp(-offset)` is the integral over all phases of the inverse multiplicity for the parameters in force, and `avgchi_w` the average of chi-squared, within the bounds of C112; the offset, which depends on the history, cancels exactly.
Missing: the other attributes and methods (the `C114_violated` theorems). -/
theorem C114_exact_partial (rnd : ℝ → ℝ) (data : List ℝ) (nb0 qpts : Option ℕ) (fuel : ℕ) (hf : data.length < fuel) (calls : List Call) {s : PC} (hs : s = (PC.init rnd data nb0 qpts).run rnd fuel calls)
    {nb : ℕ} (hn : s.nbins = some nb) (h0 : 0 < nb) (hq : s.qpts = some 0) {w wd wdd : Option ℝ} {w' : ℝ} (hw : w.or s.w = some w') {ph : List ℝ}
    (hph : ph = phasesdd w' (wd.getD s.wdot) (wdd.getD s.wddot) data) (hp : ∀ p ∈ ph, 0 ≤ p) :
    ∃ s' o v c, s.smlW fuel w wd wdd = (s', .ret v) ∧ s.avgchiW fuel w wd wdd = (s', .ret c) ∧ s'.offset = some o ∧
      qlwExact fuel (log data.length.factorial) ph nb (binbounds nb) 0 = .val (v * exp (-o), c) ∧
      |v * exp (-o) - scaledInt nb ph (log data.length.factorial) 0| ≤
        (exp (nb * (3 / 10 ^ 10)) - 1) * scaledInt nb ph (log data.length.factorial) 0 + nb * (data.length * (exp (nb * (3 / 10 ^ 10)) * excess nb)) ∧
      |c - avgChi nb ph| ≤ nb * (data.length * (data.length * (nb - 1) * excess nb)) / twopi ∧
      s'.w = some w' ∧ s'.wdot = wd.getD s.wdot ∧ s'.wddot = wdd.getD s.wddot := by
  have hi : s.Inv rnd data := by rw [hs]; exact (PC.Inv.init rnd data nb0 qpts).run fuel calls
  have hl : data.length = ph.length := by rw [hph, phasesdd_length]
  obtain ⟨s', o, e1, e2, e3, e4, e5, e6, e7, e8⟩ := smlChi_spec hi fuel hn h0 hw hph hp
  obtain ⟨q, c, f1, f2, f3⟩ := C112_exact h0 hp (log data.length.factorial) 0 (fuel := fuel) (by omega)
  have hquad : s'.quad fuel = .ret (exp o * q, c) := by
    unfold PC.quad PC.lndfac
    rw [e5, hq, if_pos rfl, e2, e3, e4, e7]
    simp only [Option.getD_some]
    rw [qlwExact_scale, f1]
    rfl
  have hv : exp o * q * exp (-o) = q := by
    rw [exp_neg]
    field_simp
  refine ⟨s', o, exp o * q, c, ?_, ?_, e2, ?_, ?_, ?_, e8⟩
  · unfold PC.smlW
    rw [e1, hquad]
    rfl
  · unfold PC.avgchiW
    rw [e1, hquad]
    rfl
  · rw [hv, f1]
  · rw [hv]
    rw [← hl, top_eq] at f2
    exact f2
  · rw [← hl] at f3
    exact f3

/-- **C114** (frequency, trapezoid).  The same with `n + 1` quadrature points, two or more.
Missing: the other attributes and methods, and a single point (`C114_violated_point`). -/
theorem C114_trap_partial {rnd : ℝ → ℝ} (hr : ∀ x, |rnd x - x| ≤ |x| / 2 ^ 24) (data : List ℝ) (nb0 qpts : Option ℕ) (fuel : ℕ) (calls : List Call) {s : PC} (hs : s = (PC.init rnd data nb0 qpts).run rnd fuel calls)
    {nb : ℕ} (hn : s.nbins = some nb) (h0 : 0 < nb) {n : ℕ} (hq : s.qpts = some (n + 1)) (h1 : 0 < n) {w wd wdd : Option ℝ} {w' : ℝ} (hw : w.or s.w = some w') {ph : List ℝ}
    (hph : ph = phasesdd w' (wd.getD s.wdot) (wdd.getD s.wddot) data) (hp : ∀ p ∈ ph, 0 ≤ p) :
    ∃ s' o v c, s.smlW fuel w wd wdd = (s', .ret v) ∧ s.avgchiW fuel w wd wdd = (s', .ret c) ∧ s'.offset = some o ∧
      qlwTrap (log data.length.factorial) ph nb (binbounds nb) (trapAbsc rnd (n + 1) nb) 0 = .val (v * exp (-o), c) ∧
      |v * exp (-o) - scaledInt nb ph (log data.length.factorial) 0| ≤
        (exp (nb * (3 / 10 ^ 10)) - 1) * scaledInt nb ph (log data.length.factorial) 0 + (3 * data.length / n + 1 / 2 ^ 24) * (twopi * exp (nb * (3 / 10 ^ 10))) ∧
      |c - avgChi nb ph| ≤ (3 * data.length / n + 1 / 2 ^ 24) * (data.length * (nb - 1)) ∧
      s'.w = some w' ∧ s'.wdot = wd.getD s.wdot ∧ s'.wddot = wdd.getD s.wddot := by
  have hi : s.Inv rnd data := by rw [hs]; exact (PC.Inv.init rnd data nb0 qpts).run fuel calls
  have hl : data.length = ph.length := by rw [hph, phasesdd_length]
  obtain ⟨s', o, e1, e2, e3, e4, e5, e6, e7, e8⟩ := smlChi_spec hi fuel hn h0 hw hph hp
  obtain ⟨q, c, f1, f2, f3⟩ := C112_trap h0 hp (log data.length.factorial) 0 hr h1
  have habs : s'.absc = some (trapAbsc rnd (n + 1) nb) := by
    rw [e6, hi.absc_eq nb hn h0, hq]
  have hquad : s'.quad fuel = .ret (exp o * q, c) := by
    unfold PC.quad PC.lndfac
    rw [e5, hq, if_neg (by simp), habs, e2, e3, e4, e7]
    simp only [Option.getD_some]
    rw [qlwTrap_scale, f1]
    rfl
  have hv : exp o * q * exp (-o) = q := by
    rw [exp_neg]
    field_simp
  refine ⟨s', o, exp o * q, c, ?_, ?_, e2, ?_, ?_, ?_, e8⟩
  · unfold PC.smlW
    rw [e1, hquad]
    rfl
  · unfold PC.avgchiW
    rw [e1, hquad]
    rfl
  · rw [hv, f1]
  · rw [hv]
    rw [← hl, top_eq] at f2
    exact f2
  · rw [← hl] at f3
    exact f3

/-- Such a history: bins set twice, a query, then one without the frequency. -/
example : ∃ s' o v c, ((PC.init id [1, 2, 5] .none (some 0)).run id 4 [.setNbins 3, .lmlPw 0 (some 1) .none .none, .setNbins 5]).smlW 4 .none (some 2) .none = (s', .ret v) ∧ s'.offset = some o ∧
    qlwExact 4 (log (Nat.factorial 3)) (phasesdd 1 2 0 [1, 2, 5]) 5 (binbounds 5) 0 = .val (v * exp (-o), c) := by
  have tp := twopi_pos
  have hi : ((PC.init id [1, 2, 5] .none (some 0)).setNbins id 3).Inv id [1, 2, 5] := (PC.Inv.init id [1, 2, 5] .none (some 0)).setNbins 3
  have hu := PC.update_spec hi (nb := 3) rfl (w := some 1) (wd := .none) (wdd := .none) (w' := 1) rfl
  set s := (PC.init id [1, 2, 5] .none (some 0)).run id 4 [.setNbins 3, .lmlPw 0 (some 1) .none .none, .setNbins 5] with hs
  have hpos : ∀ wd : ℝ, 0 ≤ wd → ∀ p ∈ phasesdd 1 wd 0 [1, 2, 5], 0 ≤ p := by
    intro wd hwd p hp
    simp only [phasesdd, List.map_cons, List.map_nil, List.mem_cons, List.not_mem_nil, or_false] at hp
    rcases hp with rfl | rfl | rfl <;> positivity
  obtain ⟨d, e1, -⟩ := fbindata_spec (nb := 3) (by norm_num) (hpos 0 le_rfl) (phi := 0) le_rfl
  have hsv : s.w = some 1 ∧ s.wdot = 0 ∧ s.wddot = 0 ∧ s.qpts = some 0 ∧ s.nbins = some 5 := by
    rw [hs]
    simp only [PC.run, List.foldl_cons, List.foldl_nil, PC.step, PC.lmlPw]
    rw [hu]
    simp only [PC.bin, PC.init, PC.setNbins, Option.getD_some, Option.getD_none, e1, Out.bind]
    simp
  obtain ⟨s', o, v, c, h1, -, h3, h4, -⟩ := C114_exact_partial id [1, 2, 5] .none (some 0) 4 (by simp) _ hs (nb := 5) hsv.2.2.2.2 (by norm_num) hsv.2.2.2.1
    (w := .none) (wd := some 2) (wdd := .none) (w' := 1) (by rw [hsv.1]; rfl) rfl (by rw [hsv.2.2.1]; exact hpos 2 (by norm_num))
  refine ⟨s', o, v, c, h1, h3, ?_⟩
  rw [hsv.2.2.1] at h4
  exact h4

/-- **C114, violated** (constant model).  The likelihood of the constant model is never returned: the call raises TypeError. -/
theorem C114_violated_const (s : PC) : s.lmlConst = .exc .type := rfl

/-- **C114, violated** (rates).  `rate_est` never returns rates, for a number of phases or for a sequence of them. -/
theorem C114_violated_rates (s : PC) (p : Phases) (w wd wdd : Option ℝ) : ∀ r, (s.rateEst p w wd wdd).2 ≠ .ret r := by
  intro r h
  unfold PC.rateEst at h
  split at h
  · exact absurd h (by simp)
  · split at h
    · exact absurd h (by simp)
    · exact absurd h (by simp)
    · split at h <;> exact absurd h (by simp)

/-- **C114, violated** (no frequency).  A frequency is required in a call or a previous one.  If only zero derivatives are given to a new object, the missing frequency is not noticed and the answer is that for all events at phase zero. -/
theorem C114_violated_frequency (rnd : ℝ → ℝ) (data : List ℝ) {nb : ℕ} (h0 : 0 < nb) (qpts : Option ℕ) :
    ((PC.init rnd data (some nb) qpts).lmlPw 0 .none .none .none).2 = .exc .value ∧
      ((PC.init rnd data (some nb) qpts).lmlPw 0 .none (some 0) (some 0)).2 = .ret (limult data.length (counts nb (List.replicate data.length 0) 0)) := by
  have hi := PC.Inv.init rnd data (some nb) qpts
  have hw : (PC.init rnd data (some nb) qpts).w = .none ∧ (PC.init rnd data (some nb) qpts).wdot = 0 ∧ (PC.init rnd data (some nb) qpts).wddot = 0 ∧ (PC.init rnd data (some nb) qpts).nbins = some nb := by
    unfold PC.init PC.setNbins
    rcases qpts with _ | _ | q <;> simp
  have hph := hi.phases_eq
  rw [hw.1] at hph
  simp only at hph
  have hd := hi.data_eq
  generalize PC.init rnd data (some nb) qpts = s at *
  obtain ⟨w1, w2, w3, w4⟩ := hw
  constructor
  · unfold PC.lmlPw PC.update
    rw [w4, w1]
    simp
  · obtain ⟨d, e1, -⟩ := fbindata_spec h0 (phases := List.replicate data.length 0) (by intro p hp; rw [List.eq_of_mem_replicate hp]) (phi := 0) le_rfl
    rw [zero_div] at e1
    unfold PC.lmlPw PC.update
    rw [w4, w1, w2, w3]
    simp [PC.bin, w4, hph, e1, Out.bind, hd]

/-- **C114, violated** (no bins).  Without bins every query should raise ValueError; it raises AttributeError.  `set_qpts` raises it too, after it has changed `qpts`. -/
theorem C114_violated_bins (rnd : ℝ → ℝ) (data : List ℝ) (qpts : Option ℕ) (fuel : ℕ) (phi : ℝ) (w wd wdd : Option ℝ) (n : ℕ) :
    ((PC.init rnd data .none qpts).lmlPw phi w wd wdd).2 = .exc .attribute ∧ ((PC.init rnd data .none qpts).smlW fuel w wd wdd).2 = .exc .attribute ∧
      ((PC.init rnd data .none qpts).setQpts rnd n).2 = .exc .attribute ∧ ((PC.init rnd data .none qpts).setQpts rnd n).1.qpts = some n := by
  refine ⟨rfl, rfl, ?_, ?_⟩ <;> simp [PC.setQpts, PC.init]

/-- **C114, violated** (one point).  A quadrature with one point is accepted; the quadrature then reads a second one, which is outside of its array. -/
theorem C114_violated_point (rnd : ℝ → ℝ) (data : List ℝ) {nb : ℕ} (h0 : 0 < nb) (fuel : ℕ) {w : ℝ} (hp : ∀ t ∈ data, 0 ≤ w * t) :
    ((PC.init rnd data (some nb) (some 1)).smlW fuel (some w) .none .none).2 = .oob := by
  have tp := twopi_pos
  have hi := PC.Inv.init rnd data (some nb) (some 1)
  have hp' : ∀ p ∈ phasesdd w 0 0 data, 0 ≤ p := by
    intro p h
    rw [(C111_phases w 0 0 data).1] at h
    obtain ⟨t, ht, rfl⟩ := List.mem_map.1 h
    have := hp t ht
    have e : (w * t + 0 * t ^ 2 / 2 + 0 * t ^ 3 / 6) / twopi = w * t / twopi := by ring
    rw [e]
    positivity
  obtain ⟨s', o, e1, e2, e3, e4, e5, e6, e7, -⟩ := smlChi_spec hi fuel (nb := nb) rfl h0 (w := some w) (wd := .none) (wdd := .none) (w' := w) rfl rfl hp'
  unfold PC.smlW
  rw [e1]
  have hq : s'.qpts = some 1 := by rw [e5]; rfl
  have ha : s'.absc = some (trapAbsc rnd 1 nb) := by rw [e6]; rfl
  simp only [PC.quad, hq, ha]
  rfl

example : ((PC.init id [1, 2] (some 4) (some 1)).smlW 3 (some 1) .none .none).2 = .oob := C114_violated_point id [1, 2] (by norm_num) 3 (by intro t ht; simp at ht; rcases ht with rfl | rfl <;> norm_num)

end Verif.Point
