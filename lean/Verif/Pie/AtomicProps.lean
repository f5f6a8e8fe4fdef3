import Verif.Pie.ValueProps

/-!
# C11, C12: what a raising `vary`, `linstep` or `logstep` leaves behind
-/

set_option linter.unusedSectionVars false
set_option linter.unusedSimpArgs false

namespace Verif.Pie
variable {K : Type} [Field K] [LinearOrder K]

/-- The increment stored for parameter `i`. -/
def Inf.delta (s : Inf K) (i : ℕ) : Option K := (s.h i).bind (·.delta)

theorem setH_same {s : Inf K} {i : ℕ} {hd : Handler K} (hh : s.h i = some hd) : s.setH i hd = s := by
  unfold Inf.setH
  have : Function.update s.h i (some hd) = s.h := by rw [← hh]; exact Function.update_eq_self _ _
  rw [this]

theorem h_of_defined {s : Inf K} {i : ℕ} (h : s.status i ≠ .undef) : ∃ hd, s.h i = some hd ∧ hd.status ≠ .undef := by
  unfold Inf.status at h
  cases hh : s.h i with
  | none => rw [hh] at h; simp at h
  | some hd => rw [hh] at h; exact ⟨hd, rfl, h⟩

/-- **C11 is false of the code.** Parameter 2 is fixed at 3 with no range. `vary(start=9, delta=1, range=(0,5))` raises
`ParamRangeError`, but the parameter is now varying, with that range and increment; and `vary(start=1, range=(4,5))`
without an increment raises `ValueError` but leaves the range `(4,5)`, outside which the value lies. -/
theorem C11_violated :
    let s := (Inf.init : Inf ℚ).run exCfg [.get 2]
    (s.status 2 = .fixed ∧ s.bounds 2 = none ∧ s.fixed = [2]) ∧
    (let r := s.step exCfg (.vary 2 (some 9) (some 1) (some (0, 5)))
     r.2 = some .paramRange ∧ r.1.status 2 = .varying ∧ r.1.bounds 2 = some (0, 5) ∧ r.1.delta 2 = some 1 ∧
       r.1.fixed = [] ∧ r.1.varying = [2]) ∧
    (let r := s.step exCfg (.vary 2 (some 1) none (some (4, 5)))
     r.2 = some .value ∧ r.1.status 2 = .fixed ∧ r.1.bounds 2 = some (4, 5) ∧ r.1.value 2 = some 3) := by
  decide +kernel

/-- **C11, what does hold.** For a parameter that has a value, a raising `vary` is one of:
no range given or declared, and then nothing at all changes;
no increment given or known, and then nothing but the parameter's range changes (nothing at all if none was given);
a start value outside the range, and then the parameter has been made varying with the new range and increment, its
value kept. In particular its value is kept unless it was stepping, and a varying parameter re-varied with neither
range nor increment given is left exactly as it was. Missing: status, range, increment and lists are not restored. -/
theorem C11_raising_vary_partial (c : Cfg K) (s s' : Inf K) (hr : Reachable c s) (i : ℕ) (hdef : s.status i ≠ .undef)
    (start delta : Option K) (range : Option (K × K)) (e : Err)
    (h : s.step c (.vary i start delta range) = (s', some e)) :
    (range = none ∧ s.bounds i = none ∧ e = .value ∧ s' = s) ∨
    (delta = none ∧ s.delta i = none ∧ e = .value ∧
      s'.status i = s.status i ∧ s'.value i = s.value i ∧ s'.delta i = none ∧
      (range = none → s' = s) ∧ (∀ a b, range = some (a, b) → s'.bounds i = some (min a b, max a b)) ∧
      (∀ j, j ≠ i → s'.h j = s.h j) ∧
      s'.fixed = s.fixed ∧ s'.varying = s.varying ∧ s'.stepping = s.stepping ∧ s'.info = s.info) ∨
    (∃ v lo hi, start = some v ∧ s'.bounds i = some (lo, hi) ∧ ¬ (lo ≤ v ∧ v ≤ hi) ∧ e = .paramRange ∧
      s'.status i = .varying ∧ s'.value i = s.value i ∧
      (∀ a b, range = some (a, b) → lo = min a b ∧ hi = max a b) ∧ (range = none → s.bounds i = some (lo, hi)) ∧
      (∀ j, j ≠ i → s.status j ≠ .stepping → s'.h j = s.h j) ∧
      (s.status i = .varying → delta = none → range = none → s' = s)) := by
  have hs := hr.inv
  obtain ⟨hd, hh, hu⟩ := h_of_defined hdef
  have hv := hs.val i hd hh hu
  have hst := (status_eq_of_h hh).symm
  simp only [Inf.step, onHandler_of_inv c hs hh hu] at h
  unfold Inf.varyH at h
  by_cases h0 : (range.isNone && hd.bounds.isNone) = true
  · rw [if_pos h0] at h
    simp only [raise, Prod.mk.injEq, Option.some.injEq] at h
    simp only [Bool.and_eq_true, Option.isNone_iff_eq_none] at h0
    exact Or.inl ⟨h0.1, by simp [Inf.bounds, hh, h0.2], h.2.symm, h.1.symm⟩
  · rw [if_neg h0] at h
    dsimp only at h
    rw [withRange_delta] at h
    cases hdel : delta.or hd.delta with
    | none =>
      rw [hdel] at h
      simp only [raise, Prod.mk.injEq, Option.some.injEq] at h
      obtain ⟨h1, h2⟩ := h
      have hd0 : delta = none := by cases delta <;> simp at hdel ⊢
      have hd1 : hd.delta = none := by rw [hd0] at hdel; simpa using hdel
      subst h1
      refine Or.inr (Or.inl ⟨hd0, by simp [Inf.delta, hh, hd1], h2.symm, ?_, ?_, ?_, ?_, ?_, ?_, rfl, rfl, rfl, rfl⟩)
      · rw [status_eq_of_h (setH_self _ _ _), withRange_status, hst]
      · simp [Inf.value, hh, withRange_value]
      · simp [Inf.delta, withRange_delta, hd1]
      · rintro rfl; exact setH_same hh
      · rintro a b rfl; simp [Inf.bounds, Handler.withRange, Handler.range]
      · intro j hj; exact setH_ne _ _ hj
    | some dd =>
      rw [hdel] at h
      obtain ⟨t, h1, hm⟩ := setStatus_moved hs (i := i) (hd := { hd.withRange range with delta := some dd })
        (st := .varying) ((withRange_status hd range).trans hst) (by rw [withRange_value]; exact hv) (by decide)
      have h2 := hm.self
      rw [if_neg (by decide)] at h2
      simp only [h1, ok, Res.andThen_ok] at h
      cases start with
      | none =>
        dsimp only at h
        have hv' : (hd.withRange range).value.isNone = false := by
          rw [withRange_value]; simpa using hv
        simp [hv'] at h
      | some v =>
        dsimp only at h
        unfold Inf.setValueH at h
        rw [if_neg (by simp)] at h
        cases hb : (hd.withRange range).bounds with
        | none =>
          simp only [hb] at h
          simp [ok] at h
        | some b =>
          obtain ⟨lo, hi⟩ := b
          simp only [hb, ge_iff_le] at h
          by_cases hin : lo ≤ v ∧ v ≤ hi
          · rw [if_pos hin] at h; simp [ok] at h
          · rw [if_neg hin] at h
            simp only [raise, Prod.mk.injEq, Option.some.injEq] at h
            obtain ⟨h3, h4⟩ := h
            subst h3
            refine Or.inr (Or.inr ⟨v, lo, hi, rfl, ?_, hin, h4.symm, ?_, ?_, ?_, ?_, ?_, ?_⟩)
            · simp [Inf.bounds, h2, hb]
            · rw [status_eq_of_h h2]
            · simp [Inf.value, h2, hh, withRange_value]
            · rintro a b rfl
              simp only [Handler.withRange, Handler.range, Option.some.injEq, Prod.mk.injEq] at hb
              exact ⟨hb.1.symm, hb.2.symm⟩
            · rintro rfl; simpa [Inf.bounds, hh, Handler.withRange] using hb
            · intro j hj hns
              rw [hm.other j hj, if_neg (fun hc => hns hc.2)]
            · rintro hvar rfl rfl
              have hvar' : hd.status = .varying := by rw [hst]; exact hvar
              simp only [Option.none_or] at hdel
              simp only [Handler.withRange] at h1
              unfold Inf.setStatus Inf.onStatusChange at h1
              rw [if_pos hvar', if_neg (by decide)] at h1
              simp only [ok, Prod.mk.injEq, and_true] at h1
              rw [← h1]
              have : ({ hd with delta := some dd, status := .varying } : Handler K) = hd := by rw [← hdel, ← hvar']
              exact (congrArg (s.setH i) this).trans (setH_same hh)

/-- Non-vacuity: the third and the second case, on a parameter that was already varying or fixed. -/
example :
    let s := (Inf.init : Inf ℚ).run exCfg [.vary 2 (some 1) (some 1) (some (0, 5)), .get 1, .range 1 0 9]
    (s.step exCfg (.vary 2 (some 9) none none)).2 = some .paramRange ∧
    (s.step exCfg (.vary 1 (some 1) none none)).2 = some .value ∧ s.status 1 = .fixed ∧ s.status 2 = .varying := by
  decide +kernel

/-- **C12 is false of the code.** A parameter that has stepped to the end of `linstep(0, 1, 3)` and is then given
`linstep(5, 6, 1)`, which raises `ZeroDivisionError`, is still stepping at value 1, but its number of steps is now 1
while its index is 2; the next step, which should raise `ParamRangeError`, now succeeds and takes it to 3/2, beyond
both old and new ends. -/
theorem C12_violated :
    let s := (Inf.init : Inf ℚ).run exCfg [.linstep 0 (some 0) (some 1) 3, .nextStepP 0, .nextStepP 0]
    let r := s.step exCfg (.linstep 0 (some 5) (some 6) 1)
    (s.step exCfg (.nextStepP 0)).2 = some .paramRange ∧ s.stepShape = [3] ∧
    r.2 = some .zeroDiv ∧ r.1.stepShape = [1] ∧ r.1.stepNums = [2] ∧ r.1.value 0 = some 1 ∧
    (r.1.step exCfg (.nextStepP 0)).2 = none ∧ (r.1.step exCfg (.nextStepP 0)).1.value 0 = some (3/2) := by
  decide +kernel

/-- **C12, what does hold.** For a parameter that has a value, a raising `linstep(lo, hi, n)` with both ends given and
`n ≠ 1` leaves everything exactly as it was; and whatever was given, it leaves the parameter's value, status, range,
increment and index, every other parameter and all lists as they were. Missing: with `n = 1` or an end not given, the
ends, the number of steps and the kind of steps may be overwritten. -/
theorem C12_raising_linstep_partial (c : Cfg K) (s s' : Inf K) (hr : Reachable c s) (i : ℕ)
    (hdef : s.status i ≠ .undef) (lo hi : Option K) (n : ℤ) (e : Err)
    (h : s.step c (.linstep i lo hi n) = (s', some e)) :
    (lo.isSome → hi.isSome → n ≠ 1 → s' = s ∧ e = .paramRange) ∧
    s'.value i = s.value i ∧ s'.status i = s.status i ∧ s'.bounds i = s.bounds i ∧ s'.delta i = s.delta i ∧
    (s'.h i).map (·.stepNum) = (s.h i).map (·.stepNum) ∧
    (∀ j, j ≠ i → s'.h j = s.h j) ∧ s'.fixed = s.fixed ∧ s'.varying = s.varying ∧ s'.stepping = s.stepping ∧
    s'.info = s.info ∧ s'.changes = s.changes := by
  have hs := hr.inv
  obtain ⟨hd, hh, hu⟩ := h_of_defined hdef
  simp only [Inf.step, onHandler_of_inv c hs hh hu] at h
  unfold Inf.linstepH at h
  have same : s' = s → s'.value i = s.value i ∧ s'.status i = s.status i ∧ s'.bounds i = s.bounds i ∧
      s'.delta i = s.delta i ∧ (s'.h i).map (·.stepNum) = (s.h i).map (·.stepNum) ∧
      (∀ j, j ≠ i → s'.h j = s.h j) ∧ s'.fixed = s.fixed ∧ s'.varying = s.varying ∧ s'.stepping = s.stepping ∧
      s'.info = s.info ∧ s'.changes = s.changes := by
    rintro rfl; simp
  have wr : ∀ hd', s' = s.setH i hd' → hd'.value = hd.value → hd'.status = hd.status → hd'.bounds = hd.bounds →
      hd'.delta = hd.delta → hd'.stepNum = hd.stepNum → s'.value i = s.value i ∧ s'.status i = s.status i ∧
      s'.bounds i = s.bounds i ∧
      s'.delta i = s.delta i ∧ (s'.h i).map (·.stepNum) = (s.h i).map (·.stepNum) ∧
      (∀ j, j ≠ i → s'.h j = s.h j) ∧ s'.fixed = s.fixed ∧ s'.varying = s.varying ∧ s'.stepping = s.stepping ∧
      s'.info = s.info ∧ s'.changes = s.changes := by
    rintro hd' rfl h1 h2 h3 h4 h5
    refine ⟨?_, ?_, ?_, ?_, ?_, fun j hj => setH_ne _ _ hj, rfl, rfl, rfl, rfl, rfl⟩ <;>
      simp [Inf.value, Inf.status, Inf.bounds, Inf.delta, hh, *]
  by_cases h0 : (!hd.stepEndsOk lo hi) = true
  · rw [if_pos h0] at h
    simp only [raise, Prod.mk.injEq, Option.some.injEq] at h
    exact ⟨fun _ _ _ => ⟨h.1.symm, h.2.symm⟩, same h.1.symm⟩
  · rw [if_neg h0] at h
    dsimp only at h
    cases lo with
    | none =>
      refine ⟨fun hc => by simp at hc, ?_⟩
      dsimp only at h
      cases hb : hd.bounds with
      | none =>
        simp only [hb, Option.map_none, raise, Prod.mk.injEq] at h
        exact wr _ h.1.symm rfl rfl hb.symm rfl rfl
      | some b =>
        simp only [hb, Option.map_some] at h
        cases hi <;> simp only [raise, Option.map_some, Prod.mk.injEq] at h <;>
          exact wr _ h.1.symm rfl rfl hb.symm rfl rfl
    | some lo =>
      cases hi with
      | none =>
        refine ⟨fun _ hc => by simp at hc, ?_⟩
        dsimp only at h
        cases hb : hd.bounds with
        | none =>
          simp only [hb, Option.map_none, raise, Prod.mk.injEq] at h
          exact wr _ h.1.symm rfl rfl hb.symm rfl rfl
        | some b =>
          simp only [hb, Option.map_some, raise, Prod.mk.injEq] at h
          exact wr _ h.1.symm rfl rfl hb.symm rfl rfl
      | some hi =>
        dsimp only at h
        by_cases hn : n = 1
        · rw [if_pos hn] at h
          simp only [raise, Prod.mk.injEq] at h
          exact ⟨fun _ _ hc => absurd hn hc, wr _ h.1.symm rfl rfl rfl rfl rfl⟩
        · rw [if_neg hn, putValue_setStatus] at h
          obtain ⟨t, e1, hm⟩ := setStatus_moved (hs.note i) (i := i) (st := .stepping)
            (hd := { hd with
              stype := .lin, slo := lo, shi := hi, steps := n, delta := some ((hi - lo) / ((n : K) - 1)), stepNum := 0,
              value := some lo }) (status_eq_of_h hh).symm rfl (by decide)
          rw [e1] at h
          simp [ok] at h

/-- **C12 for `logstep`.** A raising `logstep` leaves the whole inference exactly as it was, whatever was given. -/
theorem C12_raising_logstep (c : Cfg K) (s s' : Inf K) (hr : Reachable c s) (i : ℕ)
    (hdef : s.status i ≠ .undef) (lo hi : Option K) (n : ℤ) (e : Err)
    (h : s.step c (.logstep i lo hi n) = (s', some e)) : s' = s := by
  have hs := hr.inv
  obtain ⟨hd, hh, hu⟩ := h_of_defined hdef
  simp only [Inf.step, onHandler_of_inv c hs hh hu] at h
  unfold Inf.logstepH at h
  by_cases h0 : (!hd.stepEndsOk lo hi) = true
  · rw [if_pos h0] at h
    simp only [raise, Prod.mk.injEq] at h
    exact h.1.symm
  · rw [if_neg h0] at h
    split at h
    · rename_i lo hi
      by_cases hp : lo * hi ≤ 0
      · rw [if_pos hp] at h
        simp only [raise, Prod.mk.injEq] at h
        exact h.1.symm
      · rw [if_neg hp] at h
        dsimp only at h
        rw [putValue_setStatus] at h
        obtain ⟨t, e1, hm⟩ := setStatus_moved (hs.note i) (i := i) (st := .stepping)
          (hd := { hd with
            stype := .log, slo := lo, shi := hi, steps := n, fac := c.root (hi / lo) n, stepNum := 0,
            value := some lo }) (status_eq_of_h hh).symm rfl (by decide)
        rw [e1] at h
        simp [ok] at h
    · simp only [raise, Prod.mk.injEq] at h
      exact h.1.symm

/-- Non-vacuity: raising calls on a stepping parameter with a declared range. -/
example :
    let s := (Inf.init : Inf ℚ).run exCfg [.range 0 0 5, .linstep 0 (some 0) (some 1) 3, .nextStepP 0]
    s.status 0 = .stepping ∧ (s.step exCfg (.linstep 0 (some 0) (some 9) 3)).2 = some .paramRange ∧
    (s.step exCfg (.logstep 0 (some 0) (some 1) 3)).2 = some .value ∧
    (s.step exCfg (.logstep 0 none (some 1) 3)).2 = some .type := by
  decide +kernel

end Verif.Pie
