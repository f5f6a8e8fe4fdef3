import Verif.Pie.InvLemmas
import Mathlib.Algebra.Order.Field.Basic
import Mathlib.Tactic.Ring
import Mathlib.Tactic.FieldSimp
import Mathlib.Data.Int.Cast.Lemmas

/-!
# PIE parameters: helper lemmas about stepping
-/

set_option linter.unusedSectionVars false

namespace Verif.Pie
variable {K : Type} [Field K] [LinearOrder K]

theorem Reachable.inv {c : Cfg K} {s : Inf K} (h : Reachable c s) : Inv s := by
  obtain ⟨ops, rfl⟩ := h
  exact run_inv c ops Inv.init

/-- A property of parameter `i`'s handler that implies it is stepping and that no stepping operation destroys. -/
structure StepStable (i : ℕ) (Q : Handler K → Prop) : Prop where
  stepping : ∀ hd, Q hd → hd.status = .stepping
  rst : ∀ hd, Q hd → Q hd.rst
  range : ∀ hd b, Q hd → Q { hd with bounds := b }
  next : ∀ (s : Inf K) hd, s.h i = some hd → Q hd → ∃ hd', (s.nextStepP i).1.h i = some hd' ∧ Q hd'
  prev : ∀ (s : Inf K) hd, s.h i = some hd → Q hd → ∃ hd', (s.prevStepP i).1.h i = some hd' ∧ Q hd'
  last : ∀ (s : Inf K) hd, s.h i = some hd → Q hd → ∃ hd', (s.lastStep i).1.h i = some hd' ∧ Q hd'

/-- Parameter `i` has a handler satisfying `Q`. -/
def Has (i : ℕ) (Q : Handler K → Prop) (s : Inf K) : Prop := ∃ hd, s.h i = some hd ∧ Q hd

theorem Has.frame {i : ℕ} {Q : Handler K → Prop} (hQ : StepStable i Q) {s s' : Inf K} (h : Has i Q s)
    (hf : Frame s i s') : Has i Q s' := by
  obtain ⟨hd, hh, hq⟩ := h
  rcases hf with hf | ⟨_, hf⟩
  · exact ⟨hd, hf.trans hh, hq⟩
  · exact ⟨hd.rst, by rw [hf, hh]; rfl, hQ.rst _ hq⟩

theorem Has.status {i : ℕ} {Q : Handler K → Prop} (hQ : StepStable i Q) {s : Inf K} (h : Has i Q s) :
    s.status i = .stepping := by
  obtain ⟨hd, hh, hq⟩ := h
  rw [status_eq_of_h hh, hQ.stepping _ hq]

theorem access_of_value (c : Cfg K) {s : Inf K} {i : ℕ} {hd : Handler K} {v : K} (hh : s.h i = some hd)
    (hv : hd.value = some v) : s.access c i = ok s := by
  simp [Inf.access, hh, hv]

theorem onHandler_of_value (c : Cfg K) {s : Inf K} {i : ℕ} {hd : Handler K} {v : K} (hh : s.h i = some hd)
    (hv : hd.value = some v) (f : Inf K → Handler K → Res (Inf K)) : s.onHandler c i f = f s hd := by
  simp [Inf.onHandler, access_of_value c hh hv, hh]

theorem onHandler_of_inv (c : Cfg K) {s : Inf K} (hs : Inv s) {i : ℕ} {hd : Handler K} (hh : s.h i = some hd)
    (hu : hd.status ≠ .undef) (f : Inf K → Handler K → Res (Inf K)) : s.onHandler c i f = f s hd := by
  obtain ⟨v, hv⟩ := Option.isSome_iff_exists.mp (hs.val i hd hh hu)
  exact onHandler_of_value c hh hv f

theorem andThen_has {P : Inf K → Prop} {r : Res (Inf K)} {f : Inf K → Res (Inf K)}
    (h1 : Inv r.1 ∧ P r.1) (h2 : ∀ s, Inv s → P s → P (f s).1) : P (r.andThen f).1 := by
  obtain ⟨s', _ | e⟩ := r
  · exact h2 s' h1.1 h1.2
  · exact h1.2

theorem nextLoop_has {i : ℕ} {Q : Handler K → Prop} (hQ : StepStable i Q) (last : ℕ) (l : List ℕ) {s : Inf K}
    (hs : Inv s) (h : Has i Q s) : Has i Q (Inf.nextLoop last l s).1 := by
  induction l generalizing s with
  | nil => exact h
  | cons j l ih =>
    unfold Inf.nextLoop
    cases hd : s.info j with
    | none => exact h
    | some d =>
      dsimp only
      have hg : Good s j (s.stepDir j d).1 := by
        cases d
        · exact nextStepP_good hs j
        · exact prevStepP_good hs j
      have hinfo : (s.stepDir j d).1.info = s.info := by
        cases d
        · exact (nextStepP_lists s j).1
        · exact (prevStepP_lists s j).1
      have hh : Has i Q (s.stepDir j d).1 := by
        by_cases hji : i = j
        · subst hji
          obtain ⟨hd', hh, hq⟩ := h
          cases d
          · exact hQ.next s hd' hh hq
          · exact hQ.prev s hd' hh hq
        · exact h.frame hQ (hg.2 i hji)
      have hsd := hg.1
      clear hg
      generalize s.stepDir j d = r at hinfo hh hsd
      obtain ⟨s', _ | e⟩ := r
      · exact hh
      · cases e
        case paramRange =>
          dsimp only
          split_ifs
          · rw [resetSteps_eq hsd]
            exact hh.frame hQ (resetState_frame hsd i)
          · have h2 : Inv { s' with info := Function.update s'.info j (some d.reverse) } :=
              hsd.setInfo _ (by dsimp only at hinfo; rw [hinfo, hd]; rfl)
            exact ih h2 hh
        all_goals exact hh

theorem setParam1_stepping (c : Cfg K) (pv : ℕ → Option K) {s : Inf K} (hs : Inv s) {i : ℕ}
    (h : s.status i = .stepping) : s.setParam1 c pv i = raise .param s := by
  obtain ⟨hd, hh, hst⟩ := h_of_status h (by decide)
  unfold Inf.setParam1
  rw [onHandler_of_inv c hs hh (by simp [hst])]
  simp [hst]

/-- A stable stepping property of parameter `i` survives every operation that does not reconfigure `i`. -/
theorem step_has (c : Cfg K) {i : ℕ} {Q : Handler K → Prop} (hQ : StepStable i Q) {s : Inf K} (hs : Inv s)
    (h : Has i Q s) (op : Op K) (hop : ¬ op.reconfigures i) : Has i Q (s.step c op).1 := by
  have hgL := step_good c hs op
  by_cases ht : i ∈ op.targets c s
  swap
  · exact h.frame hQ (hgL.2 i ht)
  have hst := h.status hQ
  obtain ⟨hd, hh, hq⟩ := id h
  have hu : hd.status ≠ .undef := by rw [hQ.stepping _ hq]; decide
  have hsd := hQ.stepping _ hq
  cases op with
  | get j =>
    simp only [Op.targets, List.mem_singleton] at ht; subst ht
    obtain ⟨v, hv⟩ := Option.isSome_iff_exists.mp (hs.val i hd hh hu)
    simp only [Inf.step, access_of_value c hh hv]; exact h
  | assign j v =>
    simp only [Op.targets, List.mem_singleton] at ht; subst ht; exact absurd rfl hop
  | fix j v =>
    simp only [Op.targets, List.mem_singleton] at ht; subst ht; exact absurd rfl hop
  | setValue j v =>
    simp only [Op.targets, List.mem_singleton] at ht; subst ht
    simp only [Inf.step, onHandler_of_inv c hs hh hu]
    simp only [Inf.setValueH, hsd]; exact h
  | range j a b =>
    simp only [Op.targets, List.mem_singleton] at ht; subst ht
    simp only [Inf.step, onHandler_of_inv c hs hh hu]
    exact ⟨_, setH_self _ _ _, hQ.range _ _ hq⟩
  | linstep j lo hi n =>
    simp only [Op.targets, List.mem_singleton] at ht; subst ht; exact absurd rfl hop
  | logstep j lo hi n =>
    simp only [Op.targets, List.mem_singleton] at ht; subst ht; exact absurd rfl hop
  | nextStepP j =>
    simp only [Op.targets, List.mem_singleton] at ht; subst ht
    simp only [Inf.step, onHandler_of_inv c hs hh hu]
    exact hQ.next s hd hh hq
  | prevStepP j =>
    simp only [Op.targets, List.mem_singleton] at ht; subst ht
    simp only [Inf.step, onHandler_of_inv c hs hh hu]
    exact hQ.prev s hd hh hq
  | firstStepP j =>
    simp only [Op.targets, List.mem_singleton] at ht; subst ht
    simp only [Inf.step, onHandler_of_inv c hs hh hu]
    simp only [Inf.firstStep, hh, hsd]
    exact ⟨hd.rst, by simp [Handler.rst, hsd], hQ.rst _ hq⟩
  | lastStepP j =>
    simp only [Op.targets, List.mem_singleton] at ht; subst ht
    simp only [Inf.step, onHandler_of_inv c hs hh hu]
    exact hQ.last s hd hh hq
  | vary j st d r =>
    simp only [Op.targets, List.mem_singleton] at ht; subst ht; exact absurd rfl hop
  | unboundedSet j u =>
    simp only [Op.targets, List.mem_singleton] at ht; subst ht
    simp only [Inf.step, onHandler_of_inv c hs hh hu]
    simp only [Inf.unboundedSetH, hsd]; exact h
  | nextStep =>
    show Has i Q s.nextStep.1
    unfold Inf.nextStep
    split
    · exact h
    · exact nextLoop_has hQ _ _ hs h
  | resetSteps => simp [Op.targets] at ht
  | setVarying vs =>
    simp only [Op.targets] at ht
    rw [hs.mem_varying i, hst] at ht; exact absurd ht (by decide)
  | scoreSet vs =>
    simp only [Op.targets] at ht
    rw [hs.mem_varying i, hst] at ht; exact absurd ht (by decide)
  | scoreSetUnbounded vs =>
    simp only [Op.targets] at ht
    rw [hs.mem_varying i, hst] at ht; exact absurd ht (by decide)
  | setParams pv =>
    have : ∀ (l : List ℕ) (s : Inf K), Inv s → Has i Q s → Has i Q (Inf.setParamsLoop c pv l s).1 := by
      intro l
      induction l with
      | nil => intro s _ h; exact h
      | cons j l ih =>
        intro s hs h
        refine andThen_has ⟨(setParam1_good c pv hs j).1, ?_⟩ ih
        by_cases hji : i = j
        · subst hji; rw [setParam1_stepping c pv hs (h.status hQ)]; exact h
        · exact h.frame hQ ((setParam1_good c pv hs j).2 i hji)
    exact this _ s hs h
  | getParams =>
    have : ∀ (l : List ℕ) (s : Inf K), Inv s → Has i Q s → Has i Q (Inf.accessAll c l s).1 := by
      intro l
      induction l with
      | nil => intro s _ h; exact h
      | cons j l ih =>
        intro s hs h
        refine andThen_has ⟨(access_good c hs j).1, ?_⟩ ih
        by_cases hji : i = j
        · subst hji
          obtain ⟨hd, hh, hq⟩ := id h
          obtain ⟨v, hv⟩ := Option.isSome_iff_exists.mp
            (hs.val i hd hh (by rw [hQ.stepping _ hq]; decide))
          rw [access_of_value c hh hv]; exact h
        · exact h.frame hQ ((access_good c hs j).2 i hji)
    exact this _ s hs h

theorem run_has (c : Cfg K) {i : ℕ} {Q : Handler K → Prop} (hQ : StepStable i Q) (ops : List (Op K)) {s : Inf K}
    (hs : Inv s) (h : Has i Q s) (hops : ∀ op ∈ ops, ¬ op.reconfigures i) : Has i Q (s.run c ops) := by
  induction ops generalizing s with
  | nil => exact h
  | cons op ops ih =>
    exact ih (step_good c hs op).1 (step_has c hQ hs h op (hops op (by simp))) fun o ho => hops o (by simp [ho])

/-- The `k`-th grid value of a stepping parameter. -/
def Handler.pt (hd : Handler K) (k : ℤ) : K :=
  match hd.stype with
  | .lin => hd.slo + k * hd.delta.getD 0
  | .log => hd.slo * hd.fac ^ k

/-- The handler moved to index `k` of its grid. -/
def Handler.at (hd : Handler K) (k : ℤ) : Handler K := { hd with stepNum := k, value := some (hd.pt k) }

/-- A properly set up stepping parameter, at some index of its grid. -/
structure WS (hd : Handler K) : Prop where
  status : hd.status = .stepping
  steps : 1 ≤ hd.steps
  lo : 0 ≤ hd.stepNum
  hi : hd.stepNum < hd.steps
  lin : hd.stype = .lin → hd.delta.isSome
  log : hd.stype = .log → 2 ≤ hd.steps → hd.fac ≠ 0
  shi : 2 ≤ hd.steps → hd.shi = hd.pt (hd.steps - 1)
  value : hd.value = some (hd.pt hd.stepNum)

theorem Handler.pt_zero (hd : Handler K) : hd.pt 0 = hd.slo := by
  unfold Handler.pt; cases hd.stype <;> simp

theorem Handler.rst_eq_at (hd : Handler K) : hd.rst = hd.at 0 := by
  simp [Handler.rst, Handler.at, hd.pt_zero]

@[simp] theorem Handler.at_pt (hd : Handler K) (k m : ℤ) : (hd.at k).pt m = hd.pt m := rfl
@[simp] theorem Handler.at_steps (hd : Handler K) (k : ℤ) : (hd.at k).steps = hd.steps := rfl
@[simp] theorem Handler.at_stepNum (hd : Handler K) (k : ℤ) : (hd.at k).stepNum = k := rfl
@[simp] theorem Handler.at_status (hd : Handler K) (k : ℤ) : (hd.at k).status = hd.status := rfl
@[simp] theorem Handler.at_value (hd : Handler K) (k : ℤ) : (hd.at k).value = some (hd.pt k) := rfl
@[simp] theorem Handler.at_at (hd : Handler K) (k m : ℤ) : (hd.at k).at m = hd.at m := rfl

theorem WS.at {hd : Handler K} (h : WS hd) {k : ℤ} (h0 : 0 ≤ k) (h1 : k < hd.steps) : WS (hd.at k) :=
  ⟨h.status, h.steps, h0, h1, h.lin, h.log, h.shi, rfl⟩

theorem WS.eq_at {hd : Handler K} (h : WS hd) : hd.at hd.stepNum = hd := by
  unfold Handler.at
  rw [← h.value]

theorem WS.nextStepP {s : Inf K} {i : ℕ} {hd : Handler K} (hh : s.h i = some hd) (h : WS hd) :
    s.nextStepP i = if hd.stepNum + 1 = hd.steps then raise .paramRange s
      else ok (s.putValue i { hd with stepNum := hd.stepNum + 1 } (hd.pt (hd.stepNum + 1))) := by
  unfold Inf.nextStepP
  rw [hh]
  dsimp only
  rw [if_neg (not_not.mpr h.status)]
  by_cases h1 : hd.stepNum + 1 = hd.steps
  · have : hd.stepNum = hd.steps - 1 := by omega
    rw [if_pos this, if_pos h1]
  · have : hd.stepNum ≠ hd.steps - 1 := by omega
    rw [if_neg this, if_neg h1]
    have h2 : 2 ≤ hd.steps := by have := h.lo; have := h.hi; omega
    by_cases h3 : hd.stepNum + 1 = hd.steps - 1
    · rw [if_pos h3, h3, h.shi h2]
    · rw [if_neg h3]
      simp only [h.value]
      cases hst : hd.stype with
      | lin =>
        obtain ⟨d, hd'⟩ := Option.isSome_iff_exists.mp (h.lin hst)
        simp only [hd', Handler.pt, hst, Option.getD_some]
        congr 2
        push_cast; ring
      | log =>
        have := h.log hst h2
        simp only [Handler.pt, hst]
        congr 2
        rw [zpow_add_one₀ this, mul_assoc]

theorem WS.prevStepP {s : Inf K} {i : ℕ} {hd : Handler K} (hh : s.h i = some hd) (h : WS hd) :
    s.prevStepP i = if hd.stepNum = 0 then raise .paramRange s
      else ok (s.putValue i { hd with stepNum := hd.stepNum - 1 } (hd.pt (hd.stepNum - 1))) := by
  unfold Inf.prevStepP
  rw [hh]
  dsimp only
  rw [if_neg (not_not.mpr h.status)]
  by_cases h1 : hd.stepNum = 0
  · rw [if_pos h1, if_pos h1]
  · rw [if_neg h1, if_neg h1]
    have h2 : 2 ≤ hd.steps := by have := h.lo; have := h.hi; omega
    by_cases h3 : hd.stepNum - 1 = 0
    · rw [if_pos h3, h3, Handler.pt_zero]
    · rw [if_neg h3]
      simp only [h.value]
      cases hst : hd.stype with
      | lin =>
        obtain ⟨d, hd'⟩ := Option.isSome_iff_exists.mp (h.lin hst)
        simp only [hd', Handler.pt, hst, Option.getD_some]
        congr 2
        push_cast; ring
      | log =>
        have := h.log hst h2
        simp only [Handler.pt, hst]
        congr 2
        rw [zpow_sub_one₀ this]
        field_simp

/-- Same grid set-up. -/
structure SameGrid (a hd : Handler K) : Prop where
  stype : hd.stype = a.stype
  slo : hd.slo = a.slo
  shi : hd.shi = a.shi
  steps : hd.steps = a.steps
  delta : hd.delta = a.delta
  fac : hd.fac = a.fac

theorem SameGrid.pt {a hd : Handler K} (h : SameGrid a hd) (k : ℤ) : hd.pt k = a.pt k := by
  simp [Handler.pt, h.stype, h.slo, h.delta, h.fac]

theorem ws_stable (i : ℕ) (a : Handler K) (ha : 2 ≤ a.steps) :
    StepStable i fun hd => WS hd ∧ SameGrid a hd := by
  refine ⟨fun hd h => h.1.status, fun hd h => ?_, fun hd b h => ?_, fun s hd hh h => ?_, fun s hd hh h => ?_,
    fun s hd hh h => ?_⟩
  · rw [Handler.rst_eq_at]
    exact ⟨h.1.at (le_refl _) (by have := h.1.steps; omega), h.2.1, h.2.2, h.2.3, h.2.4, h.2.5, h.2.6⟩
  · exact ⟨⟨h.1.1, h.1.2, h.1.3, h.1.4, h.1.5, h.1.6, h.1.7, h.1.8⟩, h.2.1, h.2.2, h.2.3, h.2.4, h.2.5, h.2.6⟩
  · rw [h.1.nextStepP hh]
    split_ifs with h1
    · exact ⟨hd, hh, h⟩
    · refine ⟨hd.at (hd.stepNum + 1), by simp [Handler.at], ?_⟩
      have := h.1.lo
      have := h.1.hi
      exact ⟨h.1.at (by omega) (by omega), h.2.1, h.2.2, h.2.3, h.2.4, h.2.5, h.2.6⟩
  · rw [h.1.prevStepP hh]
    split_ifs with h1
    · exact ⟨hd, hh, h⟩
    · refine ⟨hd.at (hd.stepNum - 1), by simp [Handler.at], ?_⟩
      have := h.1.lo
      have := h.1.hi
      exact ⟨h.1.at (by omega) (by omega), h.2.1, h.2.2, h.2.3, h.2.4, h.2.5, h.2.6⟩
  · have h2 : 2 ≤ hd.steps := by rw [h.2.steps]; exact ha
    have e : s.lastStep i = ok (s.putValue i { hd with stepNum := hd.steps - 1 } hd.shi) := by
      simp [Inf.lastStep, hh, h.1.status]
    rw [e]
    refine ⟨hd.at (hd.steps - 1), by simp [Handler.at, h.1.shi h2], ?_⟩
    exact ⟨h.1.at (by omega) (by omega), h.2.1, h.2.2, h.2.3, h.2.4, h.2.5, h.2.6⟩

/-- Whatever increment is stored, index 0 means exactly `slo` and the last index exactly `shi`. -/
structure EndsExact (a hd : Handler K) : Prop where
  status : hd.status = .stepping
  slo : hd.slo = a.slo
  shi : hd.shi = a.shi
  steps : hd.steps = a.steps
  val : hd.value.isSome
  delta : hd.stype = .lin → hd.delta.isSome
  lo : 0 ≤ hd.stepNum
  hi : hd.stepNum < hd.steps
  first : hd.stepNum = 0 → hd.value = some hd.slo
  last : hd.stepNum = hd.steps - 1 → hd.value = some hd.shi

theorem ends_stable (i : ℕ) (a : Handler K) (ha : 2 ≤ a.steps) : StepStable i (EndsExact a) := by
  refine ⟨fun hd h => h.status, fun hd h => ?_, fun hd b h => ?_, fun s hd hh h => ?_, fun s hd hh h => ?_,
    fun s hd hh h => ?_⟩
  · have := h.steps
    refine ⟨h.status, h.slo, h.shi, h.steps, rfl, h.delta, le_refl _, ?_, fun _ => rfl, ?_⟩
    · show 0 < hd.steps; omega
    · intro e; have e' : (0:ℤ) = hd.steps - 1 := e; omega
  · exact ⟨h.1, h.2, h.3, h.4, h.5, h.6, h.7, h.8, h.9, h.10⟩
  · have h2 := h.steps
    have h0 := h.lo
    have h1 := h.hi
    unfold Inf.nextStepP
    rw [hh]
    dsimp only
    rw [if_neg (not_not.mpr h.status)]
    obtain ⟨v, hv⟩ := Option.isSome_iff_exists.mp h.val
    by_cases e1 : hd.stepNum = hd.steps - 1
    · rw [if_pos e1]; exact ⟨hd, hh, h⟩
    · rw [if_neg e1]
      by_cases e2 : hd.stepNum + 1 = hd.steps - 1
      · rw [if_pos e2]
        refine ⟨_, putValue_self _ _ _ _, h.status, h.slo, h.shi, h.steps, rfl, h.delta, ?_, ?_, ?_, ?_⟩
        · show 0 ≤ hd.stepNum + 1; omega
        · show hd.stepNum + 1 < hd.steps; omega
        · intro e; have e' : hd.stepNum + 1 = 0 := e; omega
        · intro _; rfl
      · rw [if_neg e2]
        simp only [hv]
        have mk : ∀ w : K, ∃ hd', (s.putValue i { hd with stepNum := hd.stepNum + 1 } w).h i = some hd' ∧
            EndsExact a hd' := by
          intro w
          refine ⟨_, putValue_self _ _ _ _, h.status, h.slo, h.shi, h.steps, rfl, h.delta, ?_, ?_, ?_, ?_⟩
          · show 0 ≤ hd.stepNum + 1; omega
          · show hd.stepNum + 1 < hd.steps; omega
          · intro e; have e' : hd.stepNum + 1 = 0 := e; omega
          · intro e; exact absurd e e2
        cases hst : hd.stype with
        | lin =>
          obtain ⟨d, hd'⟩ := Option.isSome_iff_exists.mp (h.delta hst)
          simpa only [ok, hd', hv, hst] using mk (v + d)
        | log => simpa only [ok, hv, hst] using mk (v * hd.fac)
  · have h2 := h.steps
    have h0 := h.lo
    have h1 := h.hi
    unfold Inf.prevStepP
    rw [hh]
    dsimp only
    rw [if_neg (not_not.mpr h.status)]
    obtain ⟨v, hv⟩ := Option.isSome_iff_exists.mp h.val
    by_cases e1 : hd.stepNum = 0
    · rw [if_pos e1]; exact ⟨hd, hh, h⟩
    · rw [if_neg e1]
      by_cases e2 : hd.stepNum - 1 = 0
      · rw [if_pos e2]
        refine ⟨_, putValue_self _ _ _ _, h.status, h.slo, h.shi, h.steps, rfl, h.delta, ?_, ?_, ?_, ?_⟩
        · show 0 ≤ hd.stepNum - 1; omega
        · show hd.stepNum - 1 < hd.steps; omega
        · intro _; rfl
        · intro e; have e' : hd.stepNum - 1 = hd.steps - 1 := e; omega
      · rw [if_neg e2]
        simp only [hv]
        have mk : ∀ w : K, ∃ hd', (s.putValue i { hd with stepNum := hd.stepNum - 1 } w).h i = some hd' ∧
            EndsExact a hd' := by
          intro w
          refine ⟨_, putValue_self _ _ _ _, h.status, h.slo, h.shi, h.steps, rfl, h.delta, ?_, ?_, ?_, ?_⟩
          · show 0 ≤ hd.stepNum - 1; omega
          · show hd.stepNum - 1 < hd.steps; omega
          · intro e; exact absurd e e2
          · intro e; have e' : hd.stepNum - 1 = hd.steps - 1 := e; omega
        cases hst : hd.stype with
        | lin =>
          obtain ⟨d, hd'⟩ := Option.isSome_iff_exists.mp (h.delta hst)
          simpa only [ok, hd', hv, hst] using mk (v - d)
        | log => simpa only [ok, hv, hst] using mk (v / hd.fac)
  · have h2 := h.steps
    have e : s.lastStep i = ok (s.putValue i { hd with stepNum := hd.steps - 1 } hd.shi) := by
      simp [Inf.lastStep, hh, h.status]
    rw [e]
    refine ⟨_, putValue_self _ _ _ _, h.status, h.slo, h.shi, h.steps, rfl, h.delta, ?_, ?_, ?_, ?_⟩
    · show 0 ≤ hd.steps - 1; omega
    · show hd.steps - 1 < hd.steps; omega
    · intro e; have e' : hd.steps - 1 = 0 := e; omega
    · intro _; rfl

end Verif.Pie
