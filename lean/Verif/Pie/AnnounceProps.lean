import Verif.Pie.VaryProps

/-!
# C23 (first part): every write of a parameter value is announced, once, and reads announce nothing
-/

set_option linter.unusedSectionVars false
set_option linter.unusedSimpArgs false

namespace Verif.Pie
variable {K : Type} [Field K] [LinearOrder K]

/-- The most recent value written to `j`, if any was (`w` lists writes, most recent first). -/
def lastWrite (w : List (ℕ × K)) (j : ℕ) : Option K := (w.find? (fun p => p.1 = j)).map Prod.snd

/-- Going from `s` to `s'`, the values written are `w` (most recent first): the owner was notified of exactly the
parameters in `w` in that order, once per write, and every parameter now has the value last written to it, or the one
it had if none was. -/
def Writes (w : List (ℕ × K)) (s s' : Inf K) : Prop :=
  s'.changes = w.map Prod.fst ++ s.changes ∧ ∀ j, s'.value j = (lastWrite w j).or (s.value j)

/-! ### Helpers -/

theorem lastWrite_append (w w' : List (ℕ × K)) (j : ℕ) :
    lastWrite (w ++ w') j = (lastWrite w j).or (lastWrite w' j) := by
  unfold lastWrite
  rw [List.find?_append]
  cases w.find? (fun p => p.1 = j) <;> simp

theorem lastWrite_map (l : List ℕ) (f : ℕ → K) (j : ℕ) :
    lastWrite (l.map fun i => (i, f i)) j = if j ∈ l then some (f j) else none := by
  unfold lastWrite
  induction l with
  | nil => simp
  | cons a l ih =>
    by_cases h : a = j
    · subst h; simp
    · simp [h, Ne.symm h] at ih ⊢
      exact ih

def Ann (s s' : Inf K) : Prop := ∃ w, Writes w s s'

theorem Ann.refl (s : Inf K) : Ann s s := ⟨[], by simp [Writes, lastWrite]⟩

theorem Ann.trans {a b c : Inf K} (h : Ann a b) (h' : Ann b c) : Ann a c := by
  obtain ⟨w, h1, h2⟩ := h
  obtain ⟨w', h1', h2'⟩ := h'
  refine ⟨w' ++ w, by rw [h1', h1]; simp, fun j => ?_⟩
  rw [h2', h2, lastWrite_append]
  cases lastWrite w' j <;> simp

theorem Ann.silent {s s' : Inf K} (h1 : s'.changes = s.changes) (h2 : ∀ j, s'.value j = s.value j) : Ann s s' :=
  ⟨[], by simp [h1], fun j => by simp [lastWrite, h2]⟩

theorem Ann.setH {s : Inf K} {i : ℕ} {hd : Handler K} (h : hd.value = s.value i) : Ann s (s.setH i hd) := by
  refine Ann.silent rfl fun j => ?_
  unfold Inf.value
  rw [setH_apply]
  split_ifs with hj
  · subst hj; exact h
  · rfl

theorem Writes.put (s : Inf K) (i : ℕ) (hd : Handler K) (v : K) : Writes [(i, v)] s (s.putValue i hd v) := by
  refine ⟨rfl, fun j => ?_⟩
  unfold Inf.value lastWrite
  rw [putValue_apply]
  by_cases hj : j = i
  · subst hj; simp
  · simp [hj, Ne.symm hj]

theorem Ann.put (s : Inf K) (i : ℕ) (hd : Handler K) (v : K) : Ann s (s.putValue i hd v) := ⟨_, Writes.put s i hd v⟩

/-- The first step values. -/
def Inf.slos (s : Inf K) (j : ℕ) : K := ((s.h j).map (·.slo)).getD 0

theorem Writes.reset {s : Inf K} (hs : Inv s) :
    Writes (s.stepping.reverse.map fun j => (j, s.slos j)) s (resetState s.stepping s) := by
  refine ⟨by simp [resetState, Function.comp_def], fun j => ?_⟩
  rw [lastWrite_map]
  by_cases hj : j ∈ s.stepping
  · obtain ⟨hd, hh, _⟩ := h_of_status ((hs.mem_stepping j).mp hj) (by decide)
    simp [Inf.value, resetState, hj, hh, Handler.rst, Inf.slos]
  · simp [Inf.value, resetState, hj]

theorem Moved.ann {s s' : Inf K} (hs : Inv s) {i : ℕ} {hd : Handler K} {st : Status} (hst : hd.status = s.status i)
    (h : Moved s i hd st s') : Ann (s.setH i hd) s' := by
  set L := updList s.stepping i .stepping hd.status st with hL
  have hLi : i ∈ L ↔ st = .stepping := by
    rw [hL]
    unfold updList
    by_cases e : hd.status = st
    · rw [if_pos e, hs.mem_stepping, ← hst, e]
    · rw [if_neg e]
      by_cases e2 : st = .stepping
      · simp [e2]
      · simp only [e2, if_false, List.append_nil, iff_false]
        split_ifs with e3
        · exact (hs.stepping_nd).not_mem_erase
        · rw [hs.mem_stepping, ← hst]; exact e3
  have hLj : ∀ j, j ≠ i → (j ∈ L ↔ s.status j = .stepping) := by
    intro j hj
    rw [hL, ← hs.mem_stepping]
    unfold updList
    split_ifs <;> simp [hj, List.mem_erase_of_ne hj]
  by_cases hC : hd.status = .stepping ∨ st = .stepping
  · refine ⟨L.reverse.map fun j => (j, (s.setH i hd).slos j), ?_, fun j => ?_⟩
    · rw [h.changes, if_pos hC]; simp [Function.comp_def, hL]
    · rw [lastWrite_map]
      simp only [List.mem_reverse]
      by_cases hj : j = i
      · subst hj
        rw [Inf.value, h.self]
        by_cases e : st = .stepping
        · simp [hLi, e, Handler.rst, Inf.slos]
        · simp [hLi, e, Inf.value]
      · rw [Inf.value, h.other j hj]
        by_cases e : s.status j = .stepping
        · obtain ⟨hd', hh, _⟩ := h_of_status e (by decide)
          simp [hC, e, hLj j hj, hh, Handler.rst, Inf.slos, setH_ne _ _ hj]
        · simp [e, hLj j hj, Inf.value, setH_ne _ _ hj]
  · refine Ann.silent ?_ fun j => ?_
    · rw [h.changes, if_neg hC]; rfl
    · by_cases hj : j = i
      · subst hj
        rw [Inf.value, h.self, if_neg (fun e => hC (Or.inr e))]
        simp [Inf.value]
      · rw [Inf.value, h.other j hj, if_neg (fun e => hC e.1)]
        simp [Inf.value, setH_ne _ _ hj]

theorem setStatus_ann {s : Inf K} (hs : Inv s) {i : ℕ} {hd : Handler K} {st : Status}
    (hst : hd.status = s.status i) (hv : hd.value.isSome) (hne : st ≠ .undef) (hval : hd.value = s.value i) :
    Ann s (s.setStatus i hd st).1 := by
  obtain ⟨s', h1, h2⟩ := setStatus_moved hs hst hv hne
  rw [h1]
  exact (Ann.setH hval).trans (h2.ann hs hst)

theorem putStatus_ann {s : Inf K} (hs : Inv s) {i : ℕ} {hd hd' : Handler K} {v : K} {st : Status}
    (hst : hd'.status = s.status i) (hv : hd'.value = some v) (hne : st ≠ .undef) :
    Ann s ((s.putValue i hd v).setStatus i hd' st).1 := by
  rw [putValue_setStatus]
  obtain ⟨s', h1, h2⟩ := setStatus_moved (hs.note i) (hd := hd') hst (by rw [hv]; rfl) hne
  rw [h1]
  refine Ann.trans ?_ (h2.ann (hs.note i) hst)
  refine ⟨[(i, v)], rfl, fun j => ?_⟩
  unfold Inf.value lastWrite
  rw [setH_apply]
  by_cases hj : j = i
  · subst hj; simp [hv]
  · simp [hj, Ne.symm hj]

theorem fixH_ann {s : Inf K} (hs : Inv s) {i : ℕ} {hd : Handler K} (v : Option K)
    (hst : hd.status = s.status i) (hv : hd.value.isSome ↔ hd.status ≠ .undef) (hval : hd.value = s.value i) :
    Ann s (s.fixH i hd v).1 := by
  unfold Inf.fixH
  cases v with
  | none =>
    dsimp only
    split_ifs with h
    · exact Ann.refl s
    · exact setStatus_ann hs hst (hv.mpr h) (by decide) hval
  | some v =>
    dsimp only
    split
    · split_ifs
      · exact putStatus_ann hs hst rfl (by decide)
      · exact Ann.refl s
    · exact putStatus_ann hs hst rfl (by decide)

theorem setValueH_ann (s : Inf K) (i : ℕ) (hd : Handler K) (v : K) : Ann s (s.setValueH i hd v).1 := by
  unfold Inf.setValueH
  split_ifs
  · exact Ann.refl s
  · split
    · split_ifs
      · exact Ann.put s i hd v
      · exact Ann.refl s
    · exact Ann.put s i hd v

theorem unboundedSetH_ann (c : Cfg K) (s : Inf K) (i : ℕ) (hd : Handler K) (v : K) :
    Ann s (s.unboundedSetH c i hd v).1 := by
  unfold Inf.unboundedSetH
  by_cases h : hd.status ≠ .varying
  · rw [if_pos h]; exact Ann.refl s
  · rw [if_neg h]
    split
    · exact Ann.refl s
    · split
      · split_ifs <;> exact Ann.put _ _ _ _
      · exact Ann.put _ _ _ _

theorem linstepH_ann {s : Inf K} (hs : Inv s) {i : ℕ} {hd : Handler K} (lo hi : Option K) (n : ℤ)
    (hst : hd.status = s.status i) (hval : hd.value = s.value i) : Ann s (s.linstepH i hd lo hi n).1 := by
  unfold Inf.linstepH
  by_cases h : (!hd.stepEndsOk lo hi) = true
  · rw [if_pos h]; exact Ann.refl s
  · rw [if_neg h]
    dsimp only
    split
    · exact Ann.setH hval
    · split
      · exact Ann.setH hval
      · split
        · split_ifs
          · exact Ann.setH hval
          · exact putStatus_ann hs hst rfl (by decide)
        · exact Ann.setH hval

theorem logstepH_ann (c : Cfg K) {s : Inf K} (hs : Inv s) {i : ℕ} {hd : Handler K} (lo hi : Option K) (n : ℤ)
    (hst : hd.status = s.status i) : Ann s (s.logstepH c i hd lo hi n).1 := by
  unfold Inf.logstepH
  by_cases h : (!hd.stepEndsOk lo hi) = true
  · rw [if_pos h]; exact Ann.refl s
  · rw [if_neg h]
    split
    · split_ifs
      · exact Ann.refl s
      · exact putStatus_ann hs hst rfl (by decide)
    · exact Ann.refl s

theorem varyH_ann {s : Inf K} (hs : Inv s) {i : ℕ} {hd : Handler K} (st d : Option K) (r : Option (K × K))
    (hst : hd.status = s.status i) (hv : hd.value.isSome) (hval : hd.value = s.value i) :
    Ann s (s.varyH i hd st d r).1 := by
  unfold Inf.varyH
  by_cases h : (r.isNone && hd.bounds.isNone) = true
  · rw [if_pos h]; exact Ann.refl s
  · rw [if_neg h]
    dsimp only
    cases hdel : d.or (hd.withRange r).delta with
    | none => exact Ann.setH ((withRange_value hd r).trans hval)
    | some dd =>
      have hvs := setStatus_ann hs (i := i) (hd := { hd.withRange r with delta := some dd }) (st := .varying)
        ((withRange_status hd r).trans hst) (by rw [withRange_value]; exact hv) (by decide)
        ((withRange_value hd r).trans hval)
      dsimp only
      generalize s.setStatus i { hd.withRange r with delta := some dd } .varying = q at hvs
      obtain ⟨s', _ | e⟩ := q
      · simp only [Res.andThen_ok]
        cases st with
        | some v => exact hvs.trans (setValueH_ann _ _ _ _)
        | none => dsimp only; split_ifs <;> exact hvs
      · exact hvs

theorem value_of_h {s : Inf K} {i : ℕ} {hd : Handler K} (h : s.h i = some hd) : hd.value = s.value i := by
  simp [Inf.value, h]

theorem nextStepP_ann (s : Inf K) (i : ℕ) : Ann s (s.nextStepP i).1 := by
  unfold Inf.nextStepP
  split
  · exact Ann.refl s
  · rename_i hd hh
    by_cases h : hd.status ≠ .stepping
    · rw [if_pos h]; exact Ann.refl s
    · rw [if_neg h]
      split_ifs
      · exact Ann.refl s
      · dsimp only; split_ifs
        · exact Ann.put _ _ _ _
        · split
          · exact Ann.setH (hd := { hd with stepNum := _ }) (value_of_h (hd := hd) hh)
          · split
            · split
              · exact Ann.setH (hd := { hd with stepNum := _ }) (value_of_h (hd := hd) hh)
              · exact Ann.put _ _ _ _
            · exact Ann.put _ _ _ _

theorem prevStepP_ann (s : Inf K) (i : ℕ) : Ann s (s.prevStepP i).1 := by
  unfold Inf.prevStepP
  split
  · exact Ann.refl s
  · rename_i hd hh
    by_cases h : hd.status ≠ .stepping
    · rw [if_pos h]; exact Ann.refl s
    · rw [if_neg h]
      split_ifs
      · exact Ann.refl s
      · dsimp only; split_ifs
        · exact Ann.put _ _ _ _
        · split
          · exact Ann.setH (hd := { hd with stepNum := _ }) (value_of_h (hd := hd) hh)
          · split
            · split
              · exact Ann.setH (hd := { hd with stepNum := _ }) (value_of_h (hd := hd) hh)
              · exact Ann.put _ _ _ _
            · exact Ann.put _ _ _ _

theorem firstStep_ann (s : Inf K) (i : ℕ) : Ann s (s.firstStep i).1 := by
  unfold Inf.firstStep
  split
  · exact Ann.refl s
  · split_ifs
    · exact Ann.refl s
    · exact Ann.put _ _ _ _

theorem lastStep_ann (s : Inf K) (i : ℕ) : Ann s (s.lastStep i).1 := by
  unfold Inf.lastStep
  split
  · exact Ann.refl s
  · split_ifs
    · exact Ann.refl s
    · exact Ann.put _ _ _ _

theorem andThen_ann {s : Inf K} {r : Res (Inf K)} {f : Inf K → Res (Inf K)}
    (h1 : Ann s r.1) (h2 : Ann r.1 (f r.1).1) : Ann s (r.andThen f).1 := by
  obtain ⟨s', _ | e⟩ := r
  · exact h1.trans h2
  · exact h1

theorem access_writes (c : Cfg K) {s : Inf K} (hs : Inv s) (i : ℕ) :
    Writes (if s.value i = none then [(i, c.default i)] else []) s (s.access c i).1 := by
  rcases access_cases c hs i with ⟨⟨hd, v, h1, h2⟩, e⟩ | ⟨hu, hn, s', e, hm⟩
  · rw [e, if_neg (by simp [Inf.value, h1, h2])]
    simp [Writes, ok, lastWrite]
  · rw [e, if_pos (show s.value i = none from hn)]
    refine ⟨?_, fun j => ?_⟩
    · show s'.changes = _
      rw [hm.changes]; simp
    · show s'.value j = _
      unfold Inf.value lastWrite
      by_cases hj : j = i
      · subst hj; rw [hm.self]; simp
      · rw [hm.other j hj]; simp [hj, Ne.symm hj]

theorem access_ann (c : Cfg K) {s : Inf K} (hs : Inv s) (i : ℕ) : Ann s (s.access c i).1 := ⟨_, access_writes c hs i⟩

theorem onHandler_ann (c : Cfg K) {s : Inf K} (hs : Inv s) (i : ℕ) {f : Inf K → Handler K → Res (Inf K)}
    (hf : ∀ s hd, Inv s → s.h i = some hd → hd.value.isSome → Ann s (f s hd).1) : Ann s (s.onHandler c i f).1 := by
  obtain ⟨h2, hd, v, h3, h4, _⟩ := access_ok c hs i
  have hg := (access_good c hs i).1
  have ha := access_ann c hs i
  unfold Inf.onHandler
  have : s.access c i = ok (s.access c i).1 := Prod.ext rfl h2
  rw [this]
  simp only [ok, Res.andThen_ok, h3]
  exact ha.trans (hf _ _ hg h3 (by simp [h4]))

theorem nextLoop_ann (last : ℕ) (l : List ℕ) : ∀ {s : Inf K} (_ : Inv s), Ann s (Inf.nextLoop last l s).1 := by
  induction l with
  | nil => intro s _; exact Ann.refl s
  | cons i l ih =>
    intro s hs
    unfold Inf.nextLoop
    cases hd : s.info i with
    | none => exact Ann.refl s
    | some d =>
      dsimp only
      have hv : Ann s (s.stepDir i d).1 := by
        cases d
        · exact nextStepP_ann s i
        · exact prevStepP_ann s i
      have hg : Inv (s.stepDir i d).1 := by
        cases d
        · exact (nextStepP_good hs i).1
        · exact (prevStepP_good hs i).1
      have hinfo : (s.stepDir i d).1.info = s.info := by
        cases d
        · exact (nextStepP_lists s i).1
        · exact (prevStepP_lists s i).1
      generalize s.stepDir i d = r at hv hg hinfo
      obtain ⟨s', _ | e⟩ := r
      · exact hv
      · cases e
        case paramRange =>
          dsimp only
          split_ifs
          · rw [resetSteps_eq hg]
            exact hv.trans ⟨_, Writes.reset hg⟩
          · have h2 : Inv { s' with info := Function.update s'.info i (some d.reverse) } :=
              hg.setInfo _ (by dsimp only at hinfo; rw [hinfo, hd]; rfl)
            exact (hv.trans (Ann.silent rfl fun _ => rfl)).trans (ih h2)
        all_goals exact hv

theorem setVaryingLoop_ann (l : List (ℕ × K)) : ∀ s : Inf K, Ann s (Inf.setVaryingLoop l s).1 := by
  induction l with
  | nil => intro s; exact Ann.refl s
  | cons p l ih =>
    intro s
    obtain ⟨i, v⟩ := p
    unfold Inf.setVaryingLoop
    cases hh : s.h i with
    | none => exact Ann.refl s
    | some hd => exact andThen_ann (setValueH_ann s i hd v) (ih _)

theorem unboundedLoop_ann (c : Cfg K) (l : List (ℕ × K)) : ∀ s : Inf K, Ann s (Inf.unboundedLoop c l s).1 := by
  induction l with
  | nil => intro s; exact Ann.refl s
  | cons p l ih =>
    intro s
    obtain ⟨i, v⟩ := p
    unfold Inf.unboundedLoop
    cases hh : s.h i with
    | none => exact Ann.refl s
    | some hd => exact andThen_ann (unboundedSetH_ann c s i hd v) (ih _)

theorem setParam1_ann (c : Cfg K) (pv : ℕ → Option K) {s : Inf K} (hs : Inv s) (i : ℕ) :
    Ann s (s.setParam1 c pv i).1 := by
  unfold Inf.setParam1
  refine onHandler_ann c hs i fun s hd hs hh hv => ?_
  have hst := (status_eq_of_h hh).symm
  split
  · split
    · exact Ann.refl s
    · exact fixH_ann hs _ hst (hs.value_iff hh) (value_of_h hh)
  · split
    · exact Ann.refl s
    · exact varyH_ann hs _ _ _ hst hv (value_of_h hh)
  · exact Ann.refl s

theorem setParamsLoop_ann (c : Cfg K) (pv : ℕ → Option K) (l : List ℕ) : ∀ {s : Inf K} (_ : Inv s),
    Ann s (Inf.setParamsLoop c pv l s).1 := by
  induction l with
  | nil => intro s _; exact Ann.refl s
  | cons i l ih => intro s hs; exact andThen_ann (setParam1_ann c pv hs i) (ih (setParam1_good c pv hs i).1)

theorem accessAll_ann (c : Cfg K) (l : List ℕ) : ∀ {s : Inf K} (_ : Inv s), Ann s (Inf.accessAll c l s).1 := by
  induction l with
  | nil => intro s _; exact Ann.refl s
  | cons i l ih => intro s hs; exact andThen_ann (access_ann c hs i) (ih (access_good c hs i).1)

theorem step_ann (c : Cfg K) {s : Inf K} (hs : Inv s) (op : Op K) : Ann s (s.step c op).1 := by
  cases op with
  | get i => exact access_ann c hs i
  | assign i v =>
    show Ann s (s.assign i v).1
    unfold Inf.assign
    cases hh : s.h i with
    | some hd => exact fixH_ann hs v (status_eq_of_h hh).symm (hs.value_iff hh) (value_of_h hh)
    | none =>
      have hu : s.status i = .undef := by simp [Inf.status, hh]
      have h1 := Good.install hs hu
      have e : Ann s (s.setH i ({} : Handler K)) := Ann.setH (by simp [Inf.value, hh])
      exact e.trans (fixH_ann h1.1 (i := i) (hd := {}) v (by simp [status_setH]) (by simp) (by simp [Inf.value]))
  | fix i v =>
    exact onHandler_ann c hs i fun s hd hs hh hv =>
      fixH_ann hs v (status_eq_of_h hh).symm (hs.value_iff hh) (value_of_h hh)
  | setValue i v => exact onHandler_ann c hs i fun s hd hs hh hv => setValueH_ann s i hd v
  | range i a b => exact onHandler_ann c hs i fun s hd hs hh hv => Ann.setH (hd := hd.range a b) (value_of_h (hd := hd) hh)
  | linstep i lo hi n =>
    exact onHandler_ann c hs i fun s hd hs hh hv => linstepH_ann hs lo hi n (status_eq_of_h hh).symm (value_of_h hh)
  | logstep i lo hi n =>
    exact onHandler_ann c hs i fun s hd hs hh hv => logstepH_ann c hs lo hi n (status_eq_of_h hh).symm
  | nextStepP i => exact onHandler_ann c hs i fun s hd hs hh hv => nextStepP_ann s i
  | prevStepP i => exact onHandler_ann c hs i fun s hd hs hh hv => prevStepP_ann s i
  | firstStepP i => exact onHandler_ann c hs i fun s hd hs hh hv => firstStep_ann s i
  | lastStepP i => exact onHandler_ann c hs i fun s hd hs hh hv => lastStep_ann s i
  | vary i st d r =>
    exact onHandler_ann c hs i fun s hd hs hh hv => varyH_ann hs st d r (status_eq_of_h hh).symm hv (value_of_h hh)
  | unboundedSet i u => exact onHandler_ann c hs i fun s hd hs hh hv => unboundedSetH_ann c s i hd u
  | nextStep =>
    show Ann s s.nextStep.1
    unfold Inf.nextStep
    split
    · exact Ann.refl s
    · exact nextLoop_ann _ _ hs
  | resetSteps =>
    show Ann s s.resetSteps.1
    rw [resetSteps_eq hs]
    exact ⟨_, Writes.reset hs⟩
  | setVarying vs =>
    show Ann s (s.setVarying vs).1
    unfold Inf.setVarying
    split_ifs
    · exact Ann.refl s
    · exact setVaryingLoop_ann _ _
  | scoreSet vs => exact setVaryingLoop_ann _ _
  | scoreSetUnbounded vs => exact unboundedLoop_ann c _ _
  | setParams pv => exact setParamsLoop_ann c pv _ hs
  | getParams => exact accessAll_ann c _ hs

/-! ### The properties -/

/-- **C23 (announcements).** Whatever the operation, and whether or not it raises, the owner is notified exactly once for
each write of a parameter value: there is a list of writes whose names are exactly the notifications made, in order, and
which accounts for every parameter's value afterwards. In particular a parameter whose value differs has been
announced. -/
theorem C23_announced (c : Cfg K) (s : Inf K) (hr : Reachable c s) (op : Op K) :
    ∃ w, Writes w s (s.step c op).1 ∧ ∀ j, (s.step c op).1.value j ≠ s.value j → j ∈ w.map Prod.fst := by
  obtain ⟨w, hw⟩ := step_ann c hr.inv op
  refine ⟨w, hw, fun j hj => ?_⟩
  rw [hw.2 j] at hj
  by_contra hc
  apply hj
  have : lastWrite w j = none := by
    unfold lastWrite
    rw [List.find?_eq_none.mpr]
    · rfl
    · intro p hp
      simp only [decide_eq_true_eq]
      rintro rfl
      exact hc (List.mem_map_of_mem hp)
  rw [this]; rfl

/-- **C23 (single writes).** A successful assignment, `fix(v)`, `set_value(v)` or `_unbounded_set_value` on a parameter
that has a value and is not stepping makes exactly one notification, of that parameter. -/
theorem C23_one_call (c : Cfg K) (s : Inf K) (hr : Reachable c s) (i : ℕ) (x v : K) (hx : s.value i = some x)
    (hst : s.status i ≠ .stepping) (op : Op K)
    (hop : op = .assign i (some v) ∨ op = .fix i (some v) ∨ op = .setValue i v ∨ op = .unboundedSet i v)
    (hok : (s.step c op).2 = none) : (s.step c op).1.changes = i :: s.changes := by
  have hs := hr.inv
  obtain ⟨hd, hh, hv⟩ : ∃ hd, s.h i = some hd ∧ hd.value = some x := by
    unfold Inf.value at hx
    cases hh : s.h i with
    | none => rw [hh] at hx; simp at hx
    | some hd => rw [hh] at hx; exact ⟨hd, rfl, hx⟩
  have hu : hd.status ≠ .undef := hs.val' i hd hh (by simp [hv])
  have hst' : hd.status = s.status i := (status_eq_of_h hh).symm
  have hfix : (s.fixH i hd (some v)).2 = none → (s.fixH i hd (some v)).1.changes = i :: s.changes := by
    unfold Inf.fixH
    have put : ((s.putValue i hd v).setStatus i { hd with value := some v } .fixed).1.changes = i :: s.changes := by
      rw [putValue_setStatus]
      obtain ⟨s', h1, h2⟩ := setStatus_moved (hs.note i) (hd := { hd with value := some v }) (st := .fixed) hst' rfl
        (by decide)
      rw [h1]
      show s'.changes = _
      rw [h2.changes, if_neg]
      · rfl
      · simp [hst', hst]
    dsimp only
    split
    · split_ifs
      · intro _; exact put
      · intro h; simp [raise] at h
    · intro _; exact put
  rcases hop with rfl | rfl | rfl | rfl
  · simp only [Inf.step, Inf.assign, hh] at hok ⊢
    exact hfix hok
  · simp only [Inf.step] at hok ⊢
    rw [onHandler_of_inv c hs hh hu] at hok ⊢
    exact hfix hok
  · simp only [Inf.step] at hok ⊢
    rw [onHandler_of_inv c hs hh hu] at hok ⊢
    unfold Inf.setValueH at hok ⊢
    split_ifs at hok ⊢
    · simp [raise] at hok
    · revert hok
      split
      · split_ifs
        · intro _; rfl
        · intro h; simp [raise] at h
      · intro _; rfl
  · simp only [Inf.step] at hok ⊢
    rw [onHandler_of_inv c hs hh hu] at hok ⊢
    unfold Inf.unboundedSetH at hok ⊢
    by_cases h : hd.status ≠ .varying
    · rw [if_pos h] at hok; simp [raise] at hok
    · rw [if_neg h] at hok ⊢
      revert hok
      split
      · intro h; simp [raise] at h
      · split
        · split_ifs <;> (intro _; rfl)
        · intro _; rfl

/-- **C23 (reads).** Reading a parameter that has a value does nothing at all; the first read of one that has none writes
its default, with one notification. `get_params()` notifies only of defaults it installs. -/
theorem C23_reads (c : Cfg K) (s : Inf K) (hr : Reachable c s) (i : ℕ) :
    (∀ v, s.value i = some v → s.step c (.get i) = (s, none)) ∧
    (s.value i = none → Writes [(i, c.default i)] s (s.step c (.get i)).1) ∧
    ((∀ j ∈ c.params, (s.value j).isSome) → s.step c .getParams = (s, none)) := by
  refine ⟨fun v hv => ?_, fun hn => ?_, fun hall => ?_⟩
  · show s.access c i = _
    unfold Inf.access; unfold Inf.value at hv; rw [hv]; rfl
  · have := access_writes c hr.inv i
    rwa [if_pos hn] at this
  · show Inf.accessAll c c.params s = _
    generalize c.params = l at hall
    induction l with
    | nil => rfl
    | cons a l ih =>
      have ha := hall a (by simp)
      unfold Inf.accessAll
      have e : s.access c a = (s, none) := by
        unfold Inf.access; unfold Inf.value at ha
        obtain ⟨v, hv⟩ := Option.isSome_iff_exists.mp ha
        rw [hv]; rfl
      rw [e]
      exact ih fun j hj => hall j (by simp [hj])

/-- Non-vacuity: setting up stepping writes the parameter twice, and resets the other stepping parameter. -/
example :
    let s := (Inf.init : Inf ℚ).run exCfg [.assign 0 (some 7), .linstep 1 (some 0) (some 3) 4, .nextStep]
    s.value 1 = some 1 ∧ s.changes = [1, 1, 1, 1, 0] ∧
    (s.step exCfg (.linstep 2 (some 5) (some 6) 2)).1.changes = [2, 1, 2, 2] ++ s.changes ∧
    (s.step exCfg (.assign 0 (some 8))).1.changes = 0 :: s.changes ∧ (s.step exCfg (.assign 0 (some 8))).2 = none ∧
    s.status 0 = .fixed := by
  decide +kernel

end Verif.Pie
