import Verif.Pie.ZigZagProps

/-!
# Stepping set-ups stay proper (helper lemmas), and C04 for whole histories
-/

set_option linter.unusedSectionVars false

namespace Verif.Pie
variable {K : Type} [Field K] [LinearOrder K]

/-- Every stepping handler is proper. -/
def PI (s : Inf K) : Prop := ∀ i hd, s.h i = some hd → hd.status = .stepping → hd.proper

/-- The part of a handler that `proper` looks at, and the status. -/
structure SameSetup (a b : Handler K) : Prop where
  stype : b.stype = a.stype
  slo : b.slo = a.slo
  shi : b.shi = a.shi
  steps : b.steps = a.steps
  delta : b.delta = a.delta
  fac : b.fac = a.fac

theorem SameSetup.proper {a b : Handler K} (h : SameSetup a b) (ha : a.proper) : b.proper := by
  unfold Handler.proper at *
  rw [h.stype, h.slo, h.shi, h.steps, h.delta, h.fac]
  exact ha

theorem SameSetup.refl (a : Handler K) : SameSetup a a := ⟨rfl, rfl, rfl, rfl, rfl, rfl⟩

theorem PI.of_good {s s' : Inf K} (h : PI s) {i : ℕ} (hg : Good s i s')
    (hi : ∀ hd, s'.h i = some hd → hd.status = .stepping → hd.proper) : PI s' := by
  intro j hd hj hst
  by_cases hji : j = i
  · subst hji; exact hi hd hj hst
  · rcases hg.2 j hji with e | ⟨_, e⟩
    · exact h j hd (e ▸ hj) hst
    · rw [hj] at e
      cases hh : s.h j with
      | none => rw [hh] at e; simp at e
      | some x =>
        rw [hh] at e
        simp only [Option.map_some, Option.some.injEq] at e
        subst e
        exact SameSetup.proper (a := x) ⟨rfl, rfl, rfl, rfl, rfl, rfl⟩ (h j x hh hst)

theorem PI.resetState {s : Inf K} (h : PI s) (hs : Inv s) : PI (resetState s.stepping s) := by
  intro j hd hj hst
  rcases resetState_frame hs j with e | ⟨_, e⟩
  · exact h j hd (e ▸ hj) hst
  · rw [hj] at e
    cases hh : s.h j with
    | none => rw [hh] at e; simp at e
    | some x =>
      rw [hh] at e
      simp only [Option.map_some, Option.some.injEq] at e
      subst e
      exact SameSetup.proper (a := x) ⟨rfl, rfl, rfl, rfl, rfl, rfl⟩ (h j x hh hst)

/-- Results that keep the set-up, or leave stepping. -/
def Fine (hd : Handler K) (i : ℕ) (s' : Inf K) : Prop :=
  ∃ hd', s'.h i = some hd' ∧ (hd'.status = .stepping → (hd.status = .stepping ∧ SameSetup hd hd') ∨ hd'.proper)

theorem Fine.pi {s s' : Inf K} (h : PI s) {i : ℕ} {hd : Handler K} (hh : s.h i = some hd) (hg : Good s i s')
    (hf : Fine hd i s') : PI s' := by
  refine h.of_good hg fun x hx hst => ?_
  obtain ⟨hd', e, f⟩ := hf
  rw [e] at hx; injection hx with hx; subst hx
  rcases f hst with ⟨a, b⟩ | p
  · exact b.proper (h i hd hh a)
  · exact p

theorem Fine.same {s : Inf K} {i : ℕ} {hd : Handler K} (hh : s.h i = some hd) : Fine hd i s :=
  ⟨hd, hh, fun e => Or.inl ⟨e, SameSetup.refl _⟩⟩

theorem Fine.setH {s : Inf K} {i : ℕ} {hd hd' : Handler K} (hst : hd'.status = hd.status) (h : SameSetup hd hd') :
    Fine hd i (s.setH i hd') := ⟨hd', setH_self _ _ _, fun e => Or.inl ⟨hst ▸ e, h⟩⟩

theorem Fine.putValue {s : Inf K} {i : ℕ} {hd hd' : Handler K} {v : K} (hst : hd'.status = hd.status)
    (h : SameSetup hd hd') : Fine hd i (s.putValue i hd' v) :=
  ⟨_, putValue_self _ _ _ _, fun e => Or.inl ⟨hst ▸ e, h.1, h.2, h.3, h.4, h.5, h.6⟩⟩

theorem Fine.moved {s s' : Inf K} {i : ℕ} {hd hd' : Handler K} {st : Status} (hm : Moved s i hd' st s')
    (hst : st ≠ .stepping) : Fine hd i s' :=
  ⟨_, hm.self, fun e => by simp [hst] at e⟩

theorem fixH_fine {s : Inf K} (hs : Inv s) {i : ℕ} {hd : Handler K} (hh : s.h i = some hd) (v : Option K) :
    Fine hd i (s.fixH i hd v).1 := by
  unfold Inf.fixH
  have hst := (status_eq_of_h hh).symm
  cases v with
  | none =>
    dsimp only
    split_ifs with h
    · exact Fine.same hh
    · obtain ⟨s', e, hm⟩ := setStatus_moved hs (st := .fixed) hst (hs.val i hd hh h) (by decide)
      rw [e]; exact Fine.moved hm (by decide)
  | some v =>
    dsimp only
    have put : Fine hd i ((s.putValue i hd v).setStatus i { hd with value := some v } .fixed).1 := by
      rw [putValue_setStatus]
      obtain ⟨s', e, hm⟩ := setStatus_moved (hs.note i) (hd := { hd with value := some v }) (st := .fixed) hst rfl
        (by decide)
      rw [e]; exact Fine.moved hm (by decide)
    split
    · split_ifs
      · exact put
      · exact Fine.same hh
    · exact put

theorem setValueH_fine {s : Inf K} {i : ℕ} {hd : Handler K} (hh : s.h i = some hd) (v : K) :
    Fine hd i (s.setValueH i hd v).1 := by
  unfold Inf.setValueH
  split_ifs
  · exact Fine.same hh
  · split
    · split_ifs
      · exact Fine.putValue rfl (SameSetup.refl _)
      · exact Fine.same hh
    · exact Fine.putValue rfl (SameSetup.refl _)

theorem unboundedSetH_fine (c : Cfg K) {s : Inf K} {i : ℕ} {hd : Handler K} (hh : s.h i = some hd) (u : K) :
    Fine hd i (s.unboundedSetH c i hd u).1 := by
  unfold Inf.unboundedSetH
  by_cases h : hd.status ≠ .varying
  · rw [if_pos h]; exact Fine.same hh
  · rw [if_neg h]
    split
    · exact Fine.same hh
    · split
      · split_ifs
        · exact Fine.putValue rfl (SameSetup.refl _)
        · exact Fine.putValue rfl (SameSetup.refl _)
      · exact Fine.putValue rfl (SameSetup.refl _)

theorem varyH_fine {s : Inf K} (hs : Inv s) {i : ℕ} {hd : Handler K} (hh : s.h i = some hd)
    (hu : hd.status ≠ .undef) (st d : Option K) (r : Option (K × K)) : Fine hd i (s.varyH i hd st d r).1 := by
  unfold Inf.varyH
  by_cases h : (r.isNone && hd.bounds.isNone) = true
  · rw [if_pos h]; exact Fine.same hh
  · rw [if_neg h]
    dsimp only
    have hst := (status_eq_of_h hh).symm
    have hv := hs.val i hd hh hu
    set hd1 : Handler K := hd.withRange r with hd1def
    have e1 : hd1.status = hd.status := by rw [hd1def]; cases r <;> rfl
    have e2 : hd1.value = hd.value := by rw [hd1def]; cases r <;> rfl
    have e3 : SameSetup hd hd1 := by rw [hd1def]; cases r <;> exact ⟨rfl, rfl, rfl, rfl, rfl, rfl⟩
    cases hdel : d.or hd1.delta with
    | none => exact Fine.setH e1 e3
    | some dd =>
      obtain ⟨s', h1, hm⟩ := setStatus_moved hs (i := i) (hd := { hd1 with delta := some dd }) (st := .varying)
        (e1.trans hst) (by rw [e2]; exact hv) (by decide)
      simp only [h1, ok, Res.andThen_ok]
      cases st with
      | some v =>
        dsimp only
        unfold Inf.setValueH
        have key : ∀ t : Inf K, Fine hd i (t.putValue i { { hd1 with delta := some dd } with status := .varying } v) :=
          fun t => ⟨_, putValue_self _ _ _ _, fun e => by simp at e⟩
        split_ifs
        · exact Fine.moved hm (by decide)
        · split
          · split_ifs
            · exact key _
            · exact Fine.moved hm (by decide)
          · exact key _
      | none =>
        dsimp only
        split_ifs <;> exact Fine.moved hm (by decide)

theorem nextStepP_fine {s : Inf K} {i : ℕ} {hd : Handler K} (hh : s.h i = some hd) :
    Fine hd i (s.nextStepP i).1 := by
  unfold Inf.nextStepP
  rw [hh]
  dsimp only
  have same : ∀ k, SameSetup hd { hd with stepNum := k } := fun k => ⟨rfl, rfl, rfl, rfl, rfl, rfl⟩
  split_ifs
  · exact Fine.same hh
  · exact Fine.same hh
  · exact Fine.putValue (hd := hd) rfl (same _)
  · split
    · exact Fine.setH (hd := hd) rfl (same _)
    · split
      · split
        · exact Fine.setH (hd := hd) rfl (same _)
        · exact Fine.putValue (hd := hd) rfl (same _)
      · exact Fine.putValue (hd := hd) rfl (same _)

theorem prevStepP_fine {s : Inf K} {i : ℕ} {hd : Handler K} (hh : s.h i = some hd) :
    Fine hd i (s.prevStepP i).1 := by
  unfold Inf.prevStepP
  rw [hh]
  dsimp only
  have same : ∀ k, SameSetup hd { hd with stepNum := k } := fun k => ⟨rfl, rfl, rfl, rfl, rfl, rfl⟩
  split_ifs
  · exact Fine.same hh
  · exact Fine.same hh
  · exact Fine.putValue (hd := hd) rfl (same _)
  · split
    · exact Fine.setH (hd := hd) rfl (same _)
    · split
      · split
        · exact Fine.setH (hd := hd) rfl (same _)
        · exact Fine.putValue (hd := hd) rfl (same _)
      · exact Fine.putValue (hd := hd) rfl (same _)

theorem firstStep_fine {s : Inf K} {i : ℕ} {hd : Handler K} (hh : s.h i = some hd) :
    Fine hd i (s.firstStep i).1 := by
  unfold Inf.firstStep
  rw [hh]
  dsimp only
  split_ifs
  · exact Fine.same hh
  · exact Fine.putValue (hd := hd) rfl ⟨rfl, rfl, rfl, rfl, rfl, rfl⟩

theorem lastStep_fine {s : Inf K} {i : ℕ} {hd : Handler K} (hh : s.h i = some hd) :
    Fine hd i (s.lastStep i).1 := by
  unfold Inf.lastStep
  rw [hh]
  dsimp only
  split_ifs
  · exact Fine.same hh
  · exact Fine.putValue (hd := hd) rfl ⟨rfl, rfl, rfl, rfl, rfl, rfl⟩

theorem linstepH_fine {s : Inf K} (hs : Inv s) {i : ℕ} {hd : Handler K} (hh : s.h i = some hd) (lo hi : K) (n : ℤ)
    (hn : 2 ≤ n) : Fine hd i (s.linstepH i hd (some lo) (some hi) n).1 := by
  unfold Inf.linstepH
  by_cases h : (!hd.stepEndsOk (some lo) (some hi)) = true
  · rw [if_pos h]; exact Fine.same hh
  · rw [if_neg h]
    dsimp only
    rw [if_neg (by omega), putValue_setStatus]
    obtain ⟨s', e1, hm⟩ := setStatus_moved (hs.note i) (i := i) (st := .stepping)
        (hd := { hd with
          stype := .lin, slo := lo, shi := hi, steps := n, delta := some ((hi - lo) / ((n : K) - 1)), stepNum := 0,
          value := some lo }) (status_eq_of_h hh).symm rfl (by decide)
    rw [e1]
    refine ⟨_, hm.self, fun _ => Or.inr ?_⟩
    simp only [if_true, Handler.rst, Handler.proper]
    exact ⟨hn, trivial⟩

theorem logstepH_fine [IsStrictOrderedRing K] (c : Cfg K) (hroot : c.RootOk) {s : Inf K} (hs : Inv s) {i : ℕ}
    {hd : Handler K} (hh : s.h i = some hd) (lo hi : Option K) (n : ℤ)
    (hn : 1 ≤ n) : Fine hd i (s.logstepH c i hd lo hi n).1 := by
  unfold Inf.logstepH
  by_cases h : (!hd.stepEndsOk lo hi) = true
  · rw [if_pos h]; exact Fine.same hh
  · rw [if_neg h]
    split
    · rename_i lo hi
      by_cases hp : lo * hi ≤ 0
      · rw [if_pos hp]; exact Fine.same hh
      · rw [if_neg hp]
        dsimp only
        rw [putValue_setStatus]
        obtain ⟨s', e1, hm⟩ := setStatus_moved (hs.note i) (i := i) (st := .stepping)
          (hd := { hd with
            stype := .log, slo := lo, shi := hi, steps := n, fac := c.root (hi / lo) n, stepNum := 0,
            value := some lo }) (status_eq_of_h hh).symm rfl (by decide)
        rw [e1]
        refine ⟨_, hm.self, fun _ => Or.inr ?_⟩
        push Not at hp
        simp only [if_true, Handler.rst, Handler.proper]
        refine ⟨hn, fun e => ?_, fun e => ?_, fun h2 => hroot _ _ ?_ h2⟩
        · rw [e] at hp; simp at hp
        · rw [e] at hp; simp at hp
        · rcases mul_pos_iff.mp hp with ⟨a, b⟩ | ⟨a, b⟩
          · exact div_pos b a
          · exact div_pos_of_neg_of_neg b a
    · exact Fine.same hh

theorem access_pi (c : Cfg K) {s : Inf K} (hs : Inv s) (h : PI s) (i : ℕ) : PI (s.access c i).1 := by
  have hg := access_good c hs i
  rcases access_cases c hs i with ⟨_, e⟩ | ⟨_, _, s', e, hm⟩
  · rw [e]; exact h
  · rw [e] at hg ⊢
    refine h.of_good hg fun hd hh hst => ?_
    have := hm.self.symm.trans hh
    injection this with this
    rw [← this] at hst
    simp at hst

theorem onHandler_pi (c : Cfg K) {s : Inf K} (hs : Inv s) (h : PI s) (i : ℕ) {f : Inf K → Handler K → Res (Inf K)}
    (hg : ∀ s hd, Inv s → s.h i = some hd → hd.value.isSome → Good s i (f s hd).1)
    (hf : ∀ s hd, Inv s → s.h i = some hd → hd.status ≠ .undef → Fine hd i (f s hd).1) :
    PI (s.onHandler c i f).1 := by
  have h1 := access_good c hs i
  have hp := access_pi c hs h i
  obtain ⟨h2, hd, v, h3, h4, hu, _⟩ := access_ok c hs i
  unfold Inf.onHandler
  have : s.access c i = ok (s.access c i).1 := Prod.ext rfl h2
  rw [this]
  simp only [ok, Res.andThen_ok, h3]
  exact (hf _ _ h1.1 h3 hu).pi hp h3 (hg _ _ h1.1 h3 (by simp [h4]))

theorem andThen_pi {r : Res (Inf K)} {f : Inf K → Res (Inf K)}
    (h1 : Inv r.1 ∧ PI r.1) (h2 : ∀ s, Inv s → PI s → PI (f s).1) : PI (r.andThen f).1 := andThen_has h1 h2

theorem nextLoop_pi (last : ℕ) (l : List ℕ) {s : Inf K}
    (hs : Inv s) (h : PI s) : PI (Inf.nextLoop last l s).1 := by
  induction l generalizing s with
  | nil => exact h
  | cons j l ih =>
    unfold Inf.nextLoop
    cases hd : s.info j with
    | none => exact h
    | some d =>
      dsimp only
      have hg : Good s j (s.stepDir j d).1 := by
        cases d
        · exact nextStepP_good hs j
        · exact prevStepP_good hs j
      have hinfo : (s.stepDir j d).1.info = s.info := by
        cases d
        · exact (nextStepP_lists s j).1
        · exact (prevStepP_lists s j).1
      have hh : PI (s.stepDir j d).1 := by
        have hm := (hs.mem_stepping j).mp ((hs.info j).mp (by simp [hd]))
        obtain ⟨x, hx, _⟩ := h_of_status hm (by decide)
        cases d
        · exact (nextStepP_fine hx).pi h hx hg
        · exact (prevStepP_fine hx).pi h hx hg
      have hsd := hg.1
      clear hg
      generalize s.stepDir j d = r at hinfo hh hsd
      obtain ⟨s', _ | e⟩ := r
      · exact hh
      · cases e
        case paramRange =>
          dsimp only
          split_ifs
          · rw [resetSteps_eq hsd]
            exact hh.resetState hsd
          · have h2 : Inv { s' with info := Function.update s'.info j (some d.reverse) } :=
              hsd.setInfo _ (by dsimp only at hinfo; rw [hinfo, hd]; rfl)
            exact ih h2 hh
        all_goals exact hh

/-- The operation, if it sets up stepping, gives both ends and at least two steps (one for `logstep`). -/
def Op.stepsOk : Op K → Prop
  | .linstep _ lo hi n => lo.isSome ∧ hi.isSome ∧ 2 ≤ n
  | .logstep _ _ _ n => 1 ≤ n
  | _ => True

theorem step_pi [IsStrictOrderedRing K] (c : Cfg K) (hroot : c.RootOk) {s : Inf K} (hs : Inv s) (h : PI s) (op : Op K)
    (hop : op.stepsOk) : PI (s.step c op).1 := by
  have setv : ∀ (l : List (ℕ × K)) (s : Inf K), Inv s → PI s → PI (Inf.setVaryingLoop l s).1 := by
    intro l
    induction l with
    | nil => intro s _ h; exact h
    | cons p l ih =>
      intro s hs h
      obtain ⟨i, v⟩ := p
      unfold Inf.setVaryingLoop
      cases hh : s.h i with
      | none => exact h
      | some hd =>
        have hg := setValueH_good hs v (status_eq_of_h hh).symm
        exact andThen_pi ⟨hg.1, (setValueH_fine hh v).pi h hh hg⟩ ih
  cases op with
  | get i => exact access_pi c hs h i
  | assign i v =>
    show PI (s.assign i v).1
    have hg := assign_good hs i v
    unfold Inf.assign at hg ⊢
    cases hh : s.h i with
    | some hd => rw [hh] at hg; exact (fixH_fine hs hh v).pi h hh hg
    | none =>
      rw [hh] at hg
      have hu : s.status i = .undef := by simp [Inf.status, hh]
      have h1 := Good.install hs hu
      have h2 : PI (s.setH i ({} : Handler K)) := h.of_good h1 fun hd e hst => by
        rw [setH_self] at e; injection e with e; subst e; simp at hst
      have h3 : (s.setH i ({} : Handler K)).h i = some {} := setH_self _ _ _
      exact (fixH_fine h1.1 h3 v).pi h2 h3 (fixH_good h1.1 v (by simp [status_setH]) (by simp))
  | fix i v =>
    exact onHandler_pi c hs h i (fun s hd hs hh hv => fixH_good hs v (status_eq_of_h hh).symm (hs.value_iff hh))
      fun s hd hs hh _ => fixH_fine hs hh v
  | setValue i v =>
    exact onHandler_pi c hs h i (fun s hd hs hh hv => setValueH_good hs v (status_eq_of_h hh).symm)
      fun s hd hs hh _ => setValueH_fine hh v
  | range i a b =>
    refine onHandler_pi c hs h i (fun s hd hs hh hv => ?_) fun s hd hs hh _ => ?_
    · have h1 : (hd.range a b).status = s.status i := (status_eq_of_h hh).symm
      exact Good.setH hs h1 (hs.value_iff (hd := hd) hh)
    · exact Fine.setH (hd := hd) (hd' := hd.range a b) rfl ⟨rfl, rfl, rfl, rfl, rfl, rfl⟩
  | linstep i lo hi n =>
    obtain ⟨h1, h2, h3⟩ := hop
    obtain ⟨lo, rfl⟩ := Option.isSome_iff_exists.mp h1
    obtain ⟨hi, rfl⟩ := Option.isSome_iff_exists.mp h2
    exact onHandler_pi c hs h i
      (fun s hd hs hh hv => linstepH_good hs _ _ n (status_eq_of_h hh).symm (hs.value_iff hh))
      fun s hd hs hh _ => linstepH_fine hs hh lo hi n h3
  | logstep i lo hi n =>
    exact onHandler_pi c hs h i
      (fun s hd hs hh hv => logstepH_good c hs lo hi n (status_eq_of_h hh).symm)
      fun s hd hs hh _ => logstepH_fine c hroot hs hh lo hi n hop
  | nextStepP i =>
    exact onHandler_pi c hs h i (fun s hd hs hh hv => nextStepP_good hs i) fun s hd hs hh _ => nextStepP_fine hh
  | prevStepP i =>
    exact onHandler_pi c hs h i (fun s hd hs hh hv => prevStepP_good hs i) fun s hd hs hh _ => prevStepP_fine hh
  | firstStepP i =>
    exact onHandler_pi c hs h i (fun s hd hs hh hv => firstStep_good hs i) fun s hd hs hh _ => firstStep_fine hh
  | lastStepP i =>
    exact onHandler_pi c hs h i (fun s hd hs hh hv => lastStep_good hs i) fun s hd hs hh _ => lastStep_fine hh
  | vary i st d r =>
    exact onHandler_pi c hs h i
      (fun s hd hs hh hv => varyH_good hs st d r (status_eq_of_h hh).symm hv (hs.val' i hd hh hv))
      fun s hd hs hh hu => varyH_fine hs hh hu st d r
  | unboundedSet i u =>
    exact onHandler_pi c hs h i (fun s hd hs hh hv => unboundedSetH_good c hs u (status_eq_of_h hh).symm)
      fun s hd hs hh _ => unboundedSetH_fine c hh u
  | nextStep =>
    show PI s.nextStep.1
    unfold Inf.nextStep
    split
    · exact h
    · exact nextLoop_pi _ _ hs h
  | resetSteps =>
    show PI s.resetSteps.1
    rw [resetSteps_eq hs]
    exact h.resetState hs
  | setVarying vs =>
    show PI (s.setVarying vs).1
    unfold Inf.setVarying
    split_ifs
    · exact h
    · exact setv _ s hs h
  | scoreSet vs => exact setv _ s hs h
  | scoreSetUnbounded vs =>
    have : ∀ (l : List (ℕ × K)) (s : Inf K), Inv s → PI s → PI (Inf.unboundedLoop c l s).1 := by
      intro l
      induction l with
      | nil => intro s _ h; exact h
      | cons p l ih =>
        intro s hs h
        obtain ⟨i, v⟩ := p
        unfold Inf.unboundedLoop
        cases hh : s.h i with
        | none => exact h
        | some hd =>
          have hg := unboundedSetH_good c hs v (status_eq_of_h hh).symm
          exact andThen_pi ⟨hg.1, (unboundedSetH_fine c hh v).pi h hh hg⟩ ih
    exact this _ s hs h
  | setParams pv =>
    have : ∀ (l : List ℕ) (s : Inf K), Inv s → PI s → PI (Inf.setParamsLoop c pv l s).1 := by
      intro l
      induction l with
      | nil => intro s _ h; exact h
      | cons j l ih =>
        intro s hs h
        refine andThen_pi ⟨(setParam1_good c pv hs j).1, ?_⟩ ih
        unfold Inf.setParam1
        refine onHandler_pi c hs h j (fun s hd hs hh hv => ?_) (fun s hd hs hh hu => ?_)
        · have hst := (status_eq_of_h hh).symm
          have hu := hs.val' j hd hh hv
          split
          · split
            · exact Good.refl hs j
            · exact fixH_good hs _ hst (hs.value_iff hh)
          · split
            · exact Good.refl hs j
            · exact varyH_good hs _ _ _ hst hv hu
          · exact Good.refl hs j
        · split
          · split
            · exact Fine.same hh
            · exact fixH_fine hs hh _
          · split
            · exact Fine.same hh
            · exact varyH_fine hs hh hu _ _ _
          · exact Fine.same hh
    exact this _ s hs h
  | getParams =>
    have : ∀ (l : List ℕ) (s : Inf K), Inv s → PI s → PI (Inf.accessAll c l s).1 := by
      intro l
      induction l with
      | nil => intro s _ h; exact h
      | cons j l ih => intro s hs h; exact andThen_pi ⟨(access_good c hs j).1, access_pi c hs h j⟩ ih
    exact this _ s hs h

/-- **C04, hypotheses met by whole histories.** In every history whose `linstep` calls give both ends and at least two
steps and whose `logstep` calls give at least one step, every stepping parameter is properly set up; and after
`reset_steps()` the inference is at the start of its grid. -/
theorem C04_histories_are_proper [IsStrictOrderedRing K] (c : Cfg K) (hroot : c.RootOk) (ops : List (Op K))
    (hops : ∀ op ∈ ops, op.stepsOk) :
    (Inf.init.run c ops).allProper ∧ (Inf.init.run c (ops ++ [.resetSteps])).allProper ∧
    (Inf.init.run c (ops ++ [.resetSteps])).atStart := by
  have key : ∀ (ops : List (Op K)) (s : Inf K), Inv s → PI s → (∀ op ∈ ops, op.stepsOk) → PI (s.run c ops) := by
    intro ops
    induction ops with
    | nil => intro s _ h _; exact h
    | cons op ops ih =>
      intro s hs h hops
      exact ih _ (step_good c hs op).1 (step_pi c hroot hs h op (hops op (by simp))) fun o ho => hops o (by simp [ho])
  have toAll : ∀ s : Inf K, Inv s → PI s → s.allProper := by
    intro s hs h i hi hd hh
    refine h i hd hh ?_
    rw [← status_eq_of_h hh]; exact (hs.mem_stepping i).mp hi
  have hs := run_inv c ops (Inv.init (K := K))
  have hpi := key ops Inf.init Inv.init (fun i hd h => by simp [Inf.init] at h) hops
  have e : Inf.init.run c (ops ++ [.resetSteps]) = resetState (Inf.init.run c ops).stepping (Inf.init.run c ops) := by
    have e1 : Inf.init.run c (ops ++ [.resetSteps]) = (Inf.init.run c ops).resetSteps.1 := by
      simp only [Inf.run, List.foldl_append, List.foldl_cons, List.foldl_nil]
      rfl
    rw [e1, resetSteps_eq hs]
    rfl
  refine ⟨toAll _ hs hpi, ?_, ?_⟩
  · rw [e]; exact toAll _ (resetState_inv hs) (hpi.resetState hs)
  · rw [e]
    intro i hi
    have hi' : i ∈ (Inf.init.run c ops).stepping := hi
    obtain ⟨hd, hh, _⟩ := h_of_status ((hs.mem_stepping i).mp hi') (by decide)
    exact ⟨hd.rst, by simp [resetState, hi', hh], rfl, rfl, by simp [resetState, hi']⟩

/-- Non-vacuity: a history satisfying the hypothesis, with a failing operation in it. -/
example : ∀ op ∈ ([.linstep 0 (some 0) (some 1) 3, .range 1 0 1, .logstep 1 (some 2) (some 8) 4, .nextStep] : List (Op ℝ)),
    op.stepsOk := by
  intro op hop
  simp only [List.mem_cons, List.not_mem_nil, or_false] at hop
  rcases hop with rfl | rfl | rfl | rfl <;> simp [Op.stepsOk]

end Verif.Pie
