import Verif.Pie.SnapshotProps

/-!
# C16: varying parameters are set positionally, in the order in which they became varying
-/

set_option linter.unusedSectionVars false
set_option linter.unusedSimpArgs false

namespace Verif.Pie
variable {K : Type} [Field K] [LinearOrder K]

/-! ### Helpers: what operations do to the list of varying parameters -/

/-- The list keeps its order: unchanged, `i` appended, or `i` removed. -/
def VS (i : ℕ) (s s' : Inf K) : Prop :=
  s'.varying = s.varying ∨ (s.status i ≠ .varying ∧ s'.varying = s.varying ++ [i]) ∨ s'.varying = s.varying.erase i

theorem setStatus_vs {s : Inf K} (hs : Inv s) {i : ℕ} {hd : Handler K} {st : Status}
    (hst : hd.status = s.status i) (hv : hd.value.isSome) (hne : st ≠ .undef) : VS i s (s.setStatus i hd st).1 := by
  obtain ⟨s', h1, h2⟩ := setStatus_moved hs hst hv hne
  rw [h1]
  have := h2.varying
  unfold updList at this
  by_cases e : hd.status = st
  · rw [if_pos e] at this; exact Or.inl this
  · rw [if_neg e] at this
    by_cases e1 : hd.status = .varying
    · rw [if_pos e1, if_neg (fun h => e (e1.trans h.symm)), List.append_nil] at this
      exact Or.inr (Or.inr this)
    · rw [if_neg e1] at this
      by_cases e2 : st = .varying
      · rw [if_pos e2] at this; exact Or.inr (Or.inl ⟨hst ▸ e1, this⟩)
      · rw [if_neg e2, List.append_nil] at this; exact Or.inl this

theorem putStatus_vs {s : Inf K} (hs : Inv s) {i : ℕ} {hd hd' : Handler K} {v : K} {st : Status}
    (hst : hd'.status = s.status i) (hv : hd'.value.isSome) (hne : st ≠ .undef) :
    VS i s ((s.putValue i hd v).setStatus i hd' st).1 := by
  rw [putValue_setStatus]
  exact setStatus_vs (hs.note i) (i := i) (hd := hd') (st := st) hst hv hne

theorem fixH_vs {s : Inf K} (hs : Inv s) {i : ℕ} {hd : Handler K} (v : Option K)
    (hst : hd.status = s.status i) (hv : hd.value.isSome ↔ hd.status ≠ .undef) : VS i s (s.fixH i hd v).1 := by
  unfold Inf.fixH
  cases v with
  | none =>
    dsimp only
    split_ifs with h
    · exact Or.inl rfl
    · exact setStatus_vs hs hst (hv.mpr h) (by decide)
  | some v =>
    dsimp only
    split
    · split_ifs
      · exact putStatus_vs hs hst rfl (by decide)
      · exact Or.inl rfl
    · exact putStatus_vs hs hst rfl (by decide)

theorem setValueH_varying {s : Inf K} {i : ℕ} {hd : Handler K} (v : K) :
    (s.setValueH i hd v).1.varying = s.varying := by
  unfold Inf.setValueH
  split_ifs
  · rfl
  · split
    · split_ifs <;> rfl
    · rfl

theorem unboundedSetH_varying (c : Cfg K) {s : Inf K} {i : ℕ} {hd : Handler K} (v : K) :
    (s.unboundedSetH c i hd v).1.varying = s.varying := by
  unfold Inf.unboundedSetH
  by_cases h : hd.status ≠ .varying
  · rw [if_pos h]; rfl
  · rw [if_neg h]
    split
    · rfl
    · split
      · split_ifs <;> rfl
      · rfl

theorem linstepH_vs {s : Inf K} (hs : Inv s) {i : ℕ} {hd : Handler K} (lo hi : Option K) (n : ℤ)
    (hst : hd.status = s.status i) : VS i s (s.linstepH i hd lo hi n).1 := by
  unfold Inf.linstepH
  by_cases h : (!hd.stepEndsOk lo hi) = true
  · rw [if_pos h]; exact Or.inl rfl
  · rw [if_neg h]
    dsimp only
    split
    · exact Or.inl rfl
    · split
      · exact Or.inl rfl
      · split
        · split_ifs
          · exact Or.inl rfl
          · exact putStatus_vs hs hst rfl (by decide)
        · exact Or.inl rfl

theorem logstepH_vs (c : Cfg K) {s : Inf K} (hs : Inv s) {i : ℕ} {hd : Handler K} (lo hi : Option K) (n : ℤ)
    (hst : hd.status = s.status i) : VS i s (s.logstepH c i hd lo hi n).1 := by
  unfold Inf.logstepH
  by_cases h : (!hd.stepEndsOk lo hi) = true
  · rw [if_pos h]; exact Or.inl rfl
  · rw [if_neg h]
    split
    · split_ifs
      · exact Or.inl rfl
      · exact putStatus_vs hs hst rfl (by decide)
    · exact Or.inl rfl

theorem varyH_vs {s : Inf K} (hs : Inv s) {i : ℕ} {hd : Handler K} (st d : Option K) (r : Option (K × K))
    (hst : hd.status = s.status i) (hv : hd.value.isSome) : VS i s (s.varyH i hd st d r).1 := by
  unfold Inf.varyH
  by_cases h : (r.isNone && hd.bounds.isNone) = true
  · rw [if_pos h]; exact Or.inl rfl
  · rw [if_neg h]
    dsimp only
    cases hdel : d.or (hd.withRange r).delta with
    | none => exact Or.inl rfl
    | some dd =>
      have hvs := setStatus_vs hs (i := i) (hd := { hd.withRange r with delta := some dd }) (st := .varying)
        ((withRange_status hd r).trans hst) (by rw [withRange_value]; exact hv) (by decide)
      dsimp only
      generalize s.setStatus i { hd.withRange r with delta := some dd } .varying = q at hvs
      obtain ⟨s', _ | e⟩ := q
      · simp only [Res.andThen_ok]
        cases st with
        | some v =>
          dsimp only
          unfold VS
          rw [setValueH_varying]
          exact hvs
        | none => dsimp only; split_ifs <;> exact hvs
      · exact hvs

theorem firstStep_varying (s : Inf K) (i : ℕ) : (s.firstStep i).1.varying = s.varying := by
  unfold Inf.firstStep
  split
  · rfl
  · split_ifs <;> rfl

theorem lastStep_varying (s : Inf K) (i : ℕ) : (s.lastStep i).1.varying = s.varying := by
  unfold Inf.lastStep
  split
  · rfl
  · split_ifs <;> rfl

theorem resetLoop_varying (l : List ℕ) : ∀ s : Inf K, (Inf.resetLoop l s).1.varying = s.varying := by
  induction l with
  | nil => intro s; rfl
  | cons i l ih =>
    intro s
    unfold Inf.resetLoop
    have := firstStep_varying s i
    generalize s.firstStep i = q at this
    obtain ⟨s', _ | e⟩ := q
    · simp only [Res.andThen_ok]; rw [ih]; exact this
    · exact this

theorem nextLoop_varying (last : ℕ) (l : List ℕ) : ∀ s : Inf K, (Inf.nextLoop last l s).1.varying = s.varying := by
  induction l with
  | nil => intro s; rfl
  | cons i l ih =>
    intro s
    unfold Inf.nextLoop
    cases hd : s.info i with
    | none => rfl
    | some d =>
      dsimp only
      have hv : (s.stepDir i d).1.varying = s.varying := by
        cases d
        · exact (nextStepP_lists s i).2.2.1
        · exact (prevStepP_lists s i).2.2.1
      generalize s.stepDir i d = r at hv
      obtain ⟨s', _ | e⟩ := r
      · exact hv
      · cases e
        case paramRange =>
          dsimp only
          split_ifs
          · have := resetLoop_varying s'.stepping s'
            unfold Inf.resetSteps
            generalize Inf.resetLoop s'.stepping s' = q at this
            obtain ⟨s'', _ | e⟩ := q
            · exact this.trans hv
            · exact this.trans hv
          · rw [ih]; exact hv
        all_goals exact hv

theorem setVaryingLoop_varying (l : List (ℕ × K)) : ∀ s : Inf K, (Inf.setVaryingLoop l s).1.varying = s.varying := by
  induction l with
  | nil => intro s; rfl
  | cons p l ih =>
    intro s
    obtain ⟨i, v⟩ := p
    unfold Inf.setVaryingLoop
    cases hh : s.h i with
    | none => rfl
    | some hd =>
      dsimp only
      have := setValueH_varying (s := s) (i := i) (hd := hd) v
      generalize s.setValueH i hd v = q at this
      obtain ⟨s', _ | e⟩ := q
      · simp only [Res.andThen_ok]; rw [ih]; exact this
      · exact this

theorem unboundedLoop_varying (c : Cfg K) (l : List (ℕ × K)) :
    ∀ s : Inf K, (Inf.unboundedLoop c l s).1.varying = s.varying := by
  induction l with
  | nil => intro s; rfl
  | cons p l ih =>
    intro s
    obtain ⟨i, v⟩ := p
    unfold Inf.unboundedLoop
    cases hh : s.h i with
    | none => rfl
    | some hd =>
      dsimp only
      have := unboundedSetH_varying c (s := s) (i := i) (hd := hd) v
      generalize s.unboundedSetH c i hd v = q at this
      obtain ⟨s', _ | e⟩ := q
      · simp only [Res.andThen_ok]; rw [ih]; exact this
      · exact this

theorem access_varying (c : Cfg K) {s : Inf K} (hs : Inv s) (i : ℕ) : (s.access c i).1.varying = s.varying :=
  (access_readOnly c hs i).varying

theorem access_isVarying (c : Cfg K) {s : Inf K} (hs : Inv s) (i j : ℕ) :
    (s.access c i).1.status j = .varying ↔ s.status j = .varying := by
  rw [← (access_good c hs i).1.mem_varying, access_varying c hs, hs.mem_varying]

theorem onHandler_vs (c : Cfg K) {s : Inf K} (hs : Inv s) (i : ℕ) {f : Inf K → Handler K → Res (Inf K)}
    (hf : ∀ s hd, Inv s → s.h i = some hd → hd.value.isSome → VS i s (f s hd).1) : VS i s (s.onHandler c i f).1 := by
  obtain ⟨h2, hd, v, h3, h4, _⟩ := access_ok c hs i
  have hg := (access_good c hs i).1
  have hv := access_varying c hs i
  have hst := access_isVarying c hs i i
  unfold Inf.onHandler
  have : s.access c i = ok (s.access c i).1 := Prod.ext rfl h2
  rw [this]
  simp only [ok, Res.andThen_ok, h3]
  have := hf _ _ hg h3 (by simp [h4])
  unfold VS at this ⊢
  rwa [hv, Ne, hst] at this

theorem setParam1_varying (c : Cfg K) (pv : ℕ → Option K) {s : Inf K} (hs : Inv s) (i : ℕ) :
    (s.setParam1 c pv i).1.varying = s.varying := by
  unfold Inf.setParam1
  obtain ⟨h2, hd, v, h3, h4, hu, _⟩ := access_ok c hs i
  have hg := (access_good c hs i).1
  unfold Inf.onHandler
  have : s.access c i = ok (s.access c i).1 := Prod.ext rfl h2
  rw [this]
  simp only [ok, Res.andThen_ok, h3]
  rw [← access_varying c hs i]
  generalize (s.access c i).1 = t at h3 hg
  have hst := (status_eq_of_h h3).symm
  cases hty : hd.status with
  | undef => rfl
  | stepping => rfl
  | fixed =>
    dsimp only
    cases pv i with
    | none => rfl
    | some w =>
      have e : ∀ (u : Inf K) (hd' : Handler K), hd'.status = .fixed → (u.setStatus i hd' .fixed).1.varying = u.varying := by
        intro u hd' h
        unfold Inf.setStatus Inf.onStatusChange
        rw [if_pos h, if_neg (by decide)]; rfl
      dsimp only
      unfold Inf.fixH
      dsimp only
      split
      · split_ifs
        · rw [e _ { hd with value := some w } hty]; rfl
        · rfl
      · rw [e _ { hd with value := some w } hty]; rfl
  | varying =>
    dsimp only
    cases pv i with
    | none => rfl
    | some w =>
      dsimp only
      have hvs := varyH_vs hg (i := i) (hd := hd) (some w) none none hst (by simp [h4])
      have hgd := varyH_good hg (i := i) (hd := hd) (some w) none none hst (by simp [h4]) hu
      have hm : i ∈ t.varying := (hg.mem_varying i).mpr (hst ▸ hty)
      rcases hvs with h | ⟨h, _⟩ | h
      · exact h
      · exact absurd (hst ▸ hty) h
      · exfalso
        -- `vary` never stops a varying parameter from varying
        have : ∀ (hd' : Handler K), hd'.status = .varying → (t.setStatus i hd' .varying).1.varying = t.varying := by
          intro hd' h
          unfold Inf.setStatus Inf.onStatusChange
          rw [if_pos h, if_neg (by decide)]; rfl
        have key : (t.varyH i hd (some w) none none).1.varying = t.varying := by
          unfold Inf.varyH
          by_cases hb : ((none : Option (K × K)).isNone && hd.bounds.isNone) = true
          · rw [if_pos hb]; rfl
          · rw [if_neg hb]
            simp only [Handler.withRange, Option.none_or]
            cases hdel : hd.delta with
            | none => rfl
            | some dd =>
              dsimp only
              have e := this { hd with delta := some dd } hty
              generalize t.setStatus i { hd with delta := some dd } .varying = q at e
              obtain ⟨s', _ | x⟩ := q
              · simp only [Res.andThen_ok]; rw [setValueH_varying]; exact e
              · exact e
        rw [key] at h
        have h1 := List.length_erase_of_mem hm
        rw [← h] at h1
        have : 0 < t.varying.length := List.length_pos_of_mem hm
        omega

theorem setParamsLoop_varying (c : Cfg K) (pv : ℕ → Option K) (l : List ℕ) : ∀ {s : Inf K} (_ : Inv s),
    (Inf.setParamsLoop c pv l s).1.varying = s.varying := by
  induction l with
  | nil => intro s _; rfl
  | cons i l ih =>
    intro s hs
    unfold Inf.setParamsLoop
    have h1 := setParam1_varying c pv hs i
    have h2 := (setParam1_good c pv hs i).1
    generalize s.setParam1 c pv i = q at h1 h2
    obtain ⟨s', _ | x⟩ := q
    · simp only [Res.andThen_ok]; rw [ih h2]; exact h1
    · exact h1

theorem accessAll_varying (c : Cfg K) (l : List ℕ) : ∀ {s : Inf K} (_ : Inv s),
    (Inf.accessAll c l s).1.varying = s.varying := by
  induction l with
  | nil => intro s _; rfl
  | cons i l ih =>
    intro s hs
    unfold Inf.accessAll
    have h1 := access_varying c hs i
    have h2 := (access_good c hs i).1
    generalize s.access c i = q at h1 h2
    obtain ⟨s', _ | x⟩ := q
    · simp only [Res.andThen_ok]; rw [ih h2]; exact h1
    · exact h1

theorem step_vs (c : Cfg K) {s : Inf K} (hs : Inv s) (op : Op K) : ∃ i, VS i s (s.step c op).1 := by
  cases op with
  | get i => exact ⟨i, Or.inl (access_varying c hs i)⟩
  | assign i v =>
    refine ⟨i, ?_⟩
    show VS i s (s.assign i v).1
    unfold Inf.assign
    cases hh : s.h i with
    | some hd => exact fixH_vs hs v (status_eq_of_h hh).symm (hs.value_iff hh)
    | none =>
      have hu : s.status i = .undef := by simp [Inf.status, hh]
      have h1 := Good.install hs hu
      have := fixH_vs h1.1 (i := i) (hd := {}) v (by simp [status_setH]) (by simp)
      rcases this with h | ⟨_, h⟩ | h
      · exact Or.inl h
      · exact Or.inr (Or.inl ⟨by rw [hu]; decide, h⟩)
      · exact Or.inr (Or.inr h)
  | fix i v => exact ⟨i, onHandler_vs c hs i fun s hd hs hh hv => fixH_vs hs v (status_eq_of_h hh).symm (hs.value_iff hh)⟩
  | setValue i v => exact ⟨i, onHandler_vs c hs i fun s hd hs hh hv => Or.inl (setValueH_varying v)⟩
  | range i a b => exact ⟨i, onHandler_vs c hs i fun s hd hs hh hv => Or.inl rfl⟩
  | linstep i lo hi n => exact ⟨i, onHandler_vs c hs i fun s hd hs hh hv => linstepH_vs hs lo hi n (status_eq_of_h hh).symm⟩
  | logstep i lo hi n => exact ⟨i, onHandler_vs c hs i fun s hd hs hh hv => logstepH_vs c hs lo hi n (status_eq_of_h hh).symm⟩
  | nextStepP i => exact ⟨i, onHandler_vs c hs i fun s hd hs hh hv => Or.inl (nextStepP_lists s i).2.2.1⟩
  | prevStepP i => exact ⟨i, onHandler_vs c hs i fun s hd hs hh hv => Or.inl (prevStepP_lists s i).2.2.1⟩
  | firstStepP i => exact ⟨i, onHandler_vs c hs i fun s hd hs hh hv => Or.inl (firstStep_varying s i)⟩
  | lastStepP i => exact ⟨i, onHandler_vs c hs i fun s hd hs hh hv => Or.inl (lastStep_varying s i)⟩
  | vary i st d r => exact ⟨i, onHandler_vs c hs i fun s hd hs hh hv => varyH_vs hs st d r (status_eq_of_h hh).symm hv⟩
  | unboundedSet i u => exact ⟨i, onHandler_vs c hs i fun s hd hs hh hv => Or.inl (unboundedSetH_varying c u)⟩
  | nextStep =>
    refine ⟨0, Or.inl ?_⟩
    show s.nextStep.1.varying = _
    unfold Inf.nextStep
    split
    · rfl
    · exact nextLoop_varying _ _ _
  | resetSteps => exact ⟨0, Or.inl (resetLoop_varying _ _)⟩
  | setVarying vs =>
    refine ⟨0, Or.inl ?_⟩
    show (s.setVarying vs).1.varying = _
    unfold Inf.setVarying
    split_ifs
    · rfl
    · exact setVaryingLoop_varying _ _
  | scoreSet vs => exact ⟨0, Or.inl (setVaryingLoop_varying _ _)⟩
  | scoreSetUnbounded vs => exact ⟨0, Or.inl (unboundedLoop_varying c _ _)⟩
  | setParams pv => exact ⟨0, Or.inl (setParamsLoop_varying c pv _ hs)⟩
  | getParams => exact ⟨0, Or.inl (accessAll_varying c _ hs)⟩

/-- Setting varying parameters one by one to admissible values. -/
theorem setVaryingLoop_ok (l : List (ℕ × K)) : ∀ {s : Inf K} (_ : Inv s) (_ : (l.map Prod.fst).Nodup)
    (_ : ∀ p ∈ l, s.status p.1 = .varying) (_ : ∀ p ∈ l, s.admits p.1 p.2),
    ∃ s', Inf.setVaryingLoop l s = (s', none) ∧ Inv s' ∧
      (∀ p ∈ l, s'.h p.1 = (s.h p.1).map fun hd => { hd with value := some p.2 }) ∧
      (∀ j, j ∉ l.map Prod.fst → s'.h j = s.h j) ∧ SameLists s s' := by
  induction l with
  | nil => intro s hs _ _ _; exact ⟨s, rfl, hs, by simp, fun _ _ => rfl, ⟨rfl, rfl, rfl, rfl⟩⟩
  | cons p l ih =>
    intro s hs hnd hst hadm
    obtain ⟨i, v⟩ := p
    simp only [List.map_cons, List.nodup_cons] at hnd
    obtain ⟨hd, hh, hd'⟩ := h_of_status (hst (i, v) (by simp)) (by decide)
    have e1 : s.setValueH i hd v = ok (s.putValue i hd v) := by
      unfold Inf.setValueH
      rw [if_neg (not_not.mpr hd')]
      split
      · rename_i lo hi hb
        rw [if_pos]
        exact hadm (i, v) (by simp) lo hi (by simp [Inf.bounds, hh, hb])
      · rfl
    have hi1 : Inv (s.putValue i hd v) := hs.putValue v (status_eq_of_h hh).symm (by rw [hd']; decide)
    have hoff : ∀ j, j ≠ i → (s.putValue i hd v).h j = s.h j := fun j hj => putValue_ne _ _ _ hj
    have hne : ∀ p ∈ l, p.1 ≠ i := fun p hp e => hnd.1 (by rw [← e]; exact List.mem_map_of_mem hp)
    obtain ⟨s', e', hi', hl', ho', hsl'⟩ := ih hi1 hnd.2
      (fun p hp => by rw [Inf.status, hoff _ (hne p hp)]; exact hst p (by simp [hp]))
      (fun p hp => by unfold Inf.admits Inf.bounds; rw [hoff _ (hne p hp)]; exact hadm p (by simp [hp]))
    refine ⟨s', ?_, hi', fun p hp => ?_, fun j hj => ?_, ?_⟩
    · unfold Inf.setVaryingLoop
      simp only [hh, e1, ok, Res.andThen_ok]
      exact e'
    · simp only [List.mem_cons] at hp
      rcases hp with rfl | hp
      · rw [ho' i hnd.1]; simp [hh]
      · rw [hl' p hp, hoff _ (hne p hp)]
    · simp only [List.map_cons, List.mem_cons, not_or] at hj
      rw [ho' j hj.2, hoff j hj.1]
    · exact SameLists.trans (b := s.putValue i hd v) ⟨rfl, rfl, rfl, rfl⟩ hsl'

/-- ... until an inadmissible one is met. -/
theorem setVaryingLoop_append (l l' : List (ℕ × K)) : ∀ {s s' : Inf K}, Inf.setVaryingLoop l s = (s', none) →
    Inf.setVaryingLoop (l ++ l') s = Inf.setVaryingLoop l' s' := by
  induction l with
  | nil =>
    intro s s' e
    simp only [Inf.setVaryingLoop, ok, Prod.mk.injEq, and_true] at e
    rw [e]; rfl
  | cons p l ih =>
    intro s s' e
    obtain ⟨i, v⟩ := p
    simp only [Inf.setVaryingLoop, List.cons_append] at e ⊢
    cases hh : s.h i with
    | none => rw [hh] at e; simp [raise] at e
    | some hd =>
      rw [hh] at e
      dsimp only at e ⊢
      cases hq : s.setValueH i hd v with
      | mk t o =>
        rw [hq] at e
        cases o with
        | none => simp only [Res.andThen_ok] at e ⊢; exact ih e
        | some x => simp [Res.andThen] at e

/-! ### The properties -/

/-- **C16 (count).** Given the wrong number of arguments, `_set_varying` raises `ParamError` and changes nothing. -/
theorem C16_wrong_count (c : Cfg K) (s : Inf K) (vs : List K) (h : vs.length ≠ s.varying.length) :
    s.step c (.setVarying vs) = (s, some .param) := by
  show s.setVarying vs = _
  unfold Inf.setVarying
  rw [if_pos h]; rfl

/-- **C16 (position).** Given one admissible value per varying parameter, `_set_varying` and `_score` raise nothing and
give the `k`-th value to the `k`-th varying parameter, whose status, range and everything else stay the same; no other
parameter is touched, and all lists stay the same. -/
theorem C16_positional (c : Cfg K) (s : Inf K) (hr : Reachable c s) (vs : List K) (hlen : vs.length = s.varying.length)
    (hadm : ∀ (k i : ℕ) (v : K), s.varying[k]? = some i → vs[k]? = some v → s.admits i v) :
    ∃ s', s.step c (.setVarying vs) = (s', none) ∧ s.step c (.scoreSet vs) = (s', none) ∧
      (∀ k i : ℕ, s.varying[k]? = some i → s'.value i = vs[k]?) ∧
      (∀ i ∈ s.varying, ∃ hd v, s.h i = some hd ∧ s'.h i = some { hd with value := some v }) ∧
      (∀ j, j ∉ s.varying → s'.h j = s.h j) ∧
      s'.fixed = s.fixed ∧ s'.varying = s.varying ∧ s'.stepping = s.stepping := by
  have hs := hr.inv
  have hfst : (s.varying.zip vs).map Prod.fst = s.varying := List.map_fst_zip (by omega)
  have hmem : ∀ p ∈ s.varying.zip vs, s.status p.1 = .varying := fun p hp =>
    (hs.mem_varying _).mp (List.of_mem_zip (a := p.1) (b := p.2) hp).1
  obtain ⟨s', e, hi, hl, ho, hsl⟩ := setVaryingLoop_ok (s.varying.zip vs) hs (by rw [hfst]; exact hs.varying_nd) hmem
    (fun p hp => by
      obtain ⟨k, hk⟩ := List.mem_iff_getElem?.mp hp
      rw [List.getElem?_zip_eq_some] at hk
      exact hadm k p.1 p.2 hk.1 hk.2)
  rw [hfst] at ho
  have hval : ∀ k i : ℕ, s.varying[k]? = some i → ∃ v hd, vs[k]? = some v ∧ s.h i = some hd ∧
      s'.h i = some { hd with value := some v } := by
    intro k i hk
    have hk' : k < s.varying.length := (List.getElem?_eq_some_iff.mp hk).1
    have hv : vs[k]? = some (vs[k]'(by omega)) := List.getElem?_eq_getElem _
    have hp : (i, vs[k]'(by omega)) ∈ s.varying.zip vs :=
      List.mem_iff_getElem?.mpr ⟨k, by rw [List.getElem?_zip_eq_some]; exact ⟨hk, hv⟩⟩
    have h1 := hl _ hp
    obtain ⟨hd, hh, _⟩ := h_of_status (hmem _ hp) (by decide)
    dsimp only at hh h1
    exact ⟨_, hd, hv, hh, by rw [h1, hh]; rfl⟩
  refine ⟨s', ?_, e, fun k i hk => ?_, fun i hi => ?_, ho, hsl.fixed, hsl.varying, hsl.stepping⟩
  · show s.setVarying vs = _
    unfold Inf.setVarying
    rw [if_neg (not_not.mpr hlen)]; exact e
  · obtain ⟨v, hd, h1, _, h3⟩ := hval k i hk
    rw [h1, Inf.value, h3]; rfl
  · obtain ⟨k, hk⟩ := List.mem_iff_getElem?.mp hi
    obtain ⟨v, hd, _, h2, h3⟩ := hval k i hk
    exact ⟨hd, v, h2, h3⟩

/-- **C16 (range).** If the first inadmissible argument is the `k`-th, `ParamRangeError` is raised; by then the first `k`
varying parameters have been given their values and every other parameter is as it was. -/
theorem C16_range_error (c : Cfg K) (s : Inf K) (hr : Reachable c s) (vs : List K)
    (hlen : vs.length = s.varying.length) (k i : ℕ) (v lo up : K)
    (hadm : ∀ (k' i : ℕ) (v : K), k' < k → s.varying[k']? = some i → vs[k']? = some v → s.admits i v)
    (hi : s.varying[k]? = some i) (hv : vs[k]? = some v) (hb : s.bounds i = some (lo, up)) (hbad : v < lo ∨ up < v) :
    ∃ s', s.step c (.setVarying vs) = (s', some .paramRange) ∧
      (∀ k' j : ℕ, k' < k → s.varying[k']? = some j → s'.value j = vs[k']?) ∧
      (∀ j, j ∉ s.varying.take k → s'.h j = s.h j) := by
  have hs := hr.inv
  have hk : k < s.varying.length := (List.getElem?_eq_some_iff.mp hi).1
  have hsplit : s.varying.zip vs = (s.varying.take k).zip (vs.take k) ++ (i, v) :: (s.varying.drop (k+1)).zip (vs.drop (k+1)) := by
    have e1 : s.varying = s.varying.take k ++ i :: s.varying.drop (k+1) := by
      rw [List.getElem?_eq_getElem hk] at hi
      injection hi with hi
      rw [← hi, ← List.drop_eq_getElem_cons hk, List.take_append_drop]
    have hk2 : k < vs.length := by omega
    have e2 : vs = vs.take k ++ v :: vs.drop (k+1) := by
      rw [List.getElem?_eq_getElem hk2] at hv
      injection hv with hv
      rw [← hv, ← List.drop_eq_getElem_cons hk2, List.take_append_drop]
    conv_lhs => rw [e1, e2]
    rw [List.zip_append (by simp; omega)]
    rfl
  set l := (s.varying.take k).zip (vs.take k) with hldef
  have hfst : l.map Prod.fst = s.varying.take k := List.map_fst_zip (by simp; omega)
  have hsub : ∀ p ∈ l, s.status p.1 = .varying := fun p hp =>
    (hs.mem_varying _).mp (List.mem_of_mem_take (List.of_mem_zip (a := p.1) (b := p.2) hp).1)
  obtain ⟨s', e, hi', hl, ho, hsl⟩ := setVaryingLoop_ok l hs
    (by rw [hfst]; exact hs.varying_nd.sublist (List.take_sublist _ _)) hsub
    (fun p hp => by
      obtain ⟨k', hk'⟩ := List.mem_iff_getElem?.mp hp
      rw [hldef, List.getElem?_zip_eq_some] at hk'
      have hlt : k' < k := by
        have := (List.getElem?_eq_some_iff.mp hk'.1).1
        simp at this; omega
      rw [List.getElem?_take_of_lt hlt, List.getElem?_take_of_lt hlt] at hk'
      exact hadm k' p.1 p.2 hlt hk'.1 hk'.2)
  rw [hfst] at ho
  have hni : i ∉ s.varying.take k := by
    intro hm
    obtain ⟨k', hk'⟩ := List.mem_iff_getElem?.mp hm
    have hlt : k' < k := by
      have := (List.getElem?_eq_some_iff.mp hk').1
      simp at this; omega
    rw [List.getElem?_take_of_lt hlt] at hk'
    have := (List.getElem?_inj (by omega) hs.varying_nd).mp (hk'.trans hi.symm)
    omega
  obtain ⟨hd, hh, hd'⟩ := h_of_status ((hs.mem_varying i).mp (List.mem_iff_getElem?.mpr ⟨k, hi⟩)) (by decide)
  have hb' : hd.bounds = some (lo, up) := by simpa [Inf.bounds, hh] using hb
  refine ⟨s', ?_, fun k' j hlt hj => ?_, ho⟩
  · show s.setVarying vs = _
    unfold Inf.setVarying
    rw [if_neg (not_not.mpr hlen), hsplit, setVaryingLoop_append _ _ e]
    have hh' : s'.h i = some hd := (ho i hni).trans hh
    simp only [Inf.setVaryingLoop, hh']
    have : s'.setValueH i hd v = raise .paramRange s' := by
      unfold Inf.setValueH
      rw [if_neg (not_not.mpr hd'), hb']
      dsimp only
      rw [if_neg]
      rintro ⟨h1, h2⟩
      rcases hbad with h | h
      · exact absurd h1 (not_le.mpr h)
      · exact absurd h2 (not_le.mpr h)
    rw [this]; rfl
  · have hk2 : k' < vs.length := by omega
    have hp : (j, vs[k']) ∈ l := List.mem_iff_getElem?.mpr ⟨k', by
      rw [hldef, List.getElem?_zip_eq_some, List.getElem?_take_of_lt hlt, List.getElem?_take_of_lt hlt]
      exact ⟨hj, List.getElem?_eq_getElem _⟩⟩
    have h1 := hl _ hp
    obtain ⟨hd2, hh2, _⟩ := h_of_status (hsub _ hp) (by decide)
    dsimp only at hh2 h1
    rw [Inf.value, h1, hh2, List.getElem?_eq_getElem hk2]; rfl

/-- A history watched from outside: at each operation whose effect is that a parameter becomes varying that was not, note
the time. `since` gives the last such time for each parameter. -/
def Inf.watch (c : Cfg K) : List (Op K) → Inf K → ℕ → (ℕ → ℕ) → Inf K × (ℕ → ℕ)
  | [], s, _, since => (s, since)
  | op :: ops, s, t, since =>
    let s' := (s.step c op).1
    Inf.watch c ops s' (t + 1) fun i => if s'.status i = .varying ∧ s.status i ≠ .varying then t else since i

/-- **C16 (order).** After any history the list of varying parameters is in the order in which they (last) became
varying. -/
theorem C16_order (c : Cfg K) (ops : List (Op K)) :
    let w := Inf.watch c ops (Inf.init : Inf K) 0 (fun _ => 0)
    w.1 = Inf.init.run c ops ∧ w.1.varying.Pairwise fun i j => w.2 i < w.2 j := by
  suffices key : ∀ (s : Inf K) t since, Inv s → (∀ i ∈ s.varying, since i < t) →
      s.varying.Pairwise (fun i j => since i < since j) →
      (Inf.watch c ops s t since).1 = s.run c ops ∧
      (Inf.watch c ops s t since).1.varying.Pairwise fun i j =>
        (Inf.watch c ops s t since).2 i < (Inf.watch c ops s t since).2 j from
    key _ 0 _ Inv.init (by simp [Inf.init]) (by simp [Inf.init])
  induction ops with
  | nil => intro s t since _ _ h; exact ⟨rfl, h⟩
  | cons op ops ih =>
    intro s t since hs hlt hp
    have hs' := (step_good c hs op).1
    obtain ⟨a, ha⟩ := step_vs c hs op
    unfold Inf.watch
    dsimp only
    have hold : ∀ i ∈ s.varying, (if (s.step c op).1.status i = .varying ∧ s.status i ≠ .varying then t else since i)
        = since i := fun i hi => if_neg fun h => h.2 ((hs.mem_varying i).mp hi)
    have hsub : ∀ i ∈ s.varying, ∀ j ∈ s.varying, since i < since j →
        (if (s.step c op).1.status i = .varying ∧ s.status i ≠ .varying then t else since i) <
        (if (s.step c op).1.status j = .varying ∧ s.status j ≠ .varying then t else since j) := by
      intro i hi j hj h
      rw [hold i hi, hold j hj]; exact h
    have hp' : s.varying.Pairwise fun i j =>
        (if (s.step c op).1.status i = .varying ∧ s.status i ≠ .varying then t else since i) <
        (if (s.step c op).1.status j = .varying ∧ s.status j ≠ .varying then t else since j) :=
      hp.imp_of_mem fun {i j} hi hj h => hsub i hi j hj h
    refine ih _ (t + 1) _ hs' ?_ ?_
    · intro i hi
      split_ifs with h
      · omega
      · have hi' := (hs'.mem_varying i).mp hi
        have : s.status i = .varying := by
          by_contra hc
          exact h ⟨hi', hc⟩
        exact Nat.lt_succ_of_lt (hlt i ((hs.mem_varying i).mpr this))
    · rcases ha with h | ⟨hna, h⟩ | h
      · rw [h]; exact hp'
      · rw [h, List.pairwise_append]
        refine ⟨hp', by simp, fun i hi j hj => ?_⟩
        simp only [List.mem_singleton] at hj
        subst hj
        rw [hold i hi, if_pos]
        · exact hlt i hi
        · exact ⟨(hs'.mem_varying j).mp (by rw [h]; simp), hna⟩
      · rw [h]; exact hp'.sublist List.erase_sublist

/-- Non-vacuity: parameter 1 starts varying after 2, 2 stops and starts again; the wrong count and the range error
occur. -/
example :
    let s := (Inf.init : Inf ℚ).run exCfg [.vary 2 (some 2) (some 1) (some (0, 5)), .vary 1 (some 2) (some 1) (some (0, 5)),
      .fix 2 none, .vary 2 none none none]
    s.varying = [1, 2] ∧ (s.step exCfg (.setVarying [3, 4])).1.value 2 = some 4 ∧
    (s.step exCfg (.setVarying [3, 7])).2 = some .paramRange ∧ (s.step exCfg (.setVarying [3, 7])).1.value 1 = some 3 ∧
    (s.step exCfg (.setVarying [3])).2 = some .param := by
  decide +kernel

end Verif.Pie
