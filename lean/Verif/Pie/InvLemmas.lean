import Verif.Pie.Lemmas

/-!
# PIE parameters: every operation keeps the bookkeeping invariant, and what it does to other parameters
-/

set_option linter.unusedSectionVars false

namespace Verif.Pie
variable {K : Type} [Field K] [LinearOrder K]

/-- The effect of a status change, as a structure. -/
structure Moved (s : Inf K) (i : ℕ) (hd : Handler K) (st : Status) (s' : Inf K) : Prop where
  inv : Inv s'
  self : s'.h i = some (if st = .stepping then { hd with status := st }.rst else { hd with status := st })
  other : ∀ j, j ≠ i → s'.h j =
      if (hd.status = .stepping ∨ st = .stepping) ∧ s.status j = .stepping
      then (s.h j).map Handler.rst else s.h j
  fixed : s'.fixed = updList s.fixed i .fixed hd.status st
  varying : s'.varying = updList s.varying i .varying hd.status st
  stepping : s'.stepping = updList s.stepping i .stepping hd.status st
  info : ∀ j, s'.info j =
      if hd.status = .stepping ∨ st = .stepping then
        if j ∈ updList s.stepping i .stepping hd.status st then some .next else none
      else s.info j
  changes : s'.changes =
      (if hd.status = .stepping ∨ st = .stepping then
        (updList s.stepping i .stepping hd.status st).reverse else []) ++ s.changes

theorem setStatus_moved {s : Inf K} (hs : Inv s) {i : ℕ} {hd : Handler K} {st : Status}
    (hst : hd.status = s.status i) (hv : hd.value.isSome) (hne : st ≠ .undef) :
    ∃ s', s.setStatus i hd st = ok s' ∧ Moved s i hd st s' := by
  obtain ⟨h1, h2, h3, h4, h5, h6, h7, h8, h9⟩ := setStatus_spec hs hst hv hne
  exact ⟨_, Prod.ext rfl h1, ⟨h2, h3, h4, h5, h6, h7, h8, h9⟩⟩

/-- Add a notification to the ghost log. -/
def Inf.note (s : Inf K) (i : ℕ) : Inf K := { s with changes := i :: s.changes }

@[simp] theorem note_h (s : Inf K) (i) : (s.note i).h = s.h := rfl
@[simp] theorem note_status (s : Inf K) (i) : (s.note i).status = s.status := rfl
@[simp] theorem note_stepping (s : Inf K) (i) : (s.note i).stepping = s.stepping := rfl
@[simp] theorem note_varying (s : Inf K) (i) : (s.note i).varying = s.varying := rfl
@[simp] theorem note_fixed (s : Inf K) (i) : (s.note i).fixed = s.fixed := rfl
@[simp] theorem note_info (s : Inf K) (i) : (s.note i).info = s.info := rfl
@[simp] theorem note_changes (s : Inf K) (i) : (s.note i).changes = i :: s.changes := rfl

theorem Inv.note {s : Inf K} (h : Inv s) (i : ℕ) : Inv (s.note i) :=
  ⟨h.1, h.2, h.3, h.4, h.5, h.6, h.7, h.8, h.9⟩

theorem putValue_setStatus (s : Inf K) (i : ℕ) (hd hd' : Handler K) (v : K) (st : Status) :
    (s.putValue i hd v).setStatus i hd' st = (s.note i).setStatus i hd' st := by
  have : (s.putValue i hd v).setH i { hd' with status := st } = (s.note i).setH i { hd' with status := st } := by
    simp [Inf.putValue, Inf.setH, Inf.note]
  simp only [Inf.setStatus, this]

theorem setH_setStatus (s : Inf K) (i : ℕ) (hd hd' : Handler K) (st : Status) :
    (s.setH i hd).setStatus i hd' st = s.setStatus i hd' st := by
  simp only [Inf.setStatus, setH_setH]

theorem status_setH (s : Inf K) (i hd j) :
    (s.setH i hd).status j = if j = i then hd.status else s.status j := by
  by_cases h : j = i
  · subst h; simp [Inf.status]
  · simp [Inf.status, setH_apply, h]

theorem status_putValue (s : Inf K) (i hd v j) :
    (s.putValue i hd v).status j = if j = i then hd.status else s.status j := by
  by_cases h : j = i
  · subst h; simp [Inf.status]
  · simp [Inf.status, putValue_apply, h]

/-- Changing a handler without changing its status or whether it has a value. -/
theorem Inv.setH {s : Inf K} (hs : Inv s) {i : ℕ} {hd : Handler K}
    (hst : hd.status = s.status i) (hv : hd.value.isSome ↔ hd.status ≠ .undef) : Inv (s.setH i hd) := by
  have h : ∀ j, (s.setH i hd).status j = s.status j := by
    intro j; rw [status_setH]; split_ifs with h
    · rw [h, hst]
    · rfl
  refine ⟨hs.1, hs.2, hs.3, fun j => ?_, fun j => ?_, fun j => ?_, hs.7, fun j hd' hj hu => ?_, fun j hd' hj hu => ?_⟩
  · rw [h]; exact hs.mem_fixed j
  · rw [h]; exact hs.mem_varying j
  · rw [h]; exact hs.mem_stepping j
  · rw [setH_apply] at hj
    split_ifs at hj with hji
    · injection hj with hj; subst hj; exact hv.mpr hu
    · exact hs.val j hd' hj hu
  · rw [setH_apply] at hj
    split_ifs at hj with hji
    · injection hj with hj; subst hj; exact hv.mp hu
    · exact hs.val' j hd' hj hu

theorem Inv.putValue {s : Inf K} (hs : Inv s) {i : ℕ} {hd : Handler K} (v : K)
    (hst : hd.status = s.status i) (hu : hd.status ≠ .undef) : Inv (s.putValue i hd v) := by
  have : Inv (s.setH i { hd with value := some v }) := hs.setH hst (by simpa using hu)
  exact ⟨this.1, this.2, this.3, this.4, this.5, this.6, this.7, this.8, this.9⟩

theorem Inv.setInfo {s : Inf K} (hs : Inv s) {i : ℕ} (d : Dir) (hi : (s.info i).isSome) :
    Inv { s with info := Function.update s.info i (some d) } := by
  refine ⟨hs.1, hs.2, hs.3, hs.4, hs.5, hs.6, fun j => ?_, hs.8, hs.9⟩
  show (Function.update s.info i (some d) j).isSome ↔ j ∈ s.stepping
  rw [← hs.info j]
  by_cases h : j = i
  · subst h; simp [hi]
  · simp [h]

theorem Inv.value_iff {s : Inf K} (hs : Inv s) {i : ℕ} {hd : Handler K} (h : s.h i = some hd) :
    hd.value.isSome ↔ hd.status ≠ .undef := ⟨hs.val' i hd h, hs.val i hd h⟩

/-- What another parameter may notice of an operation: nothing, or, if it is stepping, that its stepping was reset
to the first step. -/
def Frame (s : Inf K) (j : ℕ) (s' : Inf K) : Prop :=
  s'.h j = s.h j ∨ (s.status j = .stepping ∧ s'.h j = (s.h j).map Handler.rst)

theorem Frame.refl (s : Inf K) (j : ℕ) : Frame s j s := Or.inl rfl

theorem Frame.status {s s' : Inf K} {j : ℕ} (h : Frame s j s') : s'.status j = s.status j := by
  rcases h with h | ⟨h1, h2⟩
  · simp [Inf.status, h]
  · obtain ⟨hd, hh, hst⟩ := h_of_status h1 (by decide)
    simp [Inf.status, h2, hh]

theorem Frame.trans {s s' s'' : Inf K} {j : ℕ} (h : Frame s j s') (h' : Frame s' j s'') : Frame s j s'' := by
  have e := h.status
  rcases h with h | ⟨h1, h2⟩ <;> rcases h' with h' | ⟨h1', h2'⟩
  · exact Or.inl (h'.trans h)
  · exact Or.inr ⟨e ▸ h1', h2'.trans (by rw [h])⟩
  · exact Or.inr ⟨h1, h'.trans h2⟩
  · refine Or.inr ⟨h1, h2'.trans ?_⟩
    rw [h2, Option.map_map]
    cases s.h j <;> simp

theorem Moved.frame {s s' : Inf K} {i : ℕ} {hd : Handler K} {st : Status} (h : Moved s i hd st s') {j : ℕ}
    (hj : j ≠ i) : Frame s j s' := by
  have := h.other j hj
  split_ifs at this with hc
  · exact Or.inr ⟨hc.2, this⟩
  · exact Or.inl this

/-- Invariant kept, and all parameters but `i` framed. -/
def Good (s : Inf K) (i : ℕ) (s' : Inf K) : Prop := Inv s' ∧ ∀ j, j ≠ i → Frame s j s'

theorem Good.refl {s : Inf K} (h : Inv s) (i : ℕ) : Good s i s := ⟨h, fun j _ => Frame.refl s j⟩
theorem Good.trans {s s' s'' : Inf K} {i : ℕ} (h : Good s i s') (h' : Good s' i s'') : Good s i s'' :=
  ⟨h'.1, fun j hj => (h.2 j hj).trans (h'.2 j hj)⟩

theorem Good.setH {s : Inf K} (hs : Inv s) {i : ℕ} {hd : Handler K}
    (hst : hd.status = s.status i) (hv : hd.value.isSome ↔ hd.status ≠ .undef) : Good s i (s.setH i hd) :=
  ⟨hs.setH hst hv, fun _ hj => Or.inl (setH_ne _ _ hj)⟩

theorem Good.putValue {s : Inf K} (hs : Inv s) {i : ℕ} {hd : Handler K} (v : K)
    (hst : hd.status = s.status i) (hu : hd.status ≠ .undef) : Good s i (s.putValue i hd v) :=
  ⟨hs.putValue v hst hu, fun _ hj => Or.inl (putValue_ne _ _ _ hj)⟩

theorem Good.setStatus {s : Inf K} (hs : Inv s) {i : ℕ} {hd : Handler K} {st : Status}
    (hst : hd.status = s.status i) (hv : hd.value.isSome) (hne : st ≠ .undef) : Good s i (s.setStatus i hd st).1 := by
  obtain ⟨s', h1, h2⟩ := setStatus_moved hs hst hv hne
  rw [h1]
  exact ⟨h2.inv, fun j hj => h2.frame hj⟩

theorem Good.putStatus {s : Inf K} (hs : Inv s) {i : ℕ} {hd hd' : Handler K} {v : K} {st : Status}
    (hst : hd'.status = s.status i) (hv : hd'.value.isSome) (hne : st ≠ .undef) :
    Good s i ((s.putValue i hd v).setStatus i hd' st).1 := by
  rw [putValue_setStatus]
  have := Good.setStatus (hs.note i) (i := i) (hd := hd') (st := st) hst hv hne
  exact ⟨this.1, fun j hj => this.2 j hj⟩

theorem fixH_good {s : Inf K} (hs : Inv s) {i : ℕ} {hd : Handler K} (v : Option K)
    (hst : hd.status = s.status i) (hv : hd.value.isSome ↔ hd.status ≠ .undef) : Good s i (s.fixH i hd v).1 := by
  unfold Inf.fixH
  cases v with
  | none =>
    dsimp only
    split_ifs with h
    · exact Good.refl hs i
    · exact Good.setStatus hs hst (hv.mpr h) (by decide)
  | some v =>
    dsimp only
    split
    · split_ifs
      · exact Good.putStatus hs hst rfl (by decide)
      · exact Good.refl hs i
    · exact Good.putStatus hs hst rfl (by decide)

/-- Installing a fresh handler where there is none, or one without a value. -/
theorem Good.install {s : Inf K} (hs : Inv s) {i : ℕ} (h : s.status i = .undef) :
    Good s i (s.setH i ({} : Handler K)) :=
  Good.setH hs h.symm (by simp)

theorem status_of_noValue {s : Inf K} (hs : Inv s) {i : ℕ} (h : (s.h i).bind (·.value) = none) :
    s.status i = .undef := by
  by_contra hc
  obtain ⟨hd, hh, hst⟩ := h_of_status rfl hc
  have := hs.val i hd hh (hst ▸ hc)
  rw [hh] at h
  simp only [Option.bind_some] at h
  simp [h] at this

/-- Reading a parameter: either its handler (with a value) was there and nothing happens, or the default is
installed as a fixed value. -/
theorem access_cases (c : Cfg K) {s : Inf K} (hs : Inv s) (i : ℕ) :
    ((∃ hd v, s.h i = some hd ∧ hd.value = some v) ∧ s.access c i = ok s) ∨
    (s.status i = .undef ∧ (s.h i).bind (·.value) = none ∧
      ∃ s', s.access c i = ok s' ∧ Moved (s.note i) i { value := some (c.default i) } .fixed s') := by
  unfold Inf.access
  cases h : (s.h i).bind (·.value) with
  | some v =>
    left
    cases hh : s.h i with
    | none => simp [hh] at h
    | some hd => exact ⟨⟨hd, v, rfl, by simpa [hh] using h⟩, rfl⟩
  | none =>
    right
    have hu := status_of_noValue hs h
    refine ⟨hu, rfl, ?_⟩
    have e : (s.setH i ({} : Handler K)).fixH i {} (some (c.default i)) =
        (s.note i).setStatus i { value := some (c.default i) } .fixed := by
      simp only [Inf.fixH]
      rw [putValue_setStatus]
      show ((s.note i).setH i {}).setStatus i _ _ = _
      rw [setH_setStatus]
    show ∃ s', (s.setH i ({} : Handler K)).fixH i {} (some (c.default i)) = ok s' ∧ _
    rw [e]
    exact setStatus_moved (hs.note i) hu.symm rfl (by decide)

theorem access_good (c : Cfg K) {s : Inf K} (hs : Inv s) (i : ℕ) : Good s i (s.access c i).1 := by
  rcases access_cases c hs i with ⟨_, h⟩ | ⟨_, _, s', h, hm⟩
  · rw [h]; exact Good.refl hs i
  · rw [h]; exact ⟨hm.inv, fun j hj => hm.frame hj⟩

theorem access_ok (c : Cfg K) {s : Inf K} (hs : Inv s) (i : ℕ) :
    (s.access c i).2 = none ∧ ∃ hd v, (s.access c i).1.h i = some hd ∧ hd.value = some v ∧ hd.status ≠ .undef ∧
      v = s.read c i := by
  rcases access_cases c hs i with ⟨⟨hd, v, h1, h2⟩, h⟩ | ⟨_, hn, s', h, hm⟩
  · rw [h]
    exact ⟨rfl, hd, v, h1, h2, hs.val' i hd h1 (by simp [h2]), by simp [Inf.read, h1, h2]⟩
  · rw [h]
    refine ⟨rfl, _, c.default i, hm.self, ?_, ?_, ?_⟩
    · simp
    · simp
    · simp only [Inf.read]; rw [hn]

/-- A method call on a parameter keeps what the method keeps. -/
theorem onHandler_good (c : Cfg K) {s : Inf K} (hs : Inv s) (i : ℕ) {f : Inf K → Handler K → Res (Inf K)}
    (hf : ∀ s hd, Inv s → s.h i = some hd → hd.value.isSome → Good s i (f s hd).1) :
    Good s i (s.onHandler c i f).1 := by
  have h1 := access_good c hs i
  obtain ⟨h2, hd, v, h3, h4, _⟩ := access_ok c hs i
  unfold Inf.onHandler
  set r := s.access c i with hr
  have : r = ok r.1 := Prod.ext rfl h2
  rw [this]
  simp only [ok, Res.andThen_ok, h3]
  exact h1.trans (hf _ _ h1.1 h3 (by simp [h4]))

theorem setValueH_good {s : Inf K} (hs : Inv s) {i : ℕ} {hd : Handler K} (v : K)
    (hst : hd.status = s.status i) : Good s i (s.setValueH i hd v).1 := by
  unfold Inf.setValueH
  split_ifs with h
  · exact Good.refl hs i
  · have hu : hd.status ≠ .undef := by
      intro e; apply h; rw [e]; decide
    split
    · split_ifs
      · exact Good.putValue hs v hst hu
      · exact Good.refl hs i
    · exact Good.putValue hs v hst hu

theorem linstepH_good {s : Inf K} (hs : Inv s) {i : ℕ} {hd : Handler K} (lo hi : Option K) (n : ℤ)
    (hst : hd.status = s.status i) (hv : hd.value.isSome ↔ hd.status ≠ .undef) :
    Good s i (s.linstepH i hd lo hi n).1 := by
  unfold Inf.linstepH
  by_cases h : (!hd.stepEndsOk lo hi) = true
  · rw [if_pos h]; exact Good.refl hs i
  · rw [if_neg h]
    dsimp only
    split
    · exact Good.setH hs hst hv
    · split
      · exact Good.setH hs hst hv
      · split
        · split_ifs
          · exact Good.setH hs hst hv
          · exact Good.putStatus hs hst rfl (by decide)
        · exact Good.setH hs hst hv

theorem logstepH_good (c : Cfg K) {s : Inf K} (hs : Inv s) {i : ℕ} {hd : Handler K} (lo hi : Option K) (n : ℤ)
    (hst : hd.status = s.status i) :
    Good s i (s.logstepH c i hd lo hi n).1 := by
  unfold Inf.logstepH
  by_cases h : (!hd.stepEndsOk lo hi) = true
  · rw [if_pos h]; exact Good.refl hs i
  · rw [if_neg h]
    split
    · split_ifs
      · exact Good.refl hs i
      · exact Good.putStatus hs hst rfl (by decide)
    · exact Good.refl hs i

theorem nextStepP_good {s : Inf K} (hs : Inv s) (i : ℕ) : Good s i (s.nextStepP i).1 := by
  unfold Inf.nextStepP
  split
  · exact Good.refl hs i
  · rename_i hd hh
    have hst := (status_eq_of_h hh).symm
    have hv := hs.value_iff hh
    by_cases h : hd.status ≠ .stepping
    · rw [if_pos h]; exact Good.refl hs i
    · rw [if_neg h]
      push Not at h
      have hu : hd.status ≠ .undef := by rw [h]; decide
      split_ifs
      · exact Good.refl hs i
      · dsimp only; split_ifs
        · exact Good.putValue hs _ hst hu
        · split
          · exact Good.setH hs hst hv
          · split
            · split
              · exact Good.setH hs hst hv
              · exact Good.putValue hs _ hst hu
            · exact Good.putValue hs _ hst hu

theorem prevStepP_good {s : Inf K} (hs : Inv s) (i : ℕ) : Good s i (s.prevStepP i).1 := by
  unfold Inf.prevStepP
  split
  · exact Good.refl hs i
  · rename_i hd hh
    have hst := (status_eq_of_h hh).symm
    have hv := hs.value_iff hh
    by_cases h : hd.status ≠ .stepping
    · rw [if_pos h]; exact Good.refl hs i
    · rw [if_neg h]
      push Not at h
      have hu : hd.status ≠ .undef := by rw [h]; decide
      split_ifs
      · exact Good.refl hs i
      · dsimp only; split_ifs
        · exact Good.putValue hs _ hst hu
        · split
          · exact Good.setH hs hst hv
          · split
            · split
              · exact Good.setH hs hst hv
              · exact Good.putValue hs _ hst hu
            · exact Good.putValue hs _ hst hu

theorem firstStep_good {s : Inf K} (hs : Inv s) (i : ℕ) : Good s i (s.firstStep i).1 := by
  unfold Inf.firstStep
  split
  · exact Good.refl hs i
  · rename_i hd hh
    have hst := (status_eq_of_h hh).symm
    by_cases h : hd.status ≠ .stepping
    · rw [if_pos h]; exact Good.refl hs i
    · rw [if_neg h]
      push Not at h
      exact Good.putValue hs _ hst (by simp [h])

theorem lastStep_good {s : Inf K} (hs : Inv s) (i : ℕ) : Good s i (s.lastStep i).1 := by
  unfold Inf.lastStep
  split
  · exact Good.refl hs i
  · rename_i hd hh
    have hst := (status_eq_of_h hh).symm
    by_cases h : hd.status ≠ .stepping
    · rw [if_pos h]; exact Good.refl hs i
    · rw [if_neg h]
      push Not at h
      exact Good.putValue hs _ hst (by simp [h])

theorem varyH_good {s : Inf K} (hs : Inv s) {i : ℕ} {hd : Handler K} (st d : Option K) (r : Option (K × K))
    (hst : hd.status = s.status i) (hv : hd.value.isSome) (hu : hd.status ≠ .undef) :
    Good s i (s.varyH i hd st d r).1 := by
  unfold Inf.varyH
  by_cases h : (r.isNone && hd.bounds.isNone) = true
  · rw [if_pos h]; exact Good.refl hs i
  · rw [if_neg h]
    dsimp only
    set hd1 : Handler K := hd.withRange r with hd1def
    have e1 : hd1.status = hd.status := by rw [hd1def]; cases r <;> rfl
    have e2 : hd1.value = hd.value := by rw [hd1def]; cases r <;> rfl
    have hst1 : hd1.status = s.status i := e1.trans hst
    cases hdel : d.or hd1.delta with
    | none => exact Good.setH hs hst1 (by rw [e1, e2]; simp [hv, hu])
    | some dd =>
      obtain ⟨s', h1, hm⟩ := setStatus_moved hs (i := i) (hd := { hd1 with delta := some dd }) (st := .varying)
        hst1 (by rw [e2]; exact hv) (by decide)
      have hg : Good s i s' := ⟨hm.inv, fun j hj => hm.frame hj⟩
      simp only [h1, ok, Res.andThen_ok]
      cases st with
      | some v =>
        refine hg.trans (setValueH_good hm.inv v ?_)
        have := hm.self
        simp at this
        rw [status_eq_of_h this]
      | none =>
        dsimp only
        split_ifs
        · exact hg
        · exact hg

theorem unboundedSetH_good (c : Cfg K) {s : Inf K} (hs : Inv s) {i : ℕ} {hd : Handler K} (u : K)
    (hst : hd.status = s.status i) : Good s i (s.unboundedSetH c i hd u).1 := by
  unfold Inf.unboundedSetH
  by_cases h : hd.status ≠ .varying
  · rw [if_pos h]; exact Good.refl hs i
  · rw [if_neg h]
    have hu : hd.status ≠ .undef := by
      intro e; apply h; rw [e]; decide
    split
    · exact Good.refl hs i
    · split
      · split_ifs
        · exact Good.putValue hs _ hst hu
        · exact Good.putValue hs _ hst hu
      · exact Good.putValue hs _ hst hu

theorem resetSteps_eq {s : Inf K} (hs : Inv s) : s.resetSteps = ok (resetState s.stepping s) :=
  resetLoop_eq _ _ fun j hj => (hs.mem_stepping j).mp hj

theorem resetState_frame {s : Inf K} (hs : Inv s) (j : ℕ) : Frame s j (resetState s.stepping s) := by
  by_cases hj : j ∈ s.stepping
  · exact Or.inr ⟨(hs.mem_stepping j).mp hj, by simp [resetState, hj]⟩
  · exact Or.inl (by simp [resetState, hj])

theorem resetState_inv {s : Inf K} (hs : Inv s) : Inv (resetState s.stepping s) := by
  have hst : ∀ j, (resetState s.stepping s).status j = s.status j := fun j => (resetState_frame hs j).status
  refine ⟨hs.1, hs.2, hs.3, fun j => ?_, fun j => ?_, fun j => ?_, fun j => ?_, fun j hd hj hu => ?_, fun j hd hj hu => ?_⟩
  · rw [hst]; exact hs.mem_fixed j
  · rw [hst]; exact hs.mem_varying j
  · rw [hst]; exact hs.mem_stepping j
  · by_cases hj : j ∈ s.stepping
    · simp [resetState, hj]
    · simpa [resetState, hj] using hs.info j
  · rcases resetState_frame hs j with h | ⟨h1, h2⟩
    · exact hs.val j hd (h ▸ hj) hu
    · rw [h2] at hj
      cases hh : s.h j with
      | none => simp [hh] at hj
      | some x => rw [hh] at hj; simp at hj; subst hj; rfl
  · rcases resetState_frame hs j with h | ⟨h1, h2⟩
    · exact hs.val' j hd (h ▸ hj) hu
    · rw [status_eq_of_h hj |>.symm, hst, h1]; decide

/-- `next_step` of one parameter, when its bookkeeping is right, touches neither the lists nor the directions. -/
theorem nextStepP_lists (s : Inf K) (i : ℕ) :
    (s.nextStepP i).1.info = s.info ∧ (s.nextStepP i).1.stepping = s.stepping ∧
    (s.nextStepP i).1.varying = s.varying ∧ (s.nextStepP i).1.fixed = s.fixed := by
  unfold Inf.nextStepP
  split
  · simp
  · split_ifs
    · simp
    · simp
    · dsimp only
      split_ifs
      · simp
      · split
        · simp
        · split
          · split <;> simp
          · simp

theorem prevStepP_lists (s : Inf K) (i : ℕ) :
    (s.prevStepP i).1.info = s.info ∧ (s.prevStepP i).1.stepping = s.stepping ∧
    (s.prevStepP i).1.varying = s.varying ∧ (s.prevStepP i).1.fixed = s.fixed := by
  unfold Inf.prevStepP
  split
  · simp
  · split_ifs
    · simp
    · simp
    · dsimp only
      split_ifs
      · simp
      · split
        · simp
        · split
          · split <;> simp
          · simp

/-- Invariant kept, and all parameters not in `l` framed. -/
def GoodL (s : Inf K) (l : List ℕ) (s' : Inf K) : Prop := Inv s' ∧ ∀ j, j ∉ l → Frame s j s'

theorem GoodL.trans {s s' s'' : Inf K} {l : List ℕ} (h : GoodL s l s') (h' : GoodL s' l s'') : GoodL s l s'' :=
  ⟨h'.1, fun j hj => (h.2 j hj).trans (h'.2 j hj)⟩

theorem GoodL.refl {s : Inf K} (h : Inv s) (l : List ℕ) : GoodL s l s := ⟨h, fun j _ => Frame.refl s j⟩

theorem Good.toL {s s' : Inf K} {i : ℕ} (h : Good s i s') {l : List ℕ} (hi : i ∈ l) : GoodL s l s' :=
  ⟨h.1, fun j hj => h.2 j fun e => hj (e ▸ hi)⟩

theorem nextLoop_good (last : ℕ) (l : List ℕ) {s : Inf K} (hs : Inv s) (L : List ℕ) (hl : ∀ i ∈ l, i ∈ L)
     : GoodL s L (Inf.nextLoop last l s).1 := by
  induction l generalizing s with
  | nil => exact GoodL.refl hs _
  | cons i l ih =>
    unfold Inf.nextLoop
    cases hd : s.info i with
    | none => exact GoodL.refl hs _
    | some d =>
      dsimp only
      have hg : Good s i (s.stepDir i d).1 := by
        cases d
        · exact nextStepP_good hs i
        · exact prevStepP_good hs i
      have hinfo : (s.stepDir i d).1.info = s.info := by
        cases d
        · exact (nextStepP_lists s i).1
        · exact (prevStepP_lists s i).1
      generalize s.stepDir i d = r at hg hinfo
      have hgL := hg.toL (hl i (by simp))
      obtain ⟨s', _ | e⟩ := r
      · exact hgL
      · cases e
        case paramRange =>
          dsimp only
          split_ifs
          · rw [resetSteps_eq hgL.1]
            exact hgL.trans ⟨resetState_inv hgL.1, fun j _ => resetState_frame hgL.1 j⟩
          · have h2 : Inv { s' with info := Function.update s'.info i (some d.reverse) } :=
              hgL.1.setInfo _ (by dsimp only at hinfo; rw [hinfo, hd]; rfl)
            have h3 := ih h2 (fun j hj => hl j (by simp [hj]))
            exact ⟨h3.1, fun j hj => (hgL.2 j hj).trans (h3.2 j hj)⟩
        all_goals exact hgL

theorem nextStep_good {s : Inf K} (hs : Inv s) : GoodL s s.stepping s.nextStep.1 := by
  unfold Inf.nextStep
  split
  · exact GoodL.refl hs _
  · exact nextLoop_good _ _ hs _ fun i hi => hi

theorem andThen_goodL {s : Inf K} {l : List ℕ} {r : Res (Inf K)} {f : Inf K → Res (Inf K)}
    (h1 : GoodL s l r.1) (h2 : ∀ s, Inv s → GoodL s l (f s).1) : GoodL s l (r.andThen f).1 := by
  obtain ⟨s', _ | e⟩ := r
  · exact h1.trans (h2 s' h1.1)
  · exact h1

theorem setVaryingLoop_good (l : List (ℕ × K)) {s : Inf K} (hs : Inv s) (L : List ℕ) (hl : ∀ p ∈ l, p.1 ∈ L) :
    GoodL s L (Inf.setVaryingLoop l s).1 := by
  induction l generalizing s with
  | nil => exact GoodL.refl hs _
  | cons p l ih =>
    obtain ⟨i, v⟩ := p
    unfold Inf.setVaryingLoop
    cases hh : s.h i with
    | none => exact GoodL.refl hs _
    | some hd =>
      exact andThen_goodL ((setValueH_good hs v (status_eq_of_h hh).symm).toL (hl (i, v) (by simp)))
        fun s' hs' => ih hs' (fun p hp => hl p (by simp [hp]))

theorem unboundedLoop_good (c : Cfg K) (l : List (ℕ × K)) {s : Inf K} (hs : Inv s) (L : List ℕ)
    (hl : ∀ p ∈ l, p.1 ∈ L) : GoodL s L (Inf.unboundedLoop c l s).1 := by
  induction l generalizing s with
  | nil => exact GoodL.refl hs _
  | cons p l ih =>
    obtain ⟨i, v⟩ := p
    unfold Inf.unboundedLoop
    cases hh : s.h i with
    | none => exact GoodL.refl hs _
    | some hd =>
      exact andThen_goodL ((unboundedSetH_good c hs v (status_eq_of_h hh).symm).toL (hl (i, v) (by simp)))
        fun s' hs' => ih hs' (fun p hp => hl p (by simp [hp]))

theorem setParam1_good (c : Cfg K) (pv : ℕ → Option K) {s : Inf K} (hs : Inv s) (i : ℕ) :
    Good s i (s.setParam1 c pv i).1 := by
  unfold Inf.setParam1
  refine onHandler_good c hs i fun s hd hs hh hv => ?_
  have hst := (status_eq_of_h hh).symm
  have hu := hs.val' i hd hh hv
  split
  · split
    · exact Good.refl hs i
    · exact fixH_good hs _ hst (hs.value_iff hh)
  · split
    · exact Good.refl hs i
    · exact varyH_good hs _ _ _ hst hv hu
  · exact Good.refl hs i

theorem setParamsLoop_good (c : Cfg K) (pv : ℕ → Option K) (l : List ℕ) {s : Inf K} (hs : Inv s) (L : List ℕ)
    (hl : ∀ i ∈ l, i ∈ L) : GoodL s L (Inf.setParamsLoop c pv l s).1 := by
  induction l generalizing s with
  | nil => exact GoodL.refl hs _
  | cons i l ih =>
    exact andThen_goodL ((setParam1_good c pv hs i).toL (hl i (by simp)))
      fun s' hs' => ih hs' (fun p hp => hl p (by simp [hp]))

theorem accessAll_good (c : Cfg K) (l : List ℕ) {s : Inf K} (hs : Inv s) (L : List ℕ)
    (hl : ∀ i ∈ l, i ∈ L) : GoodL s L (Inf.accessAll c l s).1 := by
  induction l generalizing s with
  | nil => exact GoodL.refl hs _
  | cons i l ih =>
    exact andThen_goodL ((access_good c hs i).toL (hl i (by simp)))
      fun s' hs' => ih hs' (fun p hp => hl p (by simp [hp]))

theorem assign_good {s : Inf K} (hs : Inv s) (i : ℕ) (v : Option K) : Good s i (s.assign i v).1 := by
  unfold Inf.assign
  cases hh : s.h i with
  | some hd => exact fixH_good hs v (status_eq_of_h hh).symm (hs.value_iff hh)
  | none =>
    have hu : s.status i = .undef := by simp [Inf.status, hh]
    have h1 := Good.install hs hu
    exact h1.trans (fixH_good h1.1 v (by simp [status_setH]) (by simp))

/-- The parameters an operation is aimed at. -/
def Op.targets (c : Cfg K) (s : Inf K) : Op K → List ℕ
  | .get i | .assign i _ | .fix i _ | .setValue i _ | .range i _ _ | .linstep i _ _ _ | .logstep i _ _ _
  | .nextStepP i | .prevStepP i | .firstStepP i | .lastStepP i | .vary i _ _ _ | .unboundedSet i _ => [i]
  | .nextStep => s.stepping
  | .resetSteps => []
  | .setVarying _ | .scoreSet _ | .scoreSetUnbounded _ => s.varying
  | .setParams _ | .getParams => c.params

/-- Every operation, raising or not, keeps the bookkeeping invariant, and does nothing to parameters it is not aimed
at except possibly resetting their stepping. -/
theorem step_good (c : Cfg K) {s : Inf K} (hs : Inv s) (op : Op K) : GoodL s (op.targets c s) (s.step c op).1 := by
  have single : ∀ {i : ℕ} {s' : Inf K}, Good s i s' → GoodL s [i] s' := fun h => h.toL (by simp)
  have onH : ∀ {i : ℕ} {f : Inf K → Handler K → Res (Inf K)},
      (∀ s hd, Inv s → s.h i = some hd → hd.value.isSome → Good s i (f s hd).1) →
      GoodL s [i] (s.onHandler c i f).1 := fun hf => single (onHandler_good c hs _ hf)
  have zip1 : ∀ (l : List ℕ) (vs : List K), ∀ p ∈ l.zip vs, p.1 ∈ l := by
    intro l vs p hp
    exact (List.of_mem_zip (a := p.1) (b := p.2) hp).1
  cases op with
  | get i => exact single (access_good c hs i)
  | assign i v => exact single (assign_good hs i v)
  | fix i v => exact onH fun s hd hs hh hv => fixH_good hs v (status_eq_of_h hh).symm (hs.value_iff hh)
  | setValue i v => exact onH fun s hd hs hh hv => setValueH_good hs v (status_eq_of_h hh).symm
  | range i a b =>
    refine onH fun s hd hs hh hv => ?_
    have h1 : (hd.range a b).status = s.status i := (status_eq_of_h hh).symm
    exact Good.setH hs h1 (hs.value_iff (hd := hd) hh)
  | linstep i lo hi n =>
    exact onH fun s hd hs hh hv => linstepH_good hs lo hi n (status_eq_of_h hh).symm (hs.value_iff hh)
  | logstep i lo hi n => exact onH fun s hd hs hh hv => logstepH_good c hs lo hi n (status_eq_of_h hh).symm
  | nextStepP i => exact onH fun s hd hs hh hv => nextStepP_good hs i
  | prevStepP i => exact onH fun s hd hs hh hv => prevStepP_good hs i
  | firstStepP i => exact onH fun s hd hs hh hv => firstStep_good hs i
  | lastStepP i => exact onH fun s hd hs hh hv => lastStep_good hs i
  | vary i st d r =>
    exact onH fun s hd hs hh hv => varyH_good hs st d r (status_eq_of_h hh).symm hv (hs.val' i hd hh hv)
  | unboundedSet i u => exact onH fun s hd hs hh hv => unboundedSetH_good c hs u (status_eq_of_h hh).symm
  | nextStep => exact nextStep_good hs
  | resetSteps =>
    show GoodL s [] s.resetSteps.1
    rw [resetSteps_eq hs]
    exact ⟨resetState_inv hs, fun j _ => resetState_frame hs j⟩
  | setVarying vs =>
    show GoodL s s.varying (s.setVarying vs).1
    unfold Inf.setVarying
    split_ifs
    · exact GoodL.refl hs _
    · exact setVaryingLoop_good _ hs _ (zip1 _ _)
  | scoreSet vs => exact setVaryingLoop_good _ hs _ (zip1 _ _)
  | scoreSetUnbounded vs => exact unboundedLoop_good c _ hs _ (zip1 _ _)
  | setParams pv => exact setParamsLoop_good c pv _ hs _ fun i hi => hi
  | getParams => exact accessAll_good c _ hs _ fun i hi => hi

theorem run_inv (c : Cfg K) (ops : List (Op K)) {s : Inf K} (hs : Inv s) : Inv (s.run c ops) := by
  induction ops generalizing s with
  | nil => exact hs
  | cons op ops ih => exact ih (step_good c hs op).1

end Verif.Pie
