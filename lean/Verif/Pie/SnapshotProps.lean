import Verif.Pie.Snapshot
import Verif.Pie.GridLemmas
import Verif.Pie.AtomicProps

/-!
# C14, C15: `get_params` / `set_params`
-/

set_option linter.unusedSectionVars false
set_option linter.unusedSimpArgs false

namespace Verif.Pie
variable {K : Type} [Field K] [LinearOrder K]

/-! ### Helpers -/

/-- A varying parameter has a range and an increment. -/
def VaryOk (hd : Handler K) : Prop := hd.status = .varying → hd.bounds.isSome ∧ hd.delta.isSome

theorem HTrans.varyOk {c : Cfg K} {op : Op K} {hd hd' : Handler K} (h : HTrans c op hd hd') (hp : VaryOk hd) :
    VaryOk hd' := by
  intro hv
  cases h with
  | varyS i st d r _ dd hu hr hdel =>
    refine ⟨?_, rfl⟩
    cases r with
    | some r => rfl
    | none =>
      show hd.bounds.isSome
      cases hb : hd.bounds with
      | none => exact absurd ⟨rfl, hb⟩ hr
      | some b => rfl
  | varyF i st d r _ hu hdel =>
    rw [withRange_status] at hv
    refine ⟨?_, by rw [withRange_delta]; exact (hp hv).2⟩
    cases r with
    | some r => rfl
    | none => exact (hp hv).1
  | range i a b _ hu => exact ⟨rfl, (hp hv).2⟩
  | _ => first | exact hp hv | simp at hv

theorem Inf.step_varyOk (c : Cfg K) {s : Inf K} (hs : Inv s) (h : ∀ i hd, s.h i = some hd → VaryOk hd) (op : Op K) :
    ∀ i hd, (s.step c op).1.h i = some hd → VaryOk hd :=
  step_keeps c hs op VaryOk (fun e => by simp at e) (fun i e => by simp [Handler.fresh] at e)
    (fun _ _ ht hp => ht.varyOk hp) h

theorem Reachable.varyOk {c : Cfg K} {s : Inf K} (h : Reachable c s) : ∀ i hd, s.h i = some hd → VaryOk hd := by
  obtain ⟨ops, rfl⟩ := h
  exact run_keeps c VaryOk (fun e => by simp at e) (fun i e => by simp [Handler.fresh] at e) ops
    (fun _ _ _ _ ht hp => ht.varyOk hp) Inv.init (fun i hd h => by simp [Inf.init] at h)

/-- `v` is acceptable to the range declared for `i`. -/
def Inf.admits (s : Inf K) (i : ℕ) (v : K) : Prop := ∀ lo hi, s.bounds i = some (lo, hi) → lo ≤ v ∧ v ≤ hi

/-- `s'` has the lists of `s`. -/
structure SameLists (s s' : Inf K) : Prop where
  fixed : s'.fixed = s.fixed
  varying : s'.varying = s.varying
  stepping : s'.stepping = s.stepping
  info : s'.info = s.info

theorem SameLists.trans {a b c : Inf K} (h : SameLists a b) (h' : SameLists b c) : SameLists a c :=
  ⟨h'.1.trans h.1, h'.2.trans h.2, h'.3.trans h.3, h'.4.trans h.4⟩

/-- One iteration of `set_params` that does not meet a stepping parameter or an inadmissible value. -/
theorem setParam1_ok (c : Cfg K) (pv : ℕ → Option K) {s : Inf K} (hs : Inv s)
    (hvo : ∀ i hd, s.h i = some hd → VaryOk hd) {i : ℕ} {v : K} (hst : s.status i ≠ .stepping) (hpv : pv i = some v)
    (hadm : s.admits i v) :
    ∃ s' hd, s.setParam1 c pv i = (s', none) ∧ (s.access c i).1.h i = some hd ∧
      s'.h i = some { hd with value := some v } ∧ (∀ j, j ≠ i → s'.h j = (s.access c i).1.h j) ∧
      SameLists (s.access c i).1 s' := by
  obtain ⟨h2, hd, w, h3, h4, hu, _⟩ := access_ok c hs i
  have hg := access_good c hs i
  have hvo' : VaryOk hd := Inf.step_varyOk c hs hvo (.get i) i hd h3
  have hst' : hd.status ≠ .stepping := by
    rcases access_cases c hs i with ⟨⟨hd', v', h1, h2⟩, e⟩ | ⟨_, _, s', e, hm⟩
    · rw [e] at h3; rw [← status_eq_of_h h3]; exact hst
    · rw [e] at h3
      have := hm.self.symm.trans h3
      injection this with this
      rw [← this]; simp
  have hadm' : hd.admits v := by
    rcases access_cases c hs i with ⟨⟨hd', v', h1, h2⟩, e⟩ | ⟨_, _, s', e, hm⟩
    · rw [e] at h3
      simp only [ok] at h3
      intro lo hi hb
      exact hadm lo hi (by simp [Inf.bounds, h3, hb])
    · rw [e] at h3
      have := hm.self.symm.trans h3
      injection this with this
      rw [← this]
      exact admits_of_none (by simp)
  unfold Inf.setParam1 Inf.onHandler
  have e0 : s.access c i = ok (s.access c i).1 := Prod.ext rfl h2
  rw [e0]
  generalize (s.access c i).1 = t at h3 hg
  have hs' := hg.1
  clear hg
  simp only [ok, Res.andThen_ok, h3, hpv]
  have hst0 := (status_eq_of_h h3).symm
  cases hty : hd.status with
  | undef => exact absurd hty hu
  | stepping => exact absurd hty hst'
  | fixed =>
    have ef : t.fixH i hd (some v) = (t.putValue i hd v).setStatus i { hd with value := some v } .fixed := by
      unfold Inf.fixH
      dsimp only
      split
      · rename_i lo hi hb
        rw [if_pos]
        exact hadm' lo hi hb
      · rfl
    dsimp only
    rw [ef]
    unfold Inf.setStatus Inf.onStatusChange
    rw [if_pos hty, if_neg (by decide)]
    refine ⟨_, hd, rfl, rfl, ?_, fun j hj => ?_, ⟨rfl, rfl, rfl, rfl⟩⟩
    · simp only [setH_self]; rw [← hty]
    · rw [setH_ne _ _ hj, putValue_ne _ _ _ hj]
  | varying =>
    obtain ⟨hb, hdel⟩ := hvo' hty
    obtain ⟨⟨lo, hi⟩, hb⟩ := Option.isSome_iff_exists.mp hb
    obtain ⟨dd, hdel⟩ := Option.isSome_iff_exists.mp hdel
    dsimp only
    unfold Inf.varyH
    rw [if_neg (by simp [hb])]
    simp only [Handler.withRange, Option.none_or, hdel]
    unfold Inf.setStatus Inf.onStatusChange
    have e1 : ({ hd with delta := some dd } : Handler K) = hd := by rw [← hdel]
    have e2 : ({ hd with delta := some dd, status := .varying } : Handler K) = hd := by rw [← hdel, ← hty]
    simp only [e1, e2]
    rw [if_pos hty, if_neg (by decide)]
    simp only [ok, Res.andThen_ok]
    rw [setH_same h3]
    unfold Inf.setValueH
    rw [if_neg (not_not.mpr hty)]
    simp only [hb, ge_iff_le]
    rw [if_pos (hadm' lo hi hb)]
    exact ⟨_, hd, rfl, rfl, by rw [putValue_self], fun j hj => putValue_ne _ _ _ hj, ⟨rfl, rfl, rfl, rfl⟩⟩

/-- What reading does: installs defaults, and nothing else. -/
structure ReadOnly (c : Cfg K) (l : List ℕ) (s s' : Inf K) : Prop where
  kept : ∀ j v, s.value j = some v → s'.h j = s.h j
  other : ∀ j, j ∉ l → s'.h j = s.h j
  read : ∀ j, s'.read c j = s.read c j
  installed : ∀ j ∈ l, s.value j = none → s'.h j = some (Handler.fresh c j)
  varying : s'.varying = s.varying
  stepping : s'.stepping = s.stepping
  info : s'.info = s.info

theorem access_readOnly (c : Cfg K) {s : Inf K} (hs : Inv s) (i : ℕ) : ReadOnly c [i] s (s.access c i).1 := by
  rcases access_cases c hs i with ⟨⟨hd, v, h1, h2⟩, e⟩ | ⟨hu, hn, s', e, hm⟩
  · rw [e]
    refine ⟨fun _ _ _ => rfl, fun _ _ => rfl, fun _ => rfl, fun j hj hv => ?_, rfl, rfl, rfl⟩
    simp only [List.mem_singleton] at hj
    subst hj
    simp [Inf.value, h1, h2] at hv
  · rw [e]
    have e1 : s'.h i = some (Handler.fresh c i) := by simpa [Handler.fresh] using hm.self
    have e2 : ∀ j, j ≠ i → s'.h j = s.h j := fun j hj => by rw [hm.other j hj]; simp
    refine ⟨fun j v hv => ?_, fun j hj => e2 j (by simpa using hj), fun j => ?_, fun j hj _ => ?_, ?_, ?_, ?_⟩
    · refine e2 j ?_
      rintro rfl
      rw [Inf.value, hn] at hv; simp at hv
    · by_cases hj : j = i
      · subst hj; simp [ok, Inf.read, e1, hn, Handler.fresh]
      · exact read_of_h (e2 j hj)
    · simp only [List.mem_singleton] at hj; subst hj; exact e1
    · show s'.varying = _; rw [hm.varying]; simp [updList]
    · show s'.stepping = _; rw [hm.stepping]; simp [updList]
    · funext j; show s'.info j = _; rw [hm.info]; simp

theorem ReadOnly.append {c : Cfg K} {a : ℕ} {l : List ℕ} {s s' s'' : Inf K} (h : ReadOnly c [a] s s')
    (h' : ReadOnly c l s' s'') : ReadOnly c (a :: l) s s'' := by
  refine ⟨fun j v hv => ?_, fun j hj => ?_, fun j => ?_, fun j hj hv => ?_, h'.varying.trans h.varying,
    h'.stepping.trans h.stepping, h'.info.trans h.info⟩
  · have e := h.kept j v hv
    rw [← e]; exact h'.kept j v (by rw [Inf.value, e]; exact hv)
  · simp only [List.mem_cons, not_or] at hj
    rw [h'.other j hj.2, h.other j (by simpa using hj.1)]
  · rw [h'.read, h.read]
  · by_cases hja : j = a
    · subst hja
      have e := h.installed j (by simp) hv
      rw [← e]
      exact h'.kept j (c.default j) (by simp [Inf.value, e, Handler.fresh])
    · simp only [List.mem_cons, hja, false_or] at hj
      refine h'.installed j hj ?_
      rw [Inf.value, h.other j (by simpa using hja)]; exact hv

theorem getParamsLoop_ok (c : Cfg K) (l : List ℕ) : ∀ {s : Inf K} (_ : Inv s) (pv : ParamValues K) (_ : l.Nodup)
    (_ : ∀ i ∈ l, i ∉ pv.names),
    ∃ s' pv', Inf.getParamsLoop c l s pv = ok (s', pv') ∧ Inv s' ∧ ReadOnly c l s s' ∧ pv'.names = pv.names ++ l ∧
      ∀ i, pv'.vals i = if i ∈ l then some (s.read c i) else pv.vals i := by
  induction l with
  | nil =>
    intro s hs pv _ _
    exact ⟨s, pv, rfl, hs, ⟨fun _ _ _ => rfl, fun _ _ => rfl, fun _ => rfl, by simp, rfl, rfl, rfl⟩, by simp, by simp⟩
  | cons a l ih =>
    intro s hs pv hnd hnot
    obtain ⟨h2, hd, w, h3, h4, hu, h5⟩ := access_ok c hs a
    have hro := access_readOnly c hs a
    have hg := access_good c hs a
    unfold Inf.getParamsLoop
    have e0 : s.access c a = ((s.access c a).1, none) := Prod.ext rfl h2
    rw [e0]
    generalize (s.access c a).1 = t at h3 hro hg
    simp only [h3, Option.bind_some, h4]
    unfold ParamValues.store
    rw [if_neg (hnot a (by simp))]
    simp only [ok]
    rw [List.nodup_cons] at hnd
    obtain ⟨s', pv', e, hi, hr, hn, hv⟩ := ih hg.1
      { names := pv.names ++ [a], vals := Function.update pv.vals a (some w) } hnd.2 (by
        intro i hi hm
        simp only [List.mem_append, List.mem_singleton] at hm
        rcases hm with hm | rfl
        · exact hnot i (by simp [hi]) hm
        · exact hnd.1 hi)
    refine ⟨s', pv', e, hi, hro.append hr, by simp [hn], fun i => ?_⟩
    rw [hv i]
    by_cases hia : i = a
    · subst hia; simp [hnd.1, h5]
    · simp [hia, hro.read]

/-- `set_params` over a list of parameters none of which is stepping, with admissible values. -/
theorem setParamsLoop_ok (c : Cfg K) (pv : ℕ → Option K) (l : List ℕ) : ∀ {s : Inf K} (_ : Inv s)
    (_ : ∀ i hd, s.h i = some hd → VaryOk hd) (_ : l.Nodup) (_ : ∀ i ∈ l, s.status i ≠ .stepping)
    (_ : ∀ i ∈ l, ∃ v, pv i = some v ∧ s.admits i v),
    ∃ s', Inf.setParamsLoop c pv l s = (s', none) ∧ Inv s' ∧ (∀ i hd, s'.h i = some hd → VaryOk hd) ∧
      (∀ j, j ∉ l → s'.h j = s.h j) ∧
      (∀ i ∈ l, ∃ hd, s'.h i = some { hd with value := pv i } ∧
        ((s.h i = some hd ∧ hd.value.isSome) ∨ (s.value i = none ∧ hd = Handler.fresh c i))) ∧
      s'.varying = s.varying ∧ s'.stepping = s.stepping ∧ s'.info = s.info ∧
      ((∀ i ∈ l, (s.value i).isSome) → s'.fixed = s.fixed) := by
  induction l with
  | nil => intro s hs hvo _ _ _; exact ⟨s, rfl, hs, hvo, fun _ _ => rfl, by simp, rfl, rfl, rfl, fun _ => rfl⟩
  | cons a l ih =>
    intro s hs hvo hnd hst hpv
    rw [List.nodup_cons] at hnd
    obtain ⟨v, hva, hadm⟩ := hpv a (by simp)
    obtain ⟨s1, hd, e1, h3, h4, h5, h6⟩ := setParam1_ok c pv hs hvo (hst a (by simp)) hva hadm
    have hro := access_readOnly c hs a
    have hi1 : Inv s1 := by have := (setParam1_good c pv hs a).1; rwa [e1] at this
    have hvo1 : ∀ i hd, s1.h i = some hd → VaryOk hd := by
      intro i x hx
      have hacc := Inf.step_varyOk c hs hvo (.get a)
      by_cases hia : i = a
      · subst hia
        rw [h4] at hx; injection hx with hx; subst hx
        exact hacc i hd h3
      · rw [h5 i hia] at hx; exact hacc i x hx
    have hoff : ∀ j, j ≠ a → s1.h j = s.h j := fun j hj => (h5 j hj).trans (hro.other j (by simpa using hj))
    obtain ⟨s', e', hi', hvo', hoff', hl', hv', hst', hinfo', hfix'⟩ := ih hi1 hvo1 hnd.2
      (fun i hi => by
        have : i ≠ a := fun e => hnd.1 (e ▸ hi)
        rw [Inf.status, hoff i this]; exact hst i (by simp [hi]))
      (fun i hi => by
        have : i ≠ a := fun e => hnd.1 (e ▸ hi)
        obtain ⟨v, h1, h2⟩ := hpv i (by simp [hi])
        refine ⟨v, h1, ?_⟩
        unfold Inf.admits Inf.bounds; rw [hoff i this]; exact h2)
    refine ⟨s', ?_, hi', hvo', fun j hj => ?_, fun i hi => ?_, hv'.trans (h6.varying.trans hro.varying),
      hst'.trans (h6.stepping.trans hro.stepping), hinfo'.trans (h6.info.trans hro.info), fun hall => ?_⟩
    · show Res.andThen (s.setParam1 c pv a) _ = _
      rw [e1]; exact e'
    · simp only [List.mem_cons, not_or] at hj
      rw [hoff' j hj.2, hoff j hj.1]
    · by_cases hia : i = a
      · subst hia
        refine ⟨hd, by rw [hoff' i hnd.1, h4, hva], ?_⟩
        cases hval : s.value i with
        | none =>
          have := hro.installed i (by simp) hval
          rw [this] at h3
          injection h3 with h3
          exact Or.inr ⟨rfl, h3.symm⟩
        | some w =>
          rw [hro.kept i w hval] at h3
          refine Or.inl ⟨h3, ?_⟩
          simp only [Inf.value, h3, Option.bind_some] at hval
          simp [hval]
      · simp only [List.mem_cons, hia, false_or] at hi
        obtain ⟨x, hx, hx'⟩ := hl' i hi
        refine ⟨x, hx, ?_⟩
        unfold Inf.value at hx' ⊢
        rwa [hoff i hia] at hx'
    · rw [hfix' (fun i hi => by
        have : i ≠ a := fun e => hnd.1 (e ▸ hi)
        rw [Inf.value, hoff i this]; exact hall i (by simp [hi])), h6.fixed]
      rcases access_cases c hs a with ⟨_, e⟩ | ⟨_, hn, _⟩
      · rw [e]; rfl
      · have := hall a (by simp)
        rw [Inf.value, hn] at this; simp at this

/-! ### The properties -/

/-- **C14 (get).** `get_params()` raises nothing; what it returns is the value of each declared parameter as the user
reads it, and nothing else; and it changes nothing but installing the defaults of parameters that had no value. -/
theorem C14_get_params (c : Cfg K) (hnd : c.params.Nodup) (s : Inf K) (hr : Reachable c s) :
    ∃ s0 pv, s.getParams c = ((s0, pv), none) ∧ pv.names = c.params ∧
      (∀ i, pv.vals i = if i ∈ c.params then some (s.read c i) else none) ∧
      (∀ i, s0.read c i = s.read c i) ∧ (∀ i v, s.value i = some v → s0.h i = s.h i) ∧
      (∀ i, i ∉ c.params → s0.h i = s.h i) := by
  obtain ⟨s', pv', e, hi, hro, hn, hv⟩ := getParamsLoop_ok c c.params hr.inv {} hnd (by simp)
  exact ⟨s', pv', e, by simpa using hn, hv, hro.read, hro.kept, hro.other⟩

/-- **C14 (get, then set).** If no declared parameter is stepping and values respect declared ranges, then
`set_params(get_params())` raises nothing and every handler (value, status, range, ...) and every list is the same
after it as before it. -/
theorem C14_get_then_set (c : Cfg K) (hnd : c.params.Nodup) (s : Inf K) (hr : Reachable c s)
    (hst : ∀ i ∈ c.params, s.status i ≠ .stepping) (hin : ∀ i ∈ c.params, s.inRange i) :
    ∃ s0 pv s1, s.getParams c = ((s0, pv), none) ∧ s0.setParams c pv.vals = (s1, none) ∧
      (∀ i, s1.h i = s0.h i) ∧ s1.fixed = s0.fixed ∧ s1.varying = s0.varying ∧ s1.stepping = s0.stepping ∧
      s1.info = s0.info ∧ (∀ i v, s.value i = some v → s1.h i = s.h i) := by
  obtain ⟨s0, pv, e, hi, hro, hn, hv⟩ := getParamsLoop_ok c c.params hr.inv {} hnd (by simp)
  have hval : ∀ i ∈ c.params, s0.value i = some (s.read c i) := by
    intro i hi
    cases h : s.value i with
    | some v =>
      rw [Inf.value, hro.kept i v h]
      unfold Inf.read; unfold Inf.value at h; rw [h]
    | none =>
      rw [Inf.value, hro.installed i hi h]
      unfold Inf.read; unfold Inf.value at h; rw [h]; rfl
  have hvo0 : ∀ i hd, s0.h i = some hd → VaryOk hd := by
    intro i hd hh
    cases h : s.value i with
    | some v => rw [hro.kept i v h] at hh; exact hr.varyOk i hd hh
    | none =>
      by_cases hi : i ∈ c.params
      · rw [hro.installed i hi h] at hh
        injection hh with hh; subst hh
        intro e; simp [Handler.fresh] at e
      · rw [hro.other i hi] at hh; exact hr.varyOk i hd hh
  obtain ⟨s1, e1, hi1, _, hoff, hl, h1, h2, h3, h4⟩ := setParamsLoop_ok c pv.vals c.params hi hvo0 hnd
    (fun i hi => by
      cases h : s.value i with
      | some v => rw [Inf.status, hro.kept i v h]; exact hst i hi
      | none => rw [Inf.status, hro.installed i hi h]; simp [Handler.fresh])
    (fun i hi => by
      refine ⟨s.read c i, by rw [hv i, if_pos hi], fun lo hi' hb => ?_⟩
      cases h : s.value i with
      | some v =>
        rw [Inf.bounds, hro.kept i v h] at hb
        have : s.read c i = v := by unfold Inf.read; unfold Inf.value at h; rw [h]
        rw [this]
        exact hin i hi v lo hi' h hb
      | none => rw [Inf.bounds, hro.installed i hi h] at hb; simp [Handler.fresh] at hb)
  have hh : ∀ i, s1.h i = s0.h i := by
    intro i
    by_cases hi : i ∈ c.params
    · obtain ⟨hd, hx, hx'⟩ := hl i hi
      have hvi := hval i hi
      rcases hx' with ⟨hx', _⟩ | ⟨hx', _⟩
      · rw [hx, hx']
        congr 1
        simp only [Inf.value, hx', Option.bind_some] at hvi
        rw [hv i, if_pos hi, ← hvi]
      · rw [hvi] at hx'; simp at hx'
    · exact hoff i hi
  exact ⟨s0, pv, s1, e, e1, hh, h4 (fun i hi => by rw [hval i hi]; rfl), h1, h2, h3,
    fun i v hiv => (hh i).trans (hro.kept i v hiv)⟩

/-- **C14 (set, then get).** If no declared parameter is stepping and `pv` has an admissible value for each, then
`set_params(pv)` raises nothing, afterwards every declared parameter has `pv`'s value with status and range as before
(fixed, if it had not been used before), other parameters are untouched, and `get_params()` returns exactly `pv`'s
values. -/
theorem C14_set_then_get (c : Cfg K) (hnd : c.params.Nodup) (s : Inf K) (hr : Reachable c s) (pv : ℕ → Option K)
    (hst : ∀ i ∈ c.params, s.status i ≠ .stepping) (hpv : ∀ i ∈ c.params, ∃ v, pv i = some v ∧ s.admits i v) :
    ∃ s1 s2 pv2, s.setParams c pv = (s1, none) ∧ (∀ i ∈ c.params, s1.value i = pv i) ∧
      (∀ i ∈ c.params, s1.status i = if s.status i = .undef then .fixed else s.status i) ∧
      (∀ i ∈ c.params, s1.bounds i = s.bounds i) ∧
      (∀ i, i ∉ c.params → s1.h i = s.h i) ∧
      s1.getParams c = ((s2, pv2), none) ∧ (∀ i ∈ c.params, pv2.vals i = pv i) := by
  have hs := hr.inv
  obtain ⟨s1, e1, hi1, _, hoff, hl, _⟩ := setParamsLoop_ok c pv c.params hs hr.varyOk hnd hst hpv
  obtain ⟨s2, pv2, e2, _, _, _, hv2⟩ := getParamsLoop_ok c c.params hi1 {} hnd (by simp)
  have hval : ∀ i ∈ c.params, s1.value i = pv i := by
    intro i hi
    obtain ⟨hd, hx, _⟩ := hl i hi
    simp [Inf.value, hx]
  refine ⟨s1, s2, pv2, e1, hval, fun i hi => ?_, fun i hi => ?_, hoff, e2, fun i hi => ?_⟩
  · obtain ⟨hd, hx, hx'⟩ := hl i hi
    rw [status_eq_of_h hx]
    rcases hx' with ⟨a, b⟩ | ⟨a, rfl⟩
    · rw [status_eq_of_h a, if_neg]
      exact hs.val' i hd a b
    · have : s.status i = .undef := status_of_noValue hs a
      rw [this, if_pos rfl]; rfl
  · obtain ⟨hd, hx, hx'⟩ := hl i hi
    simp only [Inf.bounds, hx, Option.bind_some]
    rcases hx' with ⟨a, b⟩ | ⟨a, rfl⟩
    · simp [a]
    · have hu : s.status i = .undef := status_of_noValue hs a
      cases hh : s.h i with
      | none => simp [Handler.fresh]
      | some x =>
        obtain ⟨ops, rfl⟩ := hr
        have := run_blankOk c ops i x hh (by rw [← status_eq_of_h hh]; exact hu)
        simp [this, Handler.fresh]
  · rw [hv2 i, if_pos hi]
    obtain ⟨v, h1, _⟩ := hpv i hi
    have := hval i hi
    rw [h1] at this ⊢
    unfold Inf.value at this
    unfold Inf.read; rw [this]

/-- **C14 (stepping).** If `i` is the first declared parameter that is stepping, and the parameters declared before it
have admissible values in `pv`, `set_params(pv)` raises `ParamError`, and by then those earlier parameters have been
given `pv`'s values while every other parameter is as it was: the call is not all-or-nothing. -/
theorem C14_stepping_raises (c : Cfg K) (hnd : c.params.Nodup) (s : Inf K) (hr : Reachable c s) (pv : ℕ → Option K)
    (pre post : List ℕ) (i : ℕ) (hp : c.params = pre ++ i :: post) (hi : s.status i = .stepping)
    (hst : ∀ j ∈ pre, s.status j ≠ .stepping) (hpv : ∀ j ∈ pre, ∃ v, pv j = some v ∧ s.admits j v) :
    ∃ s1, s.setParams c pv = (s1, some .param) ∧ (∀ j ∈ pre, s1.value j = pv j) ∧
      (∀ j, j ∉ pre → s1.h j = s.h j) := by
  have hs := hr.inv
  have hnd' := hnd
  rw [hp, List.nodup_append] at hnd'
  obtain ⟨s1, e1, hi1, _, hoff, hl, _⟩ := setParamsLoop_ok c pv pre hs hr.varyOk hnd'.1 hst hpv
  have happ : ∀ (l l' : List ℕ) (s s1 : Inf K), Inf.setParamsLoop c pv l s = (s1, none) →
      Inf.setParamsLoop c pv (l ++ l') s = Inf.setParamsLoop c pv l' s1 := by
    intro l l'
    induction l with
    | nil =>
      intro s s1 e
      simp only [Inf.setParamsLoop, ok, Prod.mk.injEq, and_true] at e
      rw [e]; rfl
    | cons a l ih =>
      intro s s1 e
      simp only [Inf.setParamsLoop, List.cons_append] at e ⊢
      cases h : s.setParam1 c pv a with
      | mk t o =>
        rw [h] at e
        cases o with
        | none =>
          simp only [Res.andThen_ok] at e ⊢
          exact ih t s1 e
        | some x => simp [Res.andThen] at e
  refine ⟨s1, ?_, fun j hj => ?_, hoff⟩
  · unfold Inf.setParams
    rw [hp, happ pre (i :: post) s s1 e1]
    have hni : i ∉ pre := fun h => by
      have := hnd'.2.2 i h i (by simp)
      exact this rfl
    obtain ⟨hd, hh, hd'⟩ := h_of_status hi (by decide)
    have hh1 : s1.h i = some hd := (hoff i hni).trans hh
    simp only [Inf.setParamsLoop, Inf.setParam1]
    rw [onHandler_of_inv c hi1 hh1 (by rw [hd']; decide)]
    simp only [hd']
    rfl
  · obtain ⟨hd, hx, _⟩ := hl j hj
    simp [Inf.value, hx]

/-- Non-vacuity of the four: distinct declared parameters, one varying and two fixed; and one with a stepping one. -/
example :
    let s := (Inf.init : Inf ℚ).run exCfg [.vary 1 (some 2) (some 1) (some (0, 5)), .assign 0 (some 7)]
    exCfg.params.Nodup ∧ (∀ i ∈ exCfg.params, s.status i ≠ .stepping) ∧
    (s.setParams exCfg fun i => some (i + 3)).1.value 1 = some 4 ∧
    (s.setParams exCfg fun i => some (i + 3)).2 = none ∧ s.status 2 = .undef ∧
    ((s.step exCfg (.linstep 1 (some 1) (some 2) 3)).1.setParams exCfg fun i => some (i + 3)).2 = some .param ∧
    ((s.step exCfg (.linstep 1 (some 1) (some 2) 3)).1.setParams exCfg fun i => some (i + 3)).1.value 0 = some 3 := by
  decide +kernel
example :
    let s := (Inf.init : Inf ℚ).run exCfg [.vary 1 (some 2) (some 1) (some (0, 5)), .assign 0 (some 7)]
    s.inRange 1 ∧ s.admits 1 4 := by
  intro s
  have hv : s.value 1 = some 2 := by decide +kernel
  have hb : s.bounds 1 = some (0, 5) := by decide +kernel
  constructor
  · intro v lo hi h1 h2
    rw [hv] at h1; rw [hb] at h2
    simp only [Option.some.injEq, Prod.mk.injEq] at h1 h2
    rw [← h1, ← h2.1, ← h2.2]; norm_num
  · intro lo hi h2
    rw [hb] at h2
    simp only [Option.some.injEq, Prod.mk.injEq] at h2
    rw [← h2.1, ← h2.2]; norm_num

/-- **C15 (storing twice).** `store` raises `ParamError` exactly when the name is already stored, and then leaves the
container as it was; otherwise the name reads the stored value and all other names read what they did. -/
theorem C15_store (pv : ParamValues K) (i : ℕ) (v : K) :
    (i ∈ pv.names → pv.store i v = (pv, some .param)) ∧
    (i ∉ pv.names → ∃ pv', pv.store i v = (pv', none) ∧ pv'.vals i = some v ∧ (∀ j, j ≠ i → pv'.vals j = pv.vals j) ∧
      pv'.names = pv.names ++ [i] ∧ (∀ w, pv'.store i w = (pv', some .param))) := by
  unfold ParamValues.store
  constructor
  · intro h; rw [if_pos h]; rfl
  · intro h
    rw [if_neg h]
    refine ⟨_, rfl, by simp, fun j hj => by simp [hj], rfl, fun w => ?_⟩
    rw [if_pos (by simp)]; rfl

theorem World.run_append (c : Cfg K) (w : World K) (a b : List (WOp K)) : w.run c (a ++ b) = (w.run c a).run c b := by
  simp [World.run]

/-- The inference inside a world is reachable, and snapshots only accumulate. -/
theorem World.run_reachable (c : Cfg K) (ops : List (WOp K)) : ∀ (w : World K), Inv w.inf →
    Inv (w.run c ops).inf ∧ w.snaps <+: (w.run c ops).snaps := by
  induction ops with
  | nil => intro w h; exact ⟨h, List.prefix_refl _⟩
  | cons o ops ih =>
    intro w h
    have key : Inv (w.step c o).inf ∧ w.snaps <+: (w.step c o).snaps := by
      cases o with
      | op o => exact ⟨(step_good c h o).1, List.prefix_refl _⟩
      | take =>
        have hi : ∀ (l : List ℕ) (s : Inf K) (pv : ParamValues K), Inv s → Inv (Inf.getParamsLoop c l s pv).1.1 := by
          intro l
          induction l with
          | nil => intro s pv h; exact h
          | cons a l ih =>
            intro s pv h
            have hg := (access_good c h a).1
            unfold Inf.getParamsLoop
            generalize s.access c a = r at hg
            obtain ⟨s', _ | e⟩ := r
            · dsimp only
              cases (s'.h a).bind (·.value) with
              | none => exact hg
              | some v =>
                dsimp only
                cases pv.store a v with
                | mk pv' o => cases o with
                  | none => exact ih s' pv' hg
                  | some e => exact hg
            · exact hg
        have := hi c.params w.inf {} h
        show Inv (match w.inf.getParams c with
          | ((s, pv), none) => { inf := s, snaps := w.snaps ++ [pv] }
          | ((s, _), some _) => { w with inf := s } : World K).inf ∧ w.snaps <+: (match w.inf.getParams c with
          | ((s, pv), none) => { inf := s, snaps := w.snaps ++ [pv] }
          | ((s, _), some _) => { w with inf := s } : World K).snaps
        unfold Inf.getParams
        generalize Inf.getParamsLoop c c.params w.inf {} = r at this
        obtain ⟨⟨s, pv⟩, _ | e⟩ := r
        · exact ⟨this, List.prefix_append _ _⟩
        · exact ⟨this, List.prefix_refl _⟩
      | restore k =>
        simp only [World.step]
        cases w.snaps[k]? with
        | none => exact ⟨h, List.prefix_refl _⟩
        | some pv => exact ⟨(step_good c h (.setParams pv.vals)).1, List.prefix_refl _⟩
    obtain ⟨h1, h2⟩ := ih (w.step c o) key.1
    exact ⟨h1, key.2.trans h2⟩

/-- **C15.** The snapshot that `get_params()` returns holds, for each declared parameter, the value the user would have
read at the moment of the call, after whatever history; and it still holds exactly those values after any later history
of operations, further snapshots and restores. -/
theorem C15_snapshots (c : Cfg K) (hnd : c.params.Nodup) (pre post : List (WOp K)) :
    let before := ({} : World K).run c pre
    let after := ({} : World K).run c (pre ++ [.take] ++ post)
    ∃ pv, after.snaps[before.snaps.length]? = some pv ∧ pv.names = c.params ∧
      ∀ i, pv.vals i = if i ∈ c.params then some (before.inf.read c i) else none := by
  intro before after
  have hi : Inv before.inf := (World.run_reachable c pre {} Inv.init).1
  obtain ⟨s', pv, e, hi', _, hn, hv⟩ := getParamsLoop_ok c c.params hi {} hnd (by simp)
  refine ⟨pv, ?_, by simpa using hn, hv⟩
  have e1 : ({} : World K).run c (pre ++ [.take]) = { inf := s', snaps := before.snaps ++ [pv] } := by
    rw [World.run_append]
    show before.step c .take = _
    simp only [World.step, Inf.getParams, e, ok]
  have hpre : before.snaps ++ [pv] <+: after.snaps := by
    have := (World.run_reachable c post (({} : World K).run c (pre ++ [.take])) (by rw [e1]; exact hi')).2
    rw [e1] at this
    have e2 : after = ({ inf := s', snaps := before.snaps ++ [pv] } : World K).run c post := by
      show ({} : World K).run c (pre ++ [.take] ++ post) = _
      rw [World.run_append, e1]
    rw [e2]; exact this
  obtain ⟨t, ht⟩ := hpre
  rw [← ht]
  simp

/-- Non-vacuity: two snapshots around a change, the first restored at the end. -/
example :
    let w := ({} : World ℚ).run exCfg [.op (.assign 0 (some 7)), .take, .op (.assign 0 (some 8)), .take, .restore 0]
    w.snaps.map (fun pv => pv.vals 0) = [some 7, some 8] ∧ w.inf.value 0 = some 7 ∧ exCfg.params.Nodup := by
  decide +kernel

end Verif.Pie
