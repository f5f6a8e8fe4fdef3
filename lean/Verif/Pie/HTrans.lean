import Verif.Pie.ProperLemmas
import Mathlib.Logic.Relation

/-!
# What can happen to one parameter's handler (helper lemmas)

`HTrans c op hd hd'` lists the elementary changes of a handler that executing `op` can make; `step_htrans` shows the
list is complete. Handler-level invariants over all histories then need only be checked against the list.
-/

set_option linter.unusedSectionVars false
set_option linter.unusedSimpArgs false

namespace Verif.Pie
variable {K : Type} [Field K] [LinearOrder K]

/-- `v` is acceptable to the declared range of `hd`. -/
def Handler.admits (hd : Handler K) (v : K) : Prop := ∀ lo hi, hd.bounds = some (lo, hi) → lo ≤ v ∧ v ≤ hi

/-- The elementary changes of one handler. -/
inductive HTrans (c : Cfg K) : Op K → Handler K → Handler K → Prop
  | rst (op hd) (h : hd.status = .stepping) : HTrans c op hd hd.rst
  | fix (op hd v) (h : hd.admits v) : HTrans c op hd { hd with value := some v, status := .fixed }
  | refix (op hd) (h : hd.status ≠ .undef) : HTrans c op hd { hd with status := .fixed }
  | setv (op hd v) (hst : hd.status = .varying) (h : hd.admits v) : HTrans c op hd { hd with value := some v }
  | unb (op hd lo hi v u) (hst : hd.status = .varying) (hb : hd.bounds = some (lo, hi))
      (hv : v = lo ∨ v = hi ∨ ∃ e, c.exp u = some e ∧ v = (lo + hi * e) / (1 + e)) :
      HTrans c op hd { hd with value := some v }
  | range (i a b hd) (h : hd.status ≠ .undef) : HTrans c (.range i a b) hd (hd.range a b)
  | varyF (i st d r hd) (h : hd.status ≠ .undef) (hd' : d.or hd.delta = none) :
      HTrans c (.vary i st d r) hd (hd.withRange r)
  | varyS (i st d r hd dd) (h : hd.status ≠ .undef) (hr : ¬ (r = none ∧ hd.bounds = none)) (hd' : d.or hd.delta = some dd) :
      HTrans c (.vary i st d r) hd { hd.withRange r with delta := some dd, status := .varying }
  | lin (i lo hi n hd) (h : hd.status ≠ .undef) (hlo : hd.admits lo) (hhi : hd.admits hi) (hn : n ≠ 1) :
      HTrans c (.linstep i (some lo) (some hi) n) hd
        { hd with stype := .lin, slo := lo, shi := hi, steps := n, delta := some ((hi - lo) / ((n : K) - 1)),
                  stepNum := 0, value := some lo, status := .stepping }
  | linF1 (i lo hi n hd) (h : hd.status ≠ .undef) (hn : lo = none) : HTrans c (.linstep i lo hi n) hd { hd with stype := .lin }
  | linF2 (i lo hi n hd x) (h : hd.status ≠ .undef) (hn : hi = none) :
      HTrans c (.linstep i lo hi n) hd { hd with stype := .lin, slo := x }
  | linF3 (i lo hi n hd x y) (h : hd.status ≠ .undef) (hn : lo = none ∨ hi = none ∨ n = 1) :
      HTrans c (.linstep i lo hi n) hd { hd with stype := .lin, slo := x, shi := y, steps := n }
  | log (i lo hi n hd) (h : hd.status ≠ .undef) (hlo : hd.admits lo) (hhi : hd.admits hi) (hs : 0 < lo * hi) :
      HTrans c (.logstep i (some lo) (some hi) n) hd
        { hd with stype := .log, slo := lo, shi := hi, steps := n, fac := c.root (hi / lo) n,
                  stepNum := 0, value := some lo, status := .stepping }
  | next (op hd v) (h : hd.status = .stepping) (hn : hd.stepNum ≠ hd.steps - 1)
      (hv : (hd.stepNum + 1 = hd.steps - 1 ∧ v = hd.shi) ∨
        (hd.stepNum + 1 ≠ hd.steps - 1 ∧ ∃ w, hd.value = some w ∧
          ((hd.stype = .lin ∧ ∃ d, hd.delta = some d ∧ v = w + d) ∨ (hd.stype = .log ∧ v = w * hd.fac)))) :
      HTrans c op hd { hd with stepNum := hd.stepNum + 1, value := some v }
  | nextF (op hd) (h : hd.status = .stepping) (hn : hd.stepNum ≠ hd.steps - 1)
      (hv : hd.value = none ∨ (hd.stype = .lin ∧ hd.delta = none)) :
      HTrans c op hd { hd with stepNum := hd.stepNum + 1 }
  | prev (op hd v) (h : hd.status = .stepping) (hn : hd.stepNum ≠ 0)
      (hv : (hd.stepNum - 1 = 0 ∧ v = hd.slo) ∨
        (hd.stepNum - 1 ≠ 0 ∧ ∃ w, hd.value = some w ∧
          ((hd.stype = .lin ∧ ∃ d, hd.delta = some d ∧ v = w - d) ∨ (hd.stype = .log ∧ v = w / hd.fac)))) :
      HTrans c op hd { hd with stepNum := hd.stepNum - 1, value := some v }
  | prevF (op hd) (h : hd.status = .stepping) (hn : hd.stepNum ≠ 0)
      (hv : hd.value = none ∨ (hd.stype = .lin ∧ hd.delta = none)) :
      HTrans c op hd { hd with stepNum := hd.stepNum - 1 }
  | last (op hd) (h : hd.status = .stepping) :
      HTrans c op hd { hd with stepNum := hd.steps - 1, value := some hd.shi }

/-- Chains of elementary changes. -/
abbrev HChain (c : Cfg K) (op : Op K) := Relation.ReflTransGen (HTrans c op)

/-- A freshly accessed parameter's handler. -/
def Handler.fresh (c : Cfg K) (i : ℕ) : Handler K := { value := some (c.default i), status := .fixed }

/-- Parameter `i`'s handler went from `s` to `s'` by a chain of elementary changes, after being installed if needed. -/
def HPath (c : Cfg K) (op : Op K) (s s' : Inf K) (i : ℕ) : Prop :=
  (s.h i = none ∧ s'.h i = none) ∨
  ∃ hd0 hd', s'.h i = some hd' ∧ HChain c op hd0 hd' ∧
    (s.h i = some hd0 ∨ (s.h i = none ∧ hd0 = {}) ∨ ((s.h i).bind (·.value) = none ∧ hd0 = Handler.fresh c i))

theorem HPath.refl (c : Cfg K) (op : Op K) (s : Inf K) (i : ℕ) : HPath c op s s i := by
  cases h : s.h i with
  | none => exact Or.inl ⟨h, h⟩
  | some hd => exact Or.inr ⟨hd, hd, h, .refl, Or.inl h⟩

theorem HPath.of_eq {c : Cfg K} {op : Op K} {s s' : Inf K} {i : ℕ} (h : s'.h i = s.h i) : HPath c op s s' i := by
  cases hh : s.h i with
  | none => exact Or.inl ⟨hh, h.trans hh⟩
  | some hd => exact Or.inr ⟨hd, hd, h.trans hh, .refl, Or.inl hh⟩

/-- `P` holds along every path if it holds initially and is kept by the elementary changes. -/
theorem HPath.trans_chain {c : Cfg K} {op : Op K} {s s' s'' : Inf K} {i : ℕ} (h : HPath c op s s' i)
    (h' : ∀ hd, s'.h i = some hd → ∃ hd', s''.h i = some hd' ∧ HChain c op hd hd')
    (hn : s'.h i = none → s''.h i = none) : HPath c op s s'' i := by
  rcases h with ⟨h1, h2⟩ | ⟨hd0, hd', h1, h2, h3⟩
  · exact Or.inl ⟨h1, hn h2⟩
  · obtain ⟨hd'', h4, h5⟩ := h' hd' h1
    exact Or.inr ⟨hd0, hd'', h4, h2.trans h5, h3⟩

theorem chain_frame {c : Cfg K} {op : Op K} {s s' : Inf K} {j : ℕ} (h : Frame s j s') :
    (∀ hd, s.h j = some hd → ∃ hd', s'.h j = some hd' ∧ HChain c op hd hd') ∧ (s.h j = none → s'.h j = none) := by
  rcases h with h | ⟨h1, h2⟩
  · exact ⟨fun hd hh => ⟨hd, h.trans hh, .refl⟩, fun hh => h.trans hh⟩
  · refine ⟨fun hd hh => ⟨hd.rst, by rw [h2, hh]; rfl, .single (.rst _ _ ?_)⟩, fun hh => by rw [h2, hh]; rfl⟩
    rw [← status_eq_of_h hh]; exact h1

/-- Chain results for one handler. -/
def Ch (c : Cfg K) (op : Op K) (hd : Handler K) (i : ℕ) (s' : Inf K) : Prop :=
  ∃ hd', s'.h i = some hd' ∧ HChain c op hd hd'

theorem Ch.same {c : Cfg K} {op : Op K} {s : Inf K} {i : ℕ} {hd : Handler K} (hh : s.h i = some hd) :
    Ch c op hd i s := ⟨hd, hh, .refl⟩

theorem Ch.setH {c : Cfg K} {op : Op K} {s : Inf K} {i : ℕ} {hd hd' : Handler K} (h : HTrans c op hd hd') :
    Ch c op hd i (s.setH i hd') := ⟨hd', setH_self _ _ _, .single h⟩

theorem admits_of {hd : Handler K} {lo hi v : K} (hb : hd.bounds = some (lo, hi)) (h : v ≥ lo ∧ v ≤ hi) :
    hd.admits v := by
  intro a b e
  rw [hb] at e
  simp only [Option.some.injEq, Prod.mk.injEq] at e
  obtain ⟨rfl, rfl⟩ := e
  exact h

theorem admits_of_none {hd : Handler K} {v : K} (hb : hd.bounds = none) : hd.admits v := by
  intro a b e; rw [hb] at e; simp at e

theorem fixH_ch (c : Cfg K) (op : Op K) {s : Inf K} (hs : Inv s) {i : ℕ} {hd : Handler K} (hh : s.h i = some hd)
    (v : Option K) : Ch c op hd i (s.fixH i hd v).1 := by
  unfold Inf.fixH
  have hst := (status_eq_of_h hh).symm
  cases v with
  | none =>
    dsimp only
    split_ifs with h
    · exact Ch.same hh
    · obtain ⟨s', e, hm⟩ := setStatus_moved hs (st := .fixed) hst (hs.val i hd hh h) (by decide)
      rw [e]
      exact ⟨_, by simpa using hm.self, .single (.refix _ _ h)⟩
  | some v =>
    dsimp only
    have put : hd.admits v → Ch c op hd i ((s.putValue i hd v).setStatus i { hd with value := some v } .fixed).1 := by
      intro ha
      rw [putValue_setStatus]
      obtain ⟨s', e, hm⟩ := setStatus_moved (hs.note i) (hd := { hd with value := some v }) (st := .fixed) hst rfl
        (by decide)
      rw [e]
      exact ⟨_, by simpa using hm.self, .single (.fix _ _ _ ha)⟩
    split
    · rename_i lo hi hb
      split_ifs with h
      · exact put (admits_of hb h)
      · exact Ch.same hh
    · rename_i hb
      exact put (admits_of_none hb)

theorem setValueH_ch (c : Cfg K) (op : Op K) {s : Inf K} {i : ℕ} {hd : Handler K} (hh : s.h i = some hd) (v : K) :
    Ch c op hd i (s.setValueH i hd v).1 := by
  unfold Inf.setValueH
  by_cases h : hd.status ≠ .varying
  · rw [if_pos h]; exact Ch.same hh
  · rw [if_neg h]
    push Not at h
    split
    · rename_i lo hi hb
      split_ifs with h'
      · exact ⟨_, putValue_self _ _ _ _, .single (.setv _ _ _ h (admits_of hb h'))⟩
      · exact Ch.same hh
    · rename_i hb
      exact ⟨_, putValue_self _ _ _ _, .single (.setv _ _ _ h (admits_of_none hb))⟩

theorem unboundedSetH_ch (c : Cfg K) (op : Op K) {s : Inf K} {i : ℕ} {hd : Handler K} (hh : s.h i = some hd) (u : K) :
    Ch c op hd i (s.unboundedSetH c i hd u).1 := by
  unfold Inf.unboundedSetH
  by_cases h : hd.status ≠ .varying
  · rw [if_pos h]; exact Ch.same hh
  · rw [if_neg h]
    push Not at h
    split
    · exact Ch.same hh
    · rename_i lo hi hb
      split
      · split_ifs
        · exact ⟨_, putValue_self _ _ _ _, .single (.unb _ _ _ _ _ u h hb (Or.inr (Or.inl rfl)))⟩
        · exact ⟨_, putValue_self _ _ _ _, .single (.unb _ _ _ _ _ u h hb (Or.inl rfl))⟩
      · rename_i e he
        exact ⟨_, putValue_self _ _ _ _, .single (.unb _ _ _ _ _ u h hb (Or.inr (Or.inr ⟨e, he, rfl⟩)))⟩

theorem withRange_status (hd : Handler K) (r) : (hd.withRange r).status = hd.status := by cases r <;> rfl
theorem withRange_value (hd : Handler K) (r) : (hd.withRange r).value = hd.value := by cases r <;> rfl
theorem withRange_delta (hd : Handler K) (r) : (hd.withRange r).delta = hd.delta := by cases r <;> rfl

theorem varyH_ch (c : Cfg K) {s : Inf K} (hs : Inv s) {i : ℕ} {hd : Handler K} (hh : s.h i = some hd)
    (hu : hd.status ≠ .undef) (st d : Option K) (r : Option (K × K)) :
    Ch c (.vary i st d r) hd i (s.varyH i hd st d r).1 := by
  unfold Inf.varyH
  by_cases h : (r.isNone && hd.bounds.isNone) = true
  · rw [if_pos h]; exact Ch.same hh
  · rw [if_neg h]
    dsimp only
    have hst := (status_eq_of_h hh).symm
    have hv := hs.val i hd hh hu
    have hr : ¬ (r = none ∧ hd.bounds = none) := by
      rintro ⟨rfl, h2⟩; simp [h2] at h
    rw [withRange_delta]
    cases hdel : d.or hd.delta with
    | none => exact Ch.setH (.varyF i st d r hd hu hdel)
    | some dd =>
      obtain ⟨s', h1, hm⟩ := setStatus_moved hs (i := i) (hd := { hd.withRange r with delta := some dd })
        (st := .varying) ((withRange_status hd r).trans hst) (by rw [withRange_value]; exact hv) (by decide)
      have h2 : s'.h i = some { hd.withRange r with delta := some dd, status := .varying } := by simpa using hm.self
      have h3 : HTrans c (.vary i st d r) hd { hd.withRange r with delta := some dd, status := .varying } :=
        .varyS i st d r hd dd hu hr hdel
      simp only [h1, ok, Res.andThen_ok]
      cases st with
      | some v =>
        obtain ⟨hd', a, b⟩ := setValueH_ch c (.vary i (some v) d r) h2 v
        exact ⟨hd', a, (Relation.ReflTransGen.single h3).trans b⟩
      | none =>
        dsimp only
        split_ifs <;> exact ⟨_, h2, .single h3⟩

theorem nextStepP_ch (c : Cfg K) (op : Op K) {s : Inf K} {i : ℕ} {hd : Handler K} (hh : s.h i = some hd) :
    Ch c op hd i (s.nextStepP i).1 := by
  unfold Inf.nextStepP
  rw [hh]
  dsimp only
  by_cases h : hd.status ≠ .stepping
  · rw [if_pos h]; exact Ch.same hh
  · rw [if_neg h]
    push Not at h
    by_cases hn : hd.stepNum = hd.steps - 1
    · rw [if_pos hn]; exact Ch.same hh
    · rw [if_neg hn]
      by_cases hl : hd.stepNum + 1 = hd.steps - 1
      · rw [if_pos hl]
        exact ⟨_, putValue_self _ _ _ _, .single (.next _ _ _ h hn (Or.inl ⟨hl, rfl⟩))⟩
      · rw [if_neg hl]
        split
        · rename_i hv; exact Ch.setH (.nextF _ _ h hn (Or.inl hv))
        · rename_i v hv
          split
          · rename_i hty
            split
            · rename_i hdl; exact Ch.setH (.nextF _ _ h hn (Or.inr ⟨hty, hdl⟩))
            · rename_i d hdl
              exact ⟨_, putValue_self _ _ _ _, .single (.next _ _ _ h hn (Or.inr ⟨hl, v, hv, Or.inl ⟨hty, d, hdl, rfl⟩⟩))⟩
          · rename_i hty
            exact ⟨_, putValue_self _ _ _ _, .single (.next _ _ _ h hn (Or.inr ⟨hl, v, hv, Or.inr ⟨hty, rfl⟩⟩))⟩

theorem prevStepP_ch (c : Cfg K) (op : Op K) {s : Inf K} {i : ℕ} {hd : Handler K} (hh : s.h i = some hd) :
    Ch c op hd i (s.prevStepP i).1 := by
  unfold Inf.prevStepP
  rw [hh]
  dsimp only
  by_cases h : hd.status ≠ .stepping
  · rw [if_pos h]; exact Ch.same hh
  · rw [if_neg h]
    push Not at h
    by_cases hn : hd.stepNum = 0
    · rw [if_pos hn]; exact Ch.same hh
    · rw [if_neg hn]
      by_cases hl : hd.stepNum - 1 = 0
      · rw [if_pos hl]
        exact ⟨_, putValue_self _ _ _ _, .single (.prev _ _ _ h hn (Or.inl ⟨hl, rfl⟩))⟩
      · rw [if_neg hl]
        split
        · rename_i hv; exact Ch.setH (.prevF _ _ h hn (Or.inl hv))
        · rename_i v hv
          split
          · rename_i hty
            split
            · rename_i hdl; exact Ch.setH (.prevF _ _ h hn (Or.inr ⟨hty, hdl⟩))
            · rename_i d hdl
              exact ⟨_, putValue_self _ _ _ _, .single (.prev _ _ _ h hn (Or.inr ⟨hl, v, hv, Or.inl ⟨hty, d, hdl, rfl⟩⟩))⟩
          · rename_i hty
            exact ⟨_, putValue_self _ _ _ _, .single (.prev _ _ _ h hn (Or.inr ⟨hl, v, hv, Or.inr ⟨hty, rfl⟩⟩))⟩

theorem firstStep_ch (c : Cfg K) (op : Op K) {s : Inf K} {i : ℕ} {hd : Handler K} (hh : s.h i = some hd) :
    Ch c op hd i (s.firstStep i).1 := by
  unfold Inf.firstStep
  rw [hh]
  dsimp only
  split_ifs with h
  · exact Ch.same hh
  · exact ⟨_, putValue_self _ _ _ _, .single (.rst _ _ (not_not.mp h))⟩

theorem lastStep_ch (c : Cfg K) (op : Op K) {s : Inf K} {i : ℕ} {hd : Handler K} (hh : s.h i = some hd) :
    Ch c op hd i (s.lastStep i).1 := by
  unfold Inf.lastStep
  rw [hh]
  dsimp only
  split_ifs with h
  · exact Ch.same hh
  · exact ⟨_, putValue_self _ _ _ _, .single (.last _ _ (not_not.mp h))⟩

theorem stepEnds_admits {hd : Handler K} {lo hi : K} (h : hd.stepEndsOk (some lo) (some hi) = true) :
    hd.admits lo ∧ hd.admits hi := by
  unfold Handler.stepEndsOk at h
  split at h
  · rename_i hb; exact ⟨admits_of_none hb, admits_of_none hb⟩
  · rename_i a b hb
    simp only [Bool.and_eq_true, Bool.not_eq_true', Bool.or_eq_false_iff, decide_eq_false_iff_not, not_lt] at h
    exact ⟨admits_of hb h.1, admits_of hb h.2⟩

theorem linstepH_ch (c : Cfg K) {s : Inf K} (hs : Inv s) {i : ℕ} {hd : Handler K} (hh : s.h i = some hd)
    (hu : hd.status ≠ .undef) (lo hi : Option K) (n : ℤ) :
    Ch c (.linstep i lo hi n) hd i (s.linstepH i hd lo hi n).1 := by
  unfold Inf.linstepH
  by_cases h : (!hd.stepEndsOk lo hi) = true
  · rw [if_pos h]; exact Ch.same hh
  · rw [if_neg h]
    dsimp only
    split
    · rename_i hx
      exact Ch.setH (.linF1 i lo hi n hd hu (by cases lo with | none => rfl | some a => simp at hx))
    · rename_i slo hslo
      split
      · rename_i hx
        exact Ch.setH (.linF2 i lo hi n hd slo hu (by cases hi with | none => rfl | some a => simp at hx))
      · rename_i shi hshi
        split
        · rename_i lo hi
          simp only [Option.some.injEq] at hslo hshi
          subst hslo hshi
          by_cases hn : n = 1
          · rw [if_pos hn]; exact Ch.setH (.linF3 i _ _ n hd _ _ hu (Or.inr (Or.inr hn)))
          · rw [if_neg hn, putValue_setStatus]
            obtain ⟨s', e1, hm⟩ := setStatus_moved (hs.note i) (i := i) (st := .stepping)
              (hd := { hd with
                stype := .lin, slo := lo, shi := hi, steps := n, delta := some ((hi - lo) / ((n : K) - 1)), stepNum := 0,
                value := some lo }) (status_eq_of_h hh).symm rfl (by decide)
            rw [e1]
            have hab := stepEnds_admits (by simpa using h)
            exact ⟨_, by simpa [Handler.rst] using hm.self, .single (.lin i lo hi n hd hu hab.1 hab.2 hn)⟩
        · rename_i hx
          refine Ch.setH (.linF3 i lo hi n hd _ _ hu ?_)
          cases lo with
          | none => exact Or.inl rfl
          | some a =>
            cases hi with
            | none => exact Or.inr (Or.inl rfl)
            | some b => exact absurd rfl (hx a b rfl)

theorem logstepH_ch (c : Cfg K) {s : Inf K} (hs : Inv s) {i : ℕ} {hd : Handler K} (hh : s.h i = some hd)
    (hu : hd.status ≠ .undef) (lo hi : Option K) (n : ℤ) :
    Ch c (.logstep i lo hi n) hd i (s.logstepH c i hd lo hi n).1 := by
  unfold Inf.logstepH
  by_cases h : (!hd.stepEndsOk lo hi) = true
  · rw [if_pos h]; exact Ch.same hh
  · rw [if_neg h]
    split
    · rename_i lo hi
      by_cases hp : lo * hi ≤ 0
      · rw [if_pos hp]; exact Ch.same hh
      · rw [if_neg hp]
        dsimp only
        rw [putValue_setStatus]
        obtain ⟨s', e1, hm⟩ := setStatus_moved (hs.note i) (i := i) (st := .stepping)
          (hd := { hd with
            stype := .log, slo := lo, shi := hi, steps := n, fac := c.root (hi / lo) n, stepNum := 0,
            value := some lo }) (status_eq_of_h hh).symm rfl (by decide)
        rw [e1]
        have hab := stepEnds_admits (by simpa using h)
        exact ⟨_, by simpa [Handler.rst] using hm.self, .single (.log i lo hi n hd hu hab.1 hab.2 (not_le.mp hp))⟩
    · exact Ch.same hh

/-- All parameters' handlers follow paths. -/
def HPaths (c : Cfg K) (op : Op K) (s s' : Inf K) : Prop := ∀ i, HPath c op s s' i

theorem HPaths.step {c : Cfg K} {op : Op K} {s s' s'' : Inf K} (h : HPaths c op s s') {i : ℕ} {hd : Handler K}
    (hh : s'.h i = some hd) (hg : Good s' i s'') (hc : Ch c op hd i s'') : HPaths c op s s'' := by
  intro j
  by_cases hj : j = i
  · subst hj
    refine (h j).trans_chain (fun x hx => ?_) (fun hn => by rw [hn] at hh; simp at hh)
    rw [hh] at hx; injection hx with hx; subst hx
    exact hc
  · exact (h j).trans_chain (chain_frame (c := c) (op := op) (hg.2 j hj)).1
      (chain_frame (c := c) (op := op) (hg.2 j hj)).2

theorem HPaths.frames {c : Cfg K} {op : Op K} {s s' s'' : Inf K} (h : HPaths c op s s')
    (hf : ∀ j, Frame s' j s'') : HPaths c op s s'' := fun j =>
  (h j).trans_chain (chain_frame (c := c) (op := op) (hf j)).1 (chain_frame (c := c) (op := op) (hf j)).2

theorem access_paths (c : Cfg K) (op : Op K) {s : Inf K} (hs : Inv s) (i : ℕ) : HPaths c op s (s.access c i).1 := by
  rcases access_cases c hs i with ⟨_, e⟩ | ⟨_, hn, s', e, hm⟩
  · rw [e]; exact fun j => HPath.refl c op s j
  · rw [e]
    intro j
    by_cases hj : j = i
    · subst hj
      exact Or.inr ⟨Handler.fresh c j, Handler.fresh c j, by simpa [Handler.fresh] using hm.self, .refl, Or.inr (Or.inr ⟨hn, rfl⟩)⟩
    · refine HPath.of_eq ?_
      show s'.h j = _
      rw [hm.other j hj]; simp

/-- Access paths composed after other paths that keep each parameter's valuelessness as it was. -/
theorem HPaths.access {c : Cfg K} {op : Op K} {s s' : Inf K} (hs' : Inv s') (h : HPaths c op s s') (i : ℕ)
    (hval : (s'.h i).bind (·.value) = none → (s.h i).bind (·.value) = none) :
    HPaths c op s (s'.access c i).1 := by
  rcases access_cases c hs' i with ⟨_, e⟩ | ⟨_, hn, s'', e, hm⟩
  · rw [e]; exact h
  · rw [e]
    intro j
    by_cases hj : j = i
    · subst hj
      exact Or.inr ⟨Handler.fresh c j, Handler.fresh c j, by simpa [Handler.fresh] using hm.self, .refl,
        Or.inr (Or.inr ⟨hval hn, rfl⟩)⟩
    · have : s''.h j = s'.h j := by rw [hm.other j hj]; simp
      exact (h j).trans_chain (fun hd hh => ⟨hd, this.trans hh, .refl⟩) (fun hh => this.trans hh)

theorem onHandler_paths (c : Cfg K) (op : Op K) {s0 s : Inf K} (hs : Inv s) (h : HPaths c op s0 s) (i : ℕ)
    (hval : (s.h i).bind (·.value) = none → (s0.h i).bind (·.value) = none)
    {f : Inf K → Handler K → Res (Inf K)}
    (hg : ∀ s hd, Inv s → s.h i = some hd → hd.value.isSome → Good s i (f s hd).1)
    (hf : ∀ s hd, Inv s → s.h i = some hd → hd.status ≠ .undef → Ch c op hd i (f s hd).1) :
    HPaths c op s0 (s.onHandler c i f).1 := by
  have h1 := access_good c hs i
  have hp := HPaths.access hs h i hval
  obtain ⟨h2, hd, v, h3, h4, hu, _⟩ := access_ok c hs i
  unfold Inf.onHandler
  have : s.access c i = ok (s.access c i).1 := Prod.ext rfl h2
  rw [this]
  simp only [ok, Res.andThen_ok, h3]
  exact hp.step h3 (hg _ _ h1.1 h3 (by simp [h4])) (hf _ _ h1.1 h3 hu)

/-- Elementary changes keep a value once there is one, and a defined status. -/
theorem HTrans.value {c : Cfg K} {op : Op K} {hd hd' : Handler K} (h : HTrans c op hd hd') (hv : hd.value.isSome) :
    hd'.value.isSome := by
  cases h <;> first | exact hv | rfl | (rw [withRange_value]; exact hv)

theorem HTrans.status {c : Cfg K} {op : Op K} {hd hd' : Handler K} (h : HTrans c op hd hd') (hv : hd.status ≠ .undef) :
    hd'.status ≠ .undef := by
  cases h <;> first | exact hv | (simp; done) | (rw [withRange_status]; exact hv)

theorem HChain.keeps {c : Cfg K} {op : Op K} {P : Handler K → Prop} (hP : ∀ hd hd', HTrans c op hd hd' → P hd → P hd')
    {hd hd' : Handler K} (h : HChain c op hd hd') (hp : P hd) : P hd' := by
  induction h with
  | refl => exact hp
  | tail _ h2 ih => exact hP _ _ h2 ih

theorem HPath.noValue {c : Cfg K} {op : Op K} {s s' : Inf K} {i : ℕ} (h : HPath c op s s' i) :
    (s'.h i).bind (·.value) = none → (s.h i).bind (·.value) = none := by
  rcases h with ⟨h1, h2⟩ | ⟨hd0, hd', h1, h2, h3⟩
  · intro _; rw [h1]; rfl
  · intro hn
    rw [h1] at hn
    rcases h3 with h3 | ⟨h3, _⟩ | ⟨h3, _⟩
    · rw [h3]
      by_contra hc
      have hv : hd0.value.isSome := by
        cases hv : hd0.value with
        | none => simp [hv] at hc
        | some _ => rfl
      have := HChain.keeps (P := fun hd => hd.value.isSome = true) (fun _ _ ht hp => ht.value hp) h2 hv
      simp only [Option.bind_some] at hn
      rw [hn] at this; simp at this
    · rw [h3]; rfl
    · exact h3

theorem andThen_paths {c : Cfg K} {op : Op K} {s : Inf K} {r : Res (Inf K)} {f : Inf K → Res (Inf K)}
    (h1 : Inv r.1 ∧ HPaths c op s r.1) (h2 : ∀ s', Inv s' → HPaths c op s s' → HPaths c op s (f s').1) :
    HPaths c op s (r.andThen f).1 := andThen_has (P := HPaths c op s) h1 h2

theorem nextLoop_paths (c : Cfg K) (op : Op K) (s0 : Inf K) (last : ℕ) (l : List ℕ) {s : Inf K}
    (hs : Inv s) (h : HPaths c op s0 s) : HPaths c op s0 (Inf.nextLoop last l s).1 := by
  induction l generalizing s with
  | nil => exact h
  | cons j l ih =>
    unfold Inf.nextLoop
    cases hd : s.info j with
    | none => exact h
    | some d =>
      dsimp only
      have hg : Good s j (s.stepDir j d).1 := by
        cases d
        · exact nextStepP_good hs j
        · exact prevStepP_good hs j
      have hinfo : (s.stepDir j d).1.info = s.info := by
        cases d
        · exact (nextStepP_lists s j).1
        · exact (prevStepP_lists s j).1
      have hh : HPaths c op s0 (s.stepDir j d).1 := by
        have hm := (hs.mem_stepping j).mp ((hs.info j).mp (by simp [hd]))
        obtain ⟨x, hx, _⟩ := h_of_status hm (by decide)
        cases d
        · exact h.step hx hg (nextStepP_ch c op hx)
        · exact h.step hx hg (prevStepP_ch c op hx)
      have hsd := hg.1
      clear hg
      generalize s.stepDir j d = r at hinfo hh hsd
      obtain ⟨s', _ | e⟩ := r
      · exact hh
      · cases e
        case paramRange =>
          dsimp only
          split_ifs
          · rw [resetSteps_eq hsd]
            exact hh.frames fun j => resetState_frame hsd j
          · have h2 : Inv { s' with info := Function.update s'.info j (some d.reverse) } :=
              hsd.setInfo _ (by dsimp only at hinfo; rw [hinfo, hd]; rfl)
            exact ih h2 hh
        all_goals exact hh

/-- `vary` as called by `set_params` on a varying parameter, whose range and delta it does not change. -/
theorem varyH_again_ch (c : Cfg K) (op : Op K) {s : Inf K} (hs : Inv s) {i : ℕ} {hd : Handler K} (hh : s.h i = some hd)
    (hst : hd.status = .varying) (v : K) : Ch c op hd i (s.varyH i hd (some v) none none).1 := by
  unfold Inf.varyH
  by_cases h : ((none : Option (K × K)).isNone && hd.bounds.isNone) = true
  · rw [if_pos h]; exact Ch.same hh
  · rw [if_neg h]
    have hst' := (status_eq_of_h hh).symm
    have hv := hs.val i hd hh (by rw [hst]; decide)
    simp only [Handler.withRange, Option.none_or]
    cases hdel : hd.delta with
    | none => exact ⟨hd, setH_self _ _ _, .refl⟩
    | some dd =>
      have e0 : ({ hd with delta := some dd } : Handler K) = hd := by rw [← hdel]
      have e1 : ({ hd with delta := some dd, status := .varying } : Handler K) = hd := by rw [← hdel, ← hst]
      dsimp only
      rw [e0, e1]
      obtain ⟨s', h1, hm⟩ := setStatus_moved hs (i := i) (hd := hd) (st := .varying) hst' hv (by decide)
      have h2 : s'.h i = some hd := by
        have := hm.self
        rw [if_neg (by decide)] at this
        rw [this, ← hst]
      simp only [h1, ok, Res.andThen_ok]
      exact setValueH_ch c op h2 v

theorem step_paths (c : Cfg K) {s : Inf K} (hs : Inv s) (op : Op K) : HPaths c op s (s.step c op).1 := by
  have h0 : ∀ op, HPaths c op s s := fun op j => HPath.refl c op s j
  have onH : ∀ {op : Op K} {i : ℕ} {f : Inf K → Handler K → Res (Inf K)},
      (∀ s hd, Inv s → s.h i = some hd → hd.value.isSome → Good s i (f s hd).1) →
      (∀ s hd, Inv s → s.h i = some hd → hd.status ≠ .undef → Ch c op hd i (f s hd).1) →
      HPaths c op s (s.onHandler c i f).1 := fun hg hf => onHandler_paths c _ hs (h0 _) _ (fun h => h) hg hf
  have setv : ∀ (op : Op K) (l : List (ℕ × K)) (s' : Inf K), Inv s' → HPaths c op s s' →
      HPaths c op s (Inf.setVaryingLoop l s').1 := by
    intro op l
    induction l with
    | nil => intro s' _ h; exact h
    | cons p l ih =>
      intro s' hs' h
      obtain ⟨i, v⟩ := p
      unfold Inf.setVaryingLoop
      cases hh : s'.h i with
      | none => exact h
      | some hd =>
        have hg := setValueH_good hs' v (status_eq_of_h hh).symm
        exact andThen_paths ⟨hg.1, h.step hh hg (setValueH_ch c op hh v)⟩ ih
  cases op with
  | get i => exact access_paths c _ hs i
  | assign i v =>
    show HPaths c (.assign i v) s (s.assign i v).1
    have hg := assign_good hs i v
    unfold Inf.assign at hg ⊢
    cases hh : s.h i with
    | some hd => rw [hh] at hg; exact (h0 _).step hh hg (fixH_ch c _ hs hh v)
    | none =>
      rw [hh] at hg
      have hu : s.status i = .undef := by simp [Inf.status, hh]
      have h1 := Good.install hs hu
      have h3 : (s.setH i ({} : Handler K)).h i = some {} := setH_self _ _ _
      have h2 : HPaths c (.assign i v) s (s.setH i ({} : Handler K)) := by
        intro j
        by_cases hj : j = i
        · subst hj; exact Or.inr ⟨{}, {}, h3, .refl, Or.inr (Or.inl ⟨hh, rfl⟩)⟩
        · exact HPath.of_eq (setH_ne _ _ hj)
      exact h2.step h3 (fixH_good h1.1 v (by simp [status_setH]) (by simp)) (fixH_ch c _ h1.1 h3 v)
  | fix i v =>
    exact onH (fun s hd hs hh hv => fixH_good hs v (status_eq_of_h hh).symm (hs.value_iff hh))
      fun s hd hs hh _ => fixH_ch c _ hs hh v
  | setValue i v =>
    exact onH (fun s hd hs hh hv => setValueH_good hs v (status_eq_of_h hh).symm)
      fun s hd hs hh _ => setValueH_ch c _ hh v
  | range i a b =>
    refine onH (fun s hd hs hh hv => ?_) fun s hd hs hh hu => ?_
    · have h1 : (hd.range a b).status = s.status i := (status_eq_of_h hh).symm
      exact Good.setH hs h1 (hs.value_iff (hd := hd) hh)
    · exact Ch.setH (.range i a b hd hu)
  | linstep i lo hi n =>
    exact onH (fun s hd hs hh hv => linstepH_good hs _ _ n (status_eq_of_h hh).symm (hs.value_iff hh))
      fun s hd hs hh hu => linstepH_ch c hs hh hu lo hi n
  | logstep i lo hi n =>
    exact onH (fun s hd hs hh hv => logstepH_good c hs lo hi n (status_eq_of_h hh).symm)
      fun s hd hs hh hu => logstepH_ch c hs hh hu lo hi n
  | nextStepP i =>
    exact onH (fun s hd hs hh hv => nextStepP_good hs i) fun s hd hs hh _ => nextStepP_ch c _ hh
  | prevStepP i =>
    exact onH (fun s hd hs hh hv => prevStepP_good hs i) fun s hd hs hh _ => prevStepP_ch c _ hh
  | firstStepP i =>
    exact onH (fun s hd hs hh hv => firstStep_good hs i) fun s hd hs hh _ => firstStep_ch c _ hh
  | lastStepP i =>
    exact onH (fun s hd hs hh hv => lastStep_good hs i) fun s hd hs hh _ => lastStep_ch c _ hh
  | vary i st d r =>
    exact onH (fun s hd hs hh hv => varyH_good hs st d r (status_eq_of_h hh).symm hv (hs.val' i hd hh hv))
      fun s hd hs hh hu => varyH_ch c hs hh hu st d r
  | unboundedSet i u =>
    exact onH (fun s hd hs hh hv => unboundedSetH_good c hs u (status_eq_of_h hh).symm)
      fun s hd hs hh _ => unboundedSetH_ch c _ hh u
  | nextStep =>
    show HPaths c .nextStep s s.nextStep.1
    unfold Inf.nextStep
    split
    · exact h0 _
    · exact nextLoop_paths c _ s _ _ hs (h0 _)
  | resetSteps =>
    show HPaths c .resetSteps s s.resetSteps.1
    rw [resetSteps_eq hs]
    exact (h0 _).frames fun j => resetState_frame hs j
  | setVarying vs =>
    show HPaths c _ s (s.setVarying vs).1
    unfold Inf.setVarying
    split_ifs
    · exact h0 _
    · exact setv _ _ s hs (h0 _)
  | scoreSet vs => exact setv _ _ s hs (h0 _)
  | scoreSetUnbounded vs =>
    have : ∀ (op : Op K) (l : List (ℕ × K)) (s' : Inf K), Inv s' → HPaths c op s s' →
        HPaths c op s (Inf.unboundedLoop c l s').1 := by
      intro op l
      induction l with
      | nil => intro s' _ h; exact h
      | cons p l ih =>
        intro s' hs' h
        obtain ⟨i, v⟩ := p
        unfold Inf.unboundedLoop
        cases hh : s'.h i with
        | none => exact h
        | some hd =>
          have hg := unboundedSetH_good c hs' v (status_eq_of_h hh).symm
          exact andThen_paths ⟨hg.1, h.step hh hg (unboundedSetH_ch c op hh v)⟩ ih
    exact this _ _ s hs (h0 _)
  | setParams pv =>
    have : ∀ (l : List ℕ) (s' : Inf K), Inv s' → HPaths c (.setParams pv) s s' →
        HPaths c (.setParams pv) s (Inf.setParamsLoop c pv l s').1 := by
      intro l
      induction l with
      | nil => intro s' _ h; exact h
      | cons j l ih =>
        intro s' hs' h
        refine andThen_paths ⟨(setParam1_good c pv hs' j).1, ?_⟩ ih
        unfold Inf.setParam1
        refine onHandler_paths c _ hs' h j (h j).noValue (fun s hd hs hh hv => ?_) (fun s hd hs hh hu => ?_)
        · have hst := (status_eq_of_h hh).symm
          have hu := hs.val' j hd hh hv
          split
          · split
            · exact Good.refl hs j
            · exact fixH_good hs _ hst (hs.value_iff hh)
          · split
            · exact Good.refl hs j
            · exact varyH_good hs _ _ _ hst hv hu
          · exact Good.refl hs j
        · split
          · split
            · exact Ch.same hh
            · exact fixH_ch c _ hs hh _
          · rename_i hst
            split
            · exact Ch.same hh
            · exact varyH_again_ch c _ hs hh hst _
          · exact Ch.same hh
    exact this _ s hs (h0 _)
  | getParams =>
    have : ∀ (l : List ℕ) (s' : Inf K), Inv s' → HPaths c .getParams s s' →
        HPaths c .getParams s (Inf.accessAll c l s').1 := by
      intro l
      induction l with
      | nil => intro s' _ h; exact h
      | cons j l ih =>
        intro s' hs' h
        exact andThen_paths ⟨(access_good c hs' j).1, HPaths.access hs' h j (h j).noValue⟩ ih
    exact this _ s hs (h0 _)

/-- A handler predicate kept by the elementary changes of an operation is kept by the operation. -/
theorem step_keeps (c : Cfg K) {s : Inf K} (hs : Inv s) (op : Op K) (P : Handler K → Prop)
    (hblank : P {}) (hfresh : ∀ i, P (Handler.fresh c i)) (hP : ∀ hd hd', HTrans c op hd hd' → P hd → P hd')
    (h : ∀ i hd, s.h i = some hd → P hd) : ∀ i hd, (s.step c op).1.h i = some hd → P hd := by
  intro i hd hh
  rcases step_paths c hs op i with ⟨_, h2⟩ | ⟨hd0, hd', h1, h2, h3⟩
  · rw [hh] at h2; simp at h2
  · rw [hh] at h1; injection h1 with h1; subst h1
    refine HChain.keeps hP h2 ?_
    rcases h3 with h3 | ⟨_, rfl⟩ | ⟨_, rfl⟩
    · exact h i _ h3
    · exact hblank
    · exact hfresh i

/-- The same over histories, the elementary changes of whose operations keep `P`. -/
theorem run_keeps (c : Cfg K) (P : Handler K → Prop)
    (hblank : P {}) (hfresh : ∀ i, P (Handler.fresh c i)) (ops : List (Op K))
    (hP : ∀ op ∈ ops, ∀ hd hd', HTrans c op hd hd' → P hd → P hd') :
    ∀ {s : Inf K}, Inv s → (∀ i hd, s.h i = some hd → P hd) → ∀ i hd, (s.run c ops).h i = some hd → P hd := by
  induction ops with
  | nil => intro s _ h; exact h
  | cons op ops ih =>
    intro s hs h
    exact ih (fun o ho => hP o (by simp [ho])) (step_good c hs op).1
      (step_keeps c hs op P hblank hfresh (hP op (by simp)) h)

end Verif.Pie
