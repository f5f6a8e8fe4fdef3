import Verif.Pie.Spec
import Mathlib.Tactic.Linarith

/-!
# PIE parameters: helper lemmas (invariant preservation)
-/

set_option linter.unusedSectionVars false
set_option linter.unusedSimpArgs false

namespace Verif.Pie
variable {K : Type} [Field K] [LinearOrder K]

/-- The effect of `first_step` on a handler. -/
def Handler.rst (hd : Handler K) : Handler K := { hd with stepNum := 0, value := some hd.slo }

@[simp] theorem Handler.rst_rst (hd : Handler K) : hd.rst.rst = hd.rst := rfl
@[simp] theorem Handler.rst_status (hd : Handler K) : hd.rst.status = hd.status := rfl

@[simp] theorem setH_self (s : Inf K) (i hd) : (s.setH i hd).h i = some hd := by simp [Inf.setH]
theorem setH_ne (s : Inf K) {i j} (hd) (h : j ≠ i) : (s.setH i hd).h j = s.h j := by simp [Inf.setH, h]
@[simp] theorem setH_fixed (s : Inf K) (i hd) : (s.setH i hd).fixed = s.fixed := rfl
@[simp] theorem setH_varying (s : Inf K) (i hd) : (s.setH i hd).varying = s.varying := rfl
@[simp] theorem setH_stepping (s : Inf K) (i hd) : (s.setH i hd).stepping = s.stepping := rfl
@[simp] theorem setH_info (s : Inf K) (i hd) : (s.setH i hd).info = s.info := rfl
@[simp] theorem setH_changes (s : Inf K) (i hd) : (s.setH i hd).changes = s.changes := rfl
theorem setH_apply (s : Inf K) (i hd j) : (s.setH i hd).h j = if j = i then some hd else s.h j := by
  simp [Inf.setH, Function.update_apply]
theorem putValue_apply (s : Inf K) (i hd v j) :
    (s.putValue i hd v).h j = if j = i then some { hd with value := some v } else s.h j := by
  simp [Inf.putValue, setH_apply]
@[simp] theorem putValue_self (s : Inf K) (i hd v) :
    (s.putValue i hd v).h i = some { hd with value := some v } := by simp [putValue_apply]
theorem putValue_ne (s : Inf K) {i j} (hd v) (h : j ≠ i) : (s.putValue i hd v).h j = s.h j := by
  simp [putValue_apply, h]
@[simp] theorem putValue_fixed (s : Inf K) (i hd v) : (s.putValue i hd v).fixed = s.fixed := rfl
@[simp] theorem putValue_varying (s : Inf K) (i hd v) : (s.putValue i hd v).varying = s.varying := rfl
@[simp] theorem putValue_stepping (s : Inf K) (i hd v) : (s.putValue i hd v).stepping = s.stepping := rfl
@[simp] theorem putValue_info (s : Inf K) (i hd v) : (s.putValue i hd v).info = s.info := rfl
@[simp] theorem putValue_changes (s : Inf K) (i hd v) : (s.putValue i hd v).changes = i :: s.changes := rfl

theorem setH_setH (s : Inf K) (i a b) : (s.setH i a).setH i b = s.setH i b := by
  simp [Inf.setH]

/-- The state after resetting the parameters in `l`. -/
def resetState (l : List ℕ) (s : Inf K) : Inf K :=
  { s with
    h := fun j => if j ∈ l then (s.h j).map Handler.rst else s.h j
    info := fun j => if j ∈ l then some .next else s.info j
    changes := l.reverse ++ s.changes }

theorem status_eq_of_h {s : Inf K} {i hd} (h : s.h i = some hd) : s.status i = hd.status := by
  simp [Inf.status, h]

theorem h_of_status {s : Inf K} {i st} (h : s.status i = st) (hst : st ≠ .undef) :
    ∃ hd, s.h i = some hd ∧ hd.status = st := by
  unfold Inf.status at h
  cases hh : s.h i with
  | none => rw [hh] at h; exact absurd h.symm hst
  | some hd => rw [hh] at h; exact ⟨hd, rfl, h⟩

theorem resetLoop_eq (l : List ℕ) (s : Inf K) (hl : ∀ j ∈ l, s.status j = .stepping) :
    Inf.resetLoop l s = ok (resetState l s) := by
  induction l generalizing s with
  | nil => simp [Inf.resetLoop, resetState]
  | cons i l ih =>
    obtain ⟨hd, hh, hst⟩ := h_of_status (hl i (by simp)) (by decide)
    have h1 : s.firstStep i = ok (s.putValue i { hd with stepNum := 0 } hd.slo) := by
      simp [Inf.firstStep, hh, hst]
    rw [Inf.resetLoop, h1]
    simp only [ok, Res.andThen_ok]
    rw [ih]
    · simp only [ok, resetState, Prod.mk.injEq, and_true]
      congr 1
      · funext j
        simp only [putValue_apply, List.mem_cons]
        by_cases hj : j = i
        · subst hj; simp [hh, Handler.rst]
        · simp [hj]
      · funext j
        simp only [putValue_info, List.mem_cons, Function.update_apply]
        by_cases hj : j = i <;> simp [hj]
      · simp
    · intro j hj
      have := hl j (by simp [hj])
      simp only [Inf.status, putValue_apply]
      by_cases hji : j = i
      · simp [hji, hst]
      · simpa [hji, Inf.status] using this

/-- The bookkeeping invariant of an inference. -/
structure Inv (s : Inf K) : Prop where
  fixed_nd : s.fixed.Nodup
  varying_nd : s.varying.Nodup
  stepping_nd : s.stepping.Nodup
  mem_fixed : ∀ i, i ∈ s.fixed ↔ s.status i = .fixed
  mem_varying : ∀ i, i ∈ s.varying ↔ s.status i = .varying
  mem_stepping : ∀ i, i ∈ s.stepping ↔ s.status i = .stepping
  info : ∀ i, (s.info i).isSome ↔ i ∈ s.stepping
  val : ∀ i hd, s.h i = some hd → hd.status ≠ .undef → hd.value.isSome
  val' : ∀ i hd, s.h i = some hd → hd.value.isSome → hd.status ≠ .undef

theorem Inv.init : Inv (Inf.init : Inf K) := by
  constructor <;> simp [Inf.init, Inf.status]

/-- How a status list changes when a parameter goes from `old` to `new`. -/
def updList (l : List ℕ) (i : ℕ) (k old new : Status) : List ℕ :=
  if old = new then l
  else (if old = k then l.erase i else l) ++ (if new = k then [i] else [])

theorem onStatusChange_eq (s : Inf K) (i : ℕ) (old new : Status) (hnew : new ≠ .undef)
    (hf : old = .fixed → i ∈ s.fixed) (hv : old = .varying → i ∈ s.varying)
    (hs : old = .stepping → i ∈ s.stepping) (hi : old = .stepping → (s.info i).isSome)
    (hnd : s.stepping.Nodup)
    (hst : ∀ j ∈ s.stepping, j ≠ i → s.status j = .stepping) (hst' : new = .stepping → s.status i = .stepping) :
    s.onStatusChange i old new = ok
      { (if old = .stepping ∨ new = .stepping then
            resetState (updList s.stepping i .stepping old new) s else s) with
        fixed := updList s.fixed i .fixed old new
        varying := updList s.varying i .varying old new
        stepping := updList s.stepping i .stepping old new
        info := if old = .stepping ∨ new = .stepping then
            fun j => if j ∈ updList s.stepping i .stepping old new then some .next
              else if j = i then none else s.info j
          else s.info } := by
  by_cases hon : old = new
  · subst hon
    by_cases h2 : old = .stepping
    · subst h2
      have : ∀ j ∈ s.stepping, ({ s with info := Function.update s.info i (some .next) } : Inf K).status j = .stepping := by
        intro j hj
        by_cases hji : j = i
        · subst hji; exact hst' rfl
        · exact hst j hj hji
      simp only [Inf.onStatusChange, if_true, Inf.resetSteps, updList]
      rw [resetLoop_eq _ _ this]
      simp only [resetState, ok, or_true, if_true]
      congr 2
      funext j
      by_cases hj : j ∈ s.stepping
      · simp [hj]
      · have hji : j ≠ i := fun e => hj (e ▸ hs rfl)
        simp [hj, hji]
    · simp [Inf.onStatusChange, updList, h2]
  · have enter : ∀ t : Inf K, t.stepping = s.stepping → t.h = s.h → t.info = s.info → t.changes = s.changes →
        (∀ j ∈ s.stepping, s.status j = .stepping) → s.status i = .stepping → 
        t.enterStepping i = ok { resetState (s.stepping ++ [i]) s with
          fixed := t.fixed, varying := t.varying, stepping := s.stepping ++ [i] } := by
      intro t ht1 ht2 ht3 ht4 h1 h2
      have hh : ∀ j ∈ s.stepping ++ [i], s.status j = .stepping := by
        intro j hj
        simp only [List.mem_append, List.mem_singleton] at hj
        rcases hj with hj | rfl
        · exact h1 j hj
        · exact h2
      unfold Inf.enterStepping Inf.resetSteps
      rw [resetLoop_eq]
      · simp only [resetState, ht1, ht2, ht3, ht4, ok]
        congr 2
        funext j
        by_cases hj : j ∈ s.stepping ++ [i]
        · simp only [hj, if_true]
        · have : j ≠ i := by rintro rfl; simp at hj
          simp only [hj, if_false, Function.update_of_ne this]
      · intro j hj
        have := hh j (by simpa [ht1] using hj)
        simpa [Inf.status, ht2] using this
    have hall : new = .stepping → ∀ j ∈ s.stepping, s.status j = .stepping := by
      intro e j hj
      by_cases hji : j = i
      · subst hji; exact hst' e
      · exact hst j hj hji
    have infoEq : (fun j => if j ∈ s.stepping ++ [i] then some Dir.next else s.info j) =
        (fun j => if j ∈ s.stepping ++ [i] then some Dir.next else if j = i then none else s.info j) := by
      funext j
      by_cases hj : j ∈ s.stepping ++ [i]
      · simp only [hj, if_true]
      · have : j ≠ i := by rintro rfl; simp at hj
        simp only [hj, if_false, this]
    cases old with
    | undef =>
      cases new with
      | undef => exact absurd rfl hon
      | fixed => simp [Inf.onStatusChange, updList]
      | varying => simp [Inf.onStatusChange, updList]
      | stepping =>
        simp only [Inf.onStatusChange, hon, if_false]
        rw [enter s rfl rfl rfl rfl (hall rfl) (hst' rfl)]
        simp [resetState, updList]
        simpa using infoEq
    | fixed =>
      have hm := hf rfl
      cases new with
      | undef => exact absurd rfl hnew
      | fixed => exact absurd rfl hon
      | varying => simp [Inf.onStatusChange, updList, pyRemove, hm]
      | stepping =>
        simp only [Inf.onStatusChange, hon, if_false, pyRemove, hm, if_true]
        rw [enter { s with fixed := s.fixed.erase i } rfl rfl rfl rfl (hall rfl) (hst' rfl)]
        simp [resetState, updList]
        simpa using infoEq
    | varying =>
      have hm := hv rfl
      cases new with
      | undef => exact absurd rfl hnew
      | varying => exact absurd rfl hon
      | fixed => simp [Inf.onStatusChange, updList, pyRemove, hm]
      | stepping =>
        simp only [Inf.onStatusChange, hon, if_false, pyRemove, hm, if_true]
        rw [enter { s with varying := s.varying.erase i } rfl rfl rfl rfl (hall rfl) (hst' rfl)]
        simp [resetState, updList]
        simpa using infoEq
    | stepping =>
      have hm := hs rfl
      have hii := hi rfl
      have hne : i ∉ s.stepping.erase i := fun h => (List.Nodup.not_mem_erase hnd) h
      have hr : ∀ j ∈ s.stepping.erase i, s.status j = .stepping := by
        intro j hj
        have hji : j ≠ i := fun e => hne (e ▸ hj)
        exact hst j (List.mem_of_mem_erase hj) hji
      have hr2 : Inf.resetSteps { s with stepping := s.stepping.erase i } =
          ok { resetState (s.stepping.erase i) s with stepping := s.stepping.erase i } := by
        unfold Inf.resetSteps
        rw [resetLoop_eq]
        · simp [resetState]
        · intro j hj; exact hr j hj
      obtain ⟨d, hd⟩ := Option.isSome_iff_exists.mp hii
      have hinfo : Function.update (fun j => if j ∈ s.stepping.erase i then some Dir.next else s.info j) i none =
          (fun j => if j ∈ s.stepping.erase i then some Dir.next else if j = i then none else s.info j) := by
        funext j
        by_cases hji : j = i
        · subst hji; simp [hne]
        · simp [hji]
      cases new with
      | undef => exact absurd rfl hnew
      | stepping => exact absurd rfl hon
      | fixed =>
        simp only [Inf.onStatusChange, hon, if_false, pyRemove, hm, if_true, hr2, ok, Res.andThen_ok, resetState, hne, hd]
        simp [updList, hinfo]
      | varying =>
        simp only [Inf.onStatusChange, hon, if_false, pyRemove, hm, if_true, hr2, ok, Res.andThen_ok, resetState, hne, hd]
        simp [updList, hinfo]

theorem mem_updList {l : List ℕ} {i j : ℕ} {k old new : Status} (hnd : l.Nodup)
    (hl : i ∈ l ↔ old = k) :
    j ∈ updList l i k old new ↔ if j = i then new = k else j ∈ l := by
  unfold updList
  by_cases hon : old = new
  · rw [if_pos hon]
    subst hon
    by_cases hji : j = i
    · subst hji; simp [hl]
    · simp [hji]
  · rw [if_neg hon]
    by_cases hji : j = i
    · subst hji
      rw [if_pos rfl]
      by_cases ho : old = k
      · have hn : new ≠ k := fun h => hon (ho.trans h.symm)
        rw [if_pos ho, if_neg hn]
        simpa [hn] using List.Nodup.not_mem_erase hnd
      · have : j ∉ l := fun h => ho (hl.mp h)
        by_cases hn : new = k <;> simp [ho, hn, this]
    · rw [if_neg hji]
      by_cases ho : old = k
      · have hn : new ≠ k := fun h => hon (ho.trans h.symm)
        rw [if_pos ho, if_neg hn]
        simp [List.mem_erase_of_ne hji]
      · by_cases hn : new = k <;> simp [ho, hn, hji]

theorem nodup_updList {l : List ℕ} {i : ℕ} {k old new : Status} (hnd : l.Nodup)
    (hl : i ∈ l ↔ old = k) : (updList l i k old new).Nodup := by
  unfold updList
  by_cases hon : old = new
  · rw [if_pos hon]; exact hnd
  · rw [if_neg hon]
    by_cases ho : old = k
    · have hn : new ≠ k := fun h => hon (ho.trans h.symm)
      rw [if_pos ho, if_neg hn]
      simpa using hnd.erase i
    · have : i ∉ l := fun h => ho (hl.mp h)
      by_cases hn : new = k
      · rw [if_neg ho, if_pos hn, List.nodup_append]
        refine ⟨hnd, by simp, ?_⟩
        intro a ha b hb
        simp only [List.mem_singleton] at hb
        subst hb
        rintro rfl
        exact this ha
      · rw [if_neg ho, if_neg hn]; simpa using hnd

/-- What `_set_status` does, when the bookkeeping invariant held before the call: it raises nothing, keeps the
invariant, and its effect on handlers, lists and directions is as listed. -/
theorem setStatus_spec {s : Inf K} (hs : Inv s) {i : ℕ} {hd : Handler K} {st : Status}
    (hst : hd.status = s.status i) (hv : hd.value.isSome) (hne : st ≠ .undef) :
    (s.setStatus i hd st).2 = none ∧ Inv (s.setStatus i hd st).1 ∧
    (s.setStatus i hd st).1.h i =
      some (if st = .stepping then { hd with status := st }.rst else { hd with status := st }) ∧
    (∀ j, j ≠ i → (s.setStatus i hd st).1.h j =
      if (hd.status = .stepping ∨ st = .stepping) ∧ s.status j = .stepping
      then (s.h j).map Handler.rst else s.h j) ∧
    (s.setStatus i hd st).1.fixed = updList s.fixed i .fixed hd.status st ∧
    (s.setStatus i hd st).1.varying = updList s.varying i .varying hd.status st ∧
    (s.setStatus i hd st).1.stepping = updList s.stepping i .stepping hd.status st ∧
    (∀ j, (s.setStatus i hd st).1.info j =
      if hd.status = .stepping ∨ st = .stepping then
        if j ∈ updList s.stepping i .stepping hd.status st then some .next else none
      else s.info j) ∧
    (s.setStatus i hd st).1.changes =
      (if hd.status = .stepping ∨ st = .stepping then
        (updList s.stepping i .stepping hd.status st).reverse else []) ++ s.changes := by
  set s1 := s.setH i { hd with status := st } with hs1
  have hF : i ∈ s.fixed ↔ hd.status = .fixed := by rw [hst]; exact hs.mem_fixed i
  have hV : i ∈ s.varying ↔ hd.status = .varying := by rw [hst]; exact hs.mem_varying i
  have hS : i ∈ s.stepping ↔ hd.status = .stepping := by rw [hst]; exact hs.mem_stepping i
  have hs1j : ∀ j, s1.status j = if j = i then st else s.status j := by
    intro j
    by_cases hji : j = i
    · subst hji; simp [hs1, Inf.status]
    · simp [hs1, Inf.status, setH_apply, hji]
  have key := onStatusChange_eq s1 i hd.status st hne
    (fun h => hF.mpr h) (fun h => hV.mpr h) (fun h => hS.mpr h)
    (fun h => (hs.info i).mpr (hS.mpr h)) hs.stepping_nd
    (fun j hj hji => by rw [hs1j, if_neg hji]; exact (hs.mem_stepping j).mp hj)
    (fun h => by rw [hs1j, if_pos rfl, h])
  have hmS : ∀ j, j ∈ updList s.stepping i .stepping hd.status st ↔ if j = i then st = .stepping else j ∈ s.stepping :=
    fun j => mem_updList hs.stepping_nd hS
  have hmF : ∀ j, j ∈ updList s.fixed i .fixed hd.status st ↔ if j = i then st = .fixed else j ∈ s.fixed :=
    fun j => mem_updList hs.fixed_nd hF
  have hmV : ∀ j, j ∈ updList s.varying i .varying hd.status st ↔ if j = i then st = .varying else j ∈ s.varying :=
    fun j => mem_updList hs.varying_nd hV
  have hset : s.setStatus i hd st = s1.onStatusChange i hd.status st := rfl
  rw [hset, key]
  have hself : (if hd.status = .stepping ∨ st = .stepping then
            resetState (updList s1.stepping i .stepping hd.status st) s1 else s1).h i =
      some (if st = .stepping then { hd with status := st }.rst else { hd with status := st }) := by
    by_cases hc : st = .stepping
    · have : i ∈ updList s1.stepping i .stepping hd.status st := (hmS i).mpr (by simp [hc])
      simp only [hc, or_true, if_true, resetState] at this ⊢
      rw [if_pos this]
      simp [hs1, hc]
    · have : i ∉ updList s1.stepping i .stepping hd.status st := fun h => hc (by simpa using (hmS i).mp h)
      by_cases h2 : hd.status = .stepping
      · simp only [h2, true_or, if_true, resetState] at this ⊢
        rw [if_neg this]; simp [hs1, hc]
      · simp [h2, hc, hs1]
  have hother : ∀ j, j ≠ i → (if hd.status = .stepping ∨ st = .stepping then
            resetState (updList s1.stepping i .stepping hd.status st) s1 else s1).h j =
      if (hd.status = .stepping ∨ st = .stepping) ∧ s.status j = .stepping
      then (s.h j).map Handler.rst else s.h j := by
    intro j hji
    have hsj : s1.h j = s.h j := setH_ne _ _ hji
    by_cases hc : hd.status = .stepping ∨ st = .stepping
    · have : j ∈ updList s1.stepping i .stepping hd.status st ↔ s.status j = .stepping := by
        rw [← hs.mem_stepping j]
        have := hmS j
        rw [if_neg hji] at this
        exact this
      rw [if_pos hc]
      simp only [resetState, this, hsj, hc, true_and]
    · rw [if_neg hc, hsj, if_neg (fun h => hc h.1)]
  have hinfo : ∀ j, (if hd.status = .stepping ∨ st = .stepping then
            fun j => if j ∈ updList s1.stepping i .stepping hd.status st then some Dir.next
              else if j = i then none else s1.info j
          else s1.info) j =
      if hd.status = .stepping ∨ st = .stepping then
        if j ∈ updList s.stepping i .stepping hd.status st then some .next else none
      else s.info j := by
    intro j
    by_cases hc : hd.status = .stepping ∨ st = .stepping
    · simp only [hc, if_true]
      have hst1 : s1.stepping = s.stepping := rfl
      rw [hst1]
      by_cases hj : j ∈ updList s.stepping i .stepping hd.status st
      · simp [hj]
      · by_cases hji : j = i
        · simp [hj, hji]
        · have h1 : j ∉ s.stepping := by
            have := hmS j
            rw [if_neg hji] at this
            exact fun h => hj (this.mpr h)
          have h2 : s.info j = none := by
            have := (hs.info j).not.mpr h1
            simpa using this
          simp [hj, hji, hs1, h2]
    · simp [hc, hs1]
  refine ⟨rfl, ?_, hself, hother, rfl, rfl, rfl, hinfo, ?_⟩
  case refine_2 =>
    by_cases hc : hd.status = .stepping ∨ st = .stepping <;> simp [hc, resetState, hs1]
  simp only [ok]
  have hstat : ∀ j, Inf.status ({ (if hd.status = .stepping ∨ st = .stepping then
            resetState (updList s1.stepping i .stepping hd.status st) s1 else s1) with
        fixed := updList s1.fixed i .fixed hd.status st
        varying := updList s1.varying i .varying hd.status st
        stepping := updList s1.stepping i .stepping hd.status st
        info := if hd.status = .stepping ∨ st = .stepping then
            fun j => if j ∈ updList s1.stepping i .stepping hd.status st then some .next
              else if j = i then none else s1.info j
          else s1.info } : Inf K) j = if j = i then st else s.status j := by
    intro j
    by_cases hji : j = i
    · subst hji
      rw [if_pos rfl]
      unfold Inf.status
      simp only [hself]
      by_cases hc : st = .stepping <;> simp [hc]
    · rw [if_neg hji]
      unfold Inf.status
      simp only [hother j hji]
      by_cases hc : (hd.status = .stepping ∨ st = .stepping) ∧ s.status j = .stepping
      · simp only [hc, and_self, if_true]
        cases s.h j <;> simp
      · simp only [hc, if_false]
  constructor
  · exact nodup_updList hs.fixed_nd hF
  · exact nodup_updList hs.varying_nd hV
  · exact nodup_updList hs.stepping_nd hS
  · intro j
    rw [hstat]
    refine (hmF j).trans ?_
    by_cases hji : j = i
    · simp [hji]
    · simpa [hji] using hs.mem_fixed j
  · intro j
    rw [hstat]
    refine (hmV j).trans ?_
    by_cases hji : j = i
    · simp [hji]
    · simpa [hji] using hs.mem_varying j
  · intro j
    rw [hstat]
    refine (hmS j).trans ?_
    by_cases hji : j = i
    · simp [hji]
    · simpa [hji] using hs.mem_stepping j
  · intro j
    refine (Iff.of_eq (congrArg (fun o : Option Dir => o.isSome = true) (hinfo j))).trans ?_
    show _ ↔ j ∈ updList s.stepping i .stepping hd.status st
    by_cases hc : hd.status = .stepping ∨ st = .stepping
    · by_cases hj : j ∈ updList s.stepping i .stepping hd.status st <;> simp [hc, hj]
    · simp only [hc, if_false]
      rw [hs.info j, hmS j]
      by_cases hji : j = i
      · subst hji
        rw [hS]; simp only [if_true]
        tauto
      · simp [hji]
  · intro j hd' hj hu
    by_cases hji : j = i
    · subst hji
      have hj' : some (if st = .stepping then { hd with status := st }.rst else { hd with status := st }) = some hd' := by
        rw [← hself]; exact hj
      injection hj' with hj'
      subst hj'
      by_cases hc : st = .stepping
      · simp [hc, Handler.rst]
      · simpa [hc] using hv
    · have hj' := (hother j hji).symm.trans hj
      by_cases hc : (hd.status = .stepping ∨ st = .stepping) ∧ s.status j = .stepping
      · rw [if_pos hc] at hj'
        cases hh : s.h j with
        | none => rw [hh] at hj'; simp at hj'
        | some x =>
          rw [hh] at hj'
          simp only [Option.map_some, Option.some.injEq] at hj'
          subst hj'; simp [Handler.rst]
      · rw [if_neg hc] at hj'
        exact hs.val j hd' hj' hu
  · intro j hd' hj hu
    by_cases hji : j = i
    · subst hji
      have hj' : some (if st = .stepping then { hd with status := st }.rst else { hd with status := st }) = some hd' := by
        rw [← hself]; exact hj
      injection hj' with hj'
      subst hj'
      by_cases hc : st = .stepping
      · simp [hc, Handler.rst]
      · simpa [hc] using hne
    · have hj' := (hother j hji).symm.trans hj
      by_cases hc : (hd.status = .stepping ∨ st = .stepping) ∧ s.status j = .stepping
      · rw [if_pos hc] at hj'
        cases hh : s.h j with
        | none => rw [hh] at hj'; simp at hj'
        | some x =>
          rw [hh] at hj'
          simp only [Option.map_some, Option.some.injEq] at hj'
          subst hj'
          have := status_eq_of_h hh
          rw [hc.2] at this
          simp [← this]
      · rw [if_neg hc] at hj'
        exact hs.val' j hd' hj' hu

end Verif.Pie
