import Verif.Pie.ListenStep
import Verif.Pie.ListenProps
import Mathlib.Data.List.Perm.Basic

/-!
# C110 for parameters that step

What a listener is told is what the inference is told, each as often, but not in the same order.
-/

set_option linter.unusedSectionVars false

namespace Verif.Pie.Listen

variable {K : Type}

/-- States that occur. -/
def SReach (s : SS K) : Prop := ∃ ops, s = SS.run {} ops

/-- Listeners are listed once, and the owner is first. -/
def SGood (s : SS K) : Prop := ∀ i hd, s.h i = some hd → hd.listeners.Nodup ∧ ∃ q, hd.listeners = .owner :: q

/-- Nobody stops listening, and what is added to the log tells every listener of a parameter the same of it as the owner, up to order. -/
def SSame (s s' : SS K) : Prop :=
  ∃ new, s'.log = s.log ++ new ∧ ∀ i hd, s.h i = some hd → ∃ hd', s'.h i = some hd' ∧ hd.listeners ⊆ hd'.listeners ∧
    ∀ l ∈ hd.listeners, (heard new l i).Perm (heard new .owner i)

theorem SSame.refl (s : SS K) : SSame s s := ⟨[], by simp, fun _ hd h => ⟨hd, h, fun _ h => h, fun _ _ => List.Perm.refl _⟩⟩

theorem SSame.trans {s t u : SS K} (h1 : SSame s t) (h2 : SSame t u) : SSame s u := by
  obtain ⟨n1, e1, f1⟩ := h1
  obtain ⟨n2, e2, f2⟩ := h2
  refine ⟨n1 ++ n2, by rw [e2, e1, List.append_assoc], fun i hd h => ?_⟩
  obtain ⟨hd', h', s', p'⟩ := f1 i hd h
  obtain ⟨hd'', h'', s'', p''⟩ := f2 i hd' h'
  refine ⟨hd'', h'', fun l hl => s'' (s' hl), fun l hl => ?_⟩
  rw [heard_append, heard_append]
  exact (p' l hl).append (p'' l (s' hl))

/-- All listeners of a parameter are told of one event. -/
theorem told_perm {ls : List L} (hn : ls.Nodup) (e : Ev) {l : L} (hl : l ∈ ls) (ho : L.owner ∈ ls) (i : ℕ) :
    heard (ls.map fun x => (x, e)) l i = heard (ls.map fun x => (x, e)) .owner i := by
  rw [heard_told ls hn e l hl, heard_told ls hn e .owner ho]

theorem heard_not (ls : List L) (e : Ev) (l : L) (i : ℕ) (h : e.about ≠ i) : heard (ls.map fun x => (x, e)) l i = [] := by
  simp only [heard, List.map_eq_nil_iff, List.filter_eq_nil_iff, List.mem_map]
  rintro _ ⟨x, -, rfl⟩ hp
  simp only [decide_eq_true_eq] at hp
  exact h hp.2

theorem put_good {s : SS K} (hs : SGood s) (i : ℕ) (hd : SH K) (h : hd.listeners.Nodup ∧ ∃ q, hd.listeners = .owner :: q) (v : Option K) : SGood (s.putValue i hd v) := by
  intro j hd' h'
  by_cases hj : j = i
  · subst hj
    simp [SS.putValue, SS.setH] at h'
    subst h'
    exact h
  · simp [SS.putValue, SS.setH, Function.update_of_ne hj] at h'
    exact hs j hd' h'

theorem put_same {s : SS K} (i : ℕ) (hd hd0 : SH K) (h : s.h i = some hd0) (hl : hd.listeners = hd0.listeners) (hg : hd.listeners.Nodup ∧ ∃ q, hd.listeners = .owner :: q) (v : Option K) :
    SSame s (s.putValue i hd v) := by
  refine ⟨hd.listeners.map fun l => (l, .value i), rfl, fun j hd' h' => ?_⟩
  by_cases hj : j = i
  · subst hj
    rw [h] at h'
    injection h' with h'
    subst h'
    refine ⟨{ hd with value := v }, by simp [SS.putValue, SS.setH], by rw [← hl]; exact fun _ h => h, fun l hm => ?_⟩
    rw [told_perm hg.1 _ (hl ▸ hm) (by obtain ⟨q, e⟩ := hg.2; rw [e]; simp)]
  · refine ⟨hd', by simp [SS.putValue, SS.setH, Function.update_of_ne hj, h'], fun _ h => h, fun l _ => ?_⟩
    rw [heard_not _ _ _ _ (show (Ev.value i).about ≠ j from fun e => hj e.symm), heard_not _ _ _ _ (show (Ev.value i).about ≠ j from fun e => hj e.symm)]

/-- Resetting keeps the listeners exactly. -/
theorem reset_facts (js : List ℕ) : ∀ s : SS K, SGood s → SGood (s.resetSteps js) ∧ SSame s (s.resetSteps js) ∧ (s.resetSteps js).stepping = s.stepping ∧
    ∀ i, ((s.resetSteps js).h i).map (·.listeners) = (s.h i).map (·.listeners) := by
  induction js with
  | nil => exact fun s hs => ⟨hs, SSame.refl s, rfl, fun _ => rfl⟩
  | cons j js ih =>
    intro s hs
    unfold SS.resetSteps
    rcases h : s.h j with _ | hd
    · exact ih s hs
    · obtain ⟨i1, i2, i3, i4⟩ := ih _ (put_good hs j hd (hs j hd h) hd.slo)
      refine ⟨i1, (put_same j hd hd h rfl (hs j hd h) hd.slo).trans i2, i3, fun i => (i4 i).trans ?_⟩
      by_cases hj : i = j
      · subst hj; simp [SS.putValue, SS.setH, h]
      · simp [SS.putValue, SS.setH, Function.update_of_ne hj]

theorem owner_facts (s : SS K) (hs : SGood s) (i : ℕ) (old new : Status) : SGood (s.ownerStatus i old new) ∧ SSame s (s.ownerStatus i old new) ∧
    ∀ j, ((s.ownerStatus i old new).h j).map (·.listeners) = (s.h j).map (·.listeners) := by
  unfold SS.ownerStatus
  split_ifs
  · obtain ⟨a, b, -, d⟩ := reset_facts s.stepping s hs
    exact ⟨a, b, d⟩
  · exact ⟨hs, SSame.refl s, fun _ => rfl⟩
  · obtain ⟨a, b, -, d⟩ := reset_facts (s.stepping ++ [i]) { s with stepping := s.stepping ++ [i] } hs
    exact ⟨a, b, d⟩
  · obtain ⟨a, b, -, d⟩ := reset_facts (s.stepping.erase i) { s with stepping := s.stepping.erase i } hs
    exact ⟨a, b, d⟩
  · exact ⟨hs, SSame.refl s, fun _ => rfl⟩

/-- Telling others adds to the log only. -/
theorem tell_others (i : ℕ) (old new : Status) (q : List L) (hq : L.owner ∉ q) : ∀ s : SS K,
    s.tellStatus i old new q = { s with log := s.log ++ q.map fun l => (l, .status i old new) } := by
  induction q with
  | nil => intro s; simp [SS.tellStatus]
  | cons l q ih =>
    intro s
    rw [List.mem_cons, not_or] at hq
    rcases l with _ | n
    · exact absurd rfl hq.1
    · unfold SS.tellStatus
      simp only
      rw [ih hq.2]
      simp

/-- What `_set_status` does: the owner is told first, and what it does comes before the others are told. -/
theorem status_eq (s : SS K) (i : ℕ) (hd : SH K) (st : Status) (q : List L) (hl : hd.listeners = .owner :: q) (hn : hd.listeners.Nodup) :
    ∃ t : SS K, t = SS.ownerStatus { s.setH i { hd with status := st } with log := s.log ++ [(.owner, .status i hd.status st)] } i hd.status st ∧
      s.setStatus i hd st = { t with log := t.log ++ q.map fun l => (l, .status i hd.status st) } := by
  refine ⟨_, rfl, ?_⟩
  rw [hl, List.nodup_cons] at hn
  unfold SS.setStatus
  rw [hl]
  conv_lhs => unfold SS.tellStatus
  simp only
  rw [tell_others _ _ _ _ hn.1]
  rfl

theorem status_facts {s : SS K} (hs : SGood s) (i : ℕ) (hd hd0 : SH K) (h : s.h i = some hd0) (he : hd.listeners = hd0.listeners) (st : Status) :
    SGood (s.setStatus i hd st) ∧ SSame s (s.setStatus i hd st) := by
  obtain ⟨hn, q, hq⟩ := hs i hd0 h
  rw [← he] at hn hq
  obtain ⟨t, ht, e⟩ := status_eq s i hd st q hq hn
  set s1 : SS K := { s.setH i { hd with status := st } with log := s.log ++ [(.owner, .status i hd.status st)] } with hs1
  have hg1 : SGood s1 := by
    intro j hd' h'
    by_cases hj : j = i
    · subst hj
      simp [hs1, SS.setH] at h'
      subst h'
      exact ⟨hn, q, hq⟩
    · simp [hs1, SS.setH, Function.update_of_ne hj] at h'
      exact hs j hd' h'
  obtain ⟨g2, ⟨n2, l2, f2⟩, k2⟩ := owner_facts s1 hg1 i hd.status st
  rw [← ht] at g2 l2 f2 k2
  rw [e]
  refine ⟨fun j hd' h' => g2 j hd' h', [(.owner, .status i hd.status st)] ++ n2 ++ q.map fun l => (l, .status i hd.status st), ?_, fun j hd' h' => ?_⟩
  · simp only [l2, hs1, List.append_assoc]
  · have hown : ∀ x, x ∈ q → L.owner ≠ x := by
      rintro x hx rfl
      rw [hq, List.nodup_cons] at hn
      exact hn.1 hx
    obtain ⟨hd1, h1, hl1⟩ : ∃ hd1, s1.h j = some hd1 ∧ hd1.listeners = hd'.listeners := by
      by_cases hj : j = i
      · subst hj
        rw [h] at h'
        injection h' with h'
        exact ⟨{ hd with status := st }, by simp [hs1, SS.setH], by rw [← h']; exact he⟩
      · exact ⟨hd', by simp [hs1, SS.setH, Function.update_of_ne hj, h'], rfl⟩
    obtain ⟨hd2, h2, sub2, p2⟩ := f2 j hd1 h1
    refine ⟨hd2, h2, fun x hx => sub2 (hl1 ▸ hx), fun l hl => ?_⟩
    have hp := p2 l (hl1 ▸ hl)
    by_cases hj : j = i
    · subst hj
      rw [h] at h'
      injection h' with h'
      subst h'
      rw [← he] at hl
      have t1 := heard_told hd.listeners hn (.status j hd.status st) l hl j
      have t2 := heard_told hd.listeners hn (.status j hd.status st) .owner (by rw [hq]; simp) j
      rw [hq, List.map_cons, ← List.singleton_append, heard_append] at t1 t2
      rw [heard_append, heard_append, heard_append, heard_append]
      refine List.Perm.trans (l₂ := heard n2 l j ++ (heard [(.owner, .status j hd.status st)] l j ++ heard (q.map fun l => (l, .status j hd.status st)) l j)) ?_
        (List.Perm.trans (l₂ := heard n2 .owner j ++ (heard [(.owner, .status j hd.status st)] .owner j ++ heard (q.map fun l => (l, .status j hd.status st)) .owner j)) ?_ ?_)
      · rw [← List.append_assoc]
        exact List.Perm.append_right _ List.perm_append_comm
      · rw [t1, t2]
        exact hp.append_right _
      · rw [← List.append_assoc]
        exact List.Perm.append_right _ List.perm_append_comm
    · have z : ∀ ls : List L, ∀ l, heard (ls.map fun x => (x, Ev.status i hd.status st)) l j = [] := fun ls l =>
        heard_not ls _ l j (show (Ev.status i hd.status st).about ≠ j from fun e => hj e.symm)
      have z1 : ∀ l, heard [(L.owner, Ev.status i hd.status st)] l j = [] := fun l => z [.owner] l
      rw [heard_append, heard_append, heard_append, heard_append, z, z, z1, z1]
      simpa using hp

theorem both_facts {s : SS K} (hs : SGood s) (i : ℕ) (hd hd0 : SH K) (h : s.h i = some hd0) (he : hd.listeners = hd0.listeners) (v : K) (st : Status) :
    SGood (s.both i hd v st) ∧ SSame s (s.both i hd v st) := by
  have hg := hs i hd0 h
  rw [← he] at hg
  have p1 := put_good hs i hd hg (some v)
  have p2 := put_same i hd hd0 h he hg (some v)
  obtain ⟨q1, q2⟩ := status_facts p1 i { hd with value := some v } { hd with value := some v } (by simp [SS.putValue, SS.setH]) rfl st
  exact ⟨q1, p2.trans q2⟩

theorem sop_facts {s : SS K} (hs : SGood s) (o : SOp K) : SGood (s.op o) ∧ SSame s (s.op o) := by
  rcases o with ⟨i, v⟩ | ⟨i, v⟩ | i | ⟨i, lo⟩ | ⟨i, n⟩
  · unfold SS.op
    rcases h : s.h i with _ | hd <;> simp only [h]
    · exact ⟨hs, SSame.refl s⟩
    · exact ⟨put_good hs i hd (hs i hd h) _, put_same i hd hd h rfl (hs i hd h) _⟩
  · unfold SS.op
    rcases h : s.h i with _ | hd <;> simp only [h]
    · have hs1 : SGood (s.setH i {}) := by
        intro j hd' h'
        by_cases hj : j = i
        · subst hj
          simp [SS.setH] at h'
          subst h'
          exact ⟨by simp, [], rfl⟩
        · simp [SS.setH, Function.update_of_ne hj] at h'
          exact hs j hd' h'
      obtain ⟨q1, n, q2, q3⟩ := both_facts hs1 i {} {} (by simp [SS.setH]) rfl v .fixed
      have e : (s.setH i {}).both i {} v .fixed = s.both i {} v .fixed := by simp [SS.both, SS.putValue, SS.setH]
      rw [e] at q1 q2 q3
      refine ⟨q1, n, q2, fun j hd' h' => q3 j hd' ?_⟩
      have hj : j ≠ i := by rintro rfl; rw [h] at h'; cases h'
      simp [SS.setH, Function.update_of_ne hj, h']
    · exact both_facts hs i hd hd h rfl v .fixed
  · unfold SS.op
    rcases h : s.h i with _ | hd <;> simp only [h]
    · exact ⟨hs, SSame.refl s⟩
    · exact status_facts hs i hd hd h rfl _
  · unfold SS.op
    rcases h : s.h i with _ | hd <;> simp only [h]
    · exact ⟨hs, SSame.refl s⟩
    · exact both_facts hs i { hd with slo := some lo } hd h rfl lo .stepping
  · unfold SS.op
    rcases h : s.h i with _ | hd <;> simp only [h]
    · exact ⟨hs, SSame.refl s⟩
    · split_ifs with hin
      · exact ⟨hs, SSame.refl s⟩
      · obtain ⟨hn, q, hq⟩ := hs i hd h
        constructor
        · intro j hd' h'
          by_cases hj : j = i
          · subst hj
            simp [SS.setH] at h'
            subst h'
            refine ⟨List.nodup_append.2 ⟨hn, by simp, ?_⟩, q ++ [.other n], by simp [hq]⟩
            rintro a ha b hb rfl
            simp only [List.mem_singleton] at hb
            exact hin (hb ▸ ha)
          · simp [SS.setH, Function.update_of_ne hj] at h'
            exact hs j hd' h'
        · refine ⟨[], by simp [SS.setH], fun j hd' h' => ?_⟩
          by_cases hj : j = i
          · subst hj
            rw [h] at h'
            injection h' with h'
            subst h'
            exact ⟨{ hd with listeners := hd.listeners ++ [.other n] }, by simp [SS.setH], fun x hx => by simp [hx], fun _ _ => List.Perm.refl _⟩
          · exact ⟨hd', by simp [SS.setH, Function.update_of_ne hj, h'], fun _ h => h, fun _ _ => List.Perm.refl _⟩

theorem srun_facts (ops : List (SOp K)) : ∀ s : SS K, SGood s → SGood (s.run ops) ∧ SSame s (s.run ops) := by
  induction ops with
  | nil => exact fun s hs => ⟨hs, SSame.refl s⟩
  | cons o ops ih =>
    intro s hs
    obtain ⟨a, b⟩ := sop_facts hs o
    obtain ⟨c, d⟩ := ih _ a
    exact ⟨c, b.trans d⟩

theorem SReach.good {s : SS K} (h : SReach s) : SGood s := by
  obtain ⟨ops, rfl⟩ := h
  exact (srun_facts ops {} (fun i hd h => by cases h)).1

/-- **C110** (hearing, with stepping parameters).  Whatever calls follow, of each event an object that listens to a parameter is told exactly as often as the inference that owns it.
Missing: in the same order (`C110_violated_stepping`). -/
theorem C110_stepping_partial {s : SS K} (hs : SReach s) {i : ℕ} {hd : SH K} (h : s.h i = some hd) {l : L} (hl : l ∈ hd.listeners) (ops : List (SOp K)) :
    ∃ new, (s.run ops).log = s.log ++ new ∧ (heard new l i).Perm (heard new .owner i) := by
  obtain ⟨-, new, e, f⟩ := srun_facts ops s hs.good
  obtain ⟨hd', -, -, p⟩ := f i hd h
  exact ⟨new, e, p l hl⟩

/-- A case: parameter 0 has a second listener and begins to step while parameter 1 steps. -/
example : SReach (SS.run {} [.fix 0 (2 : ℚ), .fix 1 3, .addListener 0 7, .linstep 1 4] : SS ℚ) ∧
    ((SS.run {} [.fix 0 (2 : ℚ), .fix 1 3, .addListener 0 7, .linstep 1 4] : SS ℚ).h 0).map (·.listeners) = some [.owner, .other 7] ∧
    ((SS.run {} [.fix 0 (2 : ℚ), .fix 1 3, .addListener 0 7, .linstep 1 4] : SS ℚ).h 0).map (·.status) = some .fixed ∧
    (SS.run {} [.fix 0 (2 : ℚ), .fix 1 3, .addListener 0 7, .linstep 1 4] : SS ℚ).stepping = [1] := ⟨⟨_, rfl⟩, rfl, rfl, rfl⟩

/-- What resetting tells a listener of a parameter: the new value, as often as it is listed. -/
theorem reset_heard (js : List ℕ) : ∀ s : SS K, SGood s → ∀ i hd, s.h i = some hd → ∀ l ∈ hd.listeners,
    ∃ new, (s.resetSteps js).log = s.log ++ new ∧ heard new l i = List.replicate (js.count i) (.value i) := by
  induction js with
  | nil => exact fun s _ i _ _ l _ => ⟨[], by simp [SS.resetSteps], by simp [heard]⟩
  | cons j js ih =>
    intro s hs i hd h l hl
    unfold SS.resetSteps
    rcases hj : s.h j with _ | hj'
    · obtain ⟨n, e, f⟩ := ih s hs i hd h l hl
      have : j ≠ i := by rintro rfl; rw [h] at hj; cases hj
      exact ⟨n, e, by rw [f, List.count_cons_of_ne this]⟩
    · have hg := hs j hj' hj
      have hex : ∃ hd2, (s.putValue j hj' hj'.slo).h i = some hd2 ∧ hd2.listeners = hd.listeners := by
        by_cases hij : i = j
        · subst hij
          rw [h] at hj
          injection hj with hj
          subst hj
          exact ⟨{ hd with value := hd.slo }, by simp [SS.putValue, SS.setH], rfl⟩
        · exact ⟨hd, by simp [SS.putValue, SS.setH, Function.update_of_ne hij, h], rfl⟩
      obtain ⟨hd2, h2, hl2⟩ := hex
      obtain ⟨n, e, f⟩ := ih _ (put_good hs j hj' hg hj'.slo) i hd2 h2 l (hl2 ▸ hl)
      refine ⟨(hj'.listeners.map fun l => (l, Ev.value j)) ++ n, ?_, ?_⟩
      · rw [e, ← List.append_assoc]
        rfl
      · rw [heard_append, f]
        by_cases hij : j = i
        · subst hij
          rw [h] at hj
          injection hj with hj
          subst hj
          rw [heard_told _ hg.1 _ l hl]
          simp [Ev.about, List.replicate_succ]
        · rw [heard_not _ _ _ _ (show (Ev.value j).about ≠ i from hij), List.count_cons_of_ne hij, List.nil_append]

/-- **C110 is violated** when a parameter begins to step: the inference, told of the new status, sets the value once more before the other listeners are told of the status.  They hear of two new values and
then of the status, although the status changed between the values. -/
theorem C110_violated_stepping {s : SS K} (hs : SReach s) {i : ℕ} {hd : SH K} (h : s.h i = some hd) (hst : hd.status ≠ .stepping) (hi : i ∉ s.stepping) {n : ℕ} (hn : .other n ∈ hd.listeners) (lo : K) :
    ∃ new, (s.op (.linstep i lo)).log = s.log ++ new ∧ heard new .owner i = [.value i, .status i hd.status .stepping, .value i] ∧
      heard new (.other n) i = [.value i, .value i, .status i hd.status .stepping] := by
  obtain ⟨hnd, q, hq⟩ := hs.good i hd h
  have hown : L.owner ∉ q := by rw [hq, List.nodup_cons] at hnd; exact hnd.1
  have hnq : L.other n ∈ q := by rw [hq] at hn; simpa using hn
  set hd1 : SH K := { hd with slo := some lo, value := some lo } with hhd1
  set s1 := s.putValue i { hd with slo := some lo } (some lo) with hs1
  have g1 : SGood s1 := put_good hs.good i { hd with slo := some lo } ⟨hnd, q, hq⟩ _
  obtain ⟨t, ht, e⟩ := status_eq s1 i hd1 .stepping q hq hnd
  have e0 : s.op (.linstep i lo) = s1.setStatus i hd1 .stepping := by
    unfold SS.op
    simp only [h]
    rfl
  have hlog1 : s1.log = s.log ++ hd.listeners.map fun l => (l, Ev.value i) := rfl
  set s2 : SS K := { s1.setH i { hd1 with status := .stepping } with log := s1.log ++ [(.owner, .status i hd.status .stepping)], stepping := s.stepping ++ [i] } with hs2
  have g2 : SGood s2 := by
    intro j hd' h'
    by_cases hj : j = i
    · subst hj
      simp [hs2, SS.setH] at h'
      subst h'
      exact ⟨hnd, q, hq⟩
    · simp [hs2, SS.setH, Function.update_of_ne hj] at h'
      exact g1 j hd' h'
  have ht' : t = s2.resetSteps (s.stepping ++ [i]) := by
    rw [ht]
    unfold SS.ownerStatus
    rw [if_neg (show hd1.status ≠ .stepping from hst), if_pos rfl]
    rfl
  have hcount : (s.stepping ++ [i]).count i = 1 := by
    rw [List.count_append, List.count_eq_zero_of_not_mem hi]
    simp
  have h2 : s2.h i = some { hd1 with status := .stepping } := by simp [hs2, SS.setH]
  obtain ⟨n1, l1, f1⟩ := reset_heard (s.stepping ++ [i]) s2 g2 i _ h2 .owner (show L.owner ∈ hd.listeners by rw [hq]; simp)
  obtain ⟨n2, l2, f2⟩ := reset_heard (s.stepping ++ [i]) s2 g2 i _ h2 (.other n) hn
  have hnn : n2 = n1 := List.append_cancel_left (l2.symm.trans l1)
  subst hnn
  rw [hcount] at f1 f2
  refine ⟨(hd.listeners.map fun l => (l, Ev.value i)) ++ ([(.owner, .status i hd.status .stepping)] ++ (n2 ++ q.map fun l => (l, Ev.status i hd.status .stepping))), ?_, ?_, ?_⟩
  · have h3 : t.log = s.log ++ ((hd.listeners.map fun l => (l, Ev.value i)) ++ ([(.owner, .status i hd.status .stepping)] ++ n2)) := by
      rw [ht', l1]
      show (s1.log ++ [(.owner, .status i hd.status .stepping)]) ++ n2 = _
      rw [hlog1]
      simp only [List.append_assoc]
    rw [e0, e]
    show t.log ++ _ = _
    rw [h3]
    simp only [List.append_assoc]
    rfl
  · rw [heard_append, heard_append, heard_append, f1, heard_told _ hnd _ _ (by rw [hq]; simp)]
    have z : heard (q.map fun l => (l, Ev.status i hd.status .stepping)) .owner i = [] := by
      simp only [heard, List.map_eq_nil_iff, List.filter_eq_nil_iff, List.mem_map]
      rintro _ ⟨x, hx, rfl⟩ hp
      simp only [decide_eq_true_eq] at hp
      exact hown (hp.1 ▸ hx)
    rw [z]
    simp [heard, Ev.about]
  · rw [heard_append, heard_append, heard_append, f2, heard_told _ hnd _ _ hn, heard_told q (by rw [hq, List.nodup_cons] at hnd; exact hnd.2) _ _ hnq]
    simp [heard, Ev.about]

end Verif.Pie.Listen
