import Verif.Pie.Listen
import Mathlib.Data.List.Nodup
import Mathlib.Data.Rat.Defs
import Mathlib.Algebra.Order.Ring.Rat

/-!
# C110: listeners hear every change once

Specification: `heard log l i` is what `l` was told about parameter `i`, in order of time.
-/

set_option linter.unusedSectionVars false

namespace Verif.Pie.Listen

/-- The parameter an event is about. -/
def Ev.about : Ev → ℕ
  | .value i => i
  | .status i _ _ => i

/-- What listener `l` was told about parameter `i`. -/
def heard (log : List (L × Ev)) (l : L) (i : ℕ) : List Ev := (log.filter fun p => p.1 = l ∧ p.2.about = i).map Prod.snd

variable {K : Type} [Field K] [LinearOrder K]

/-- No listener raises an exception. -/
def Beh.Silent (b : Beh K) : Prop := (∀ i v, b.hook i v = none) ∧ ∀ n e v, b.other n e v = none

/-- States that occur. -/
def Reach (b : Beh K) (default : ℕ → K) (s : St K) : Prop := ∃ ops, s = St.run b default {} ops

/-! ## Helpers -/

theorem heard_append (a c : List (L × Ev)) (l : L) (i : ℕ) : heard (a ++ c) l i = heard a l i ++ heard c l i := by
  simp [heard]

theorem heard_told (ls : List L) (hn : ls.Nodup) (e : Ev) (l : L) (hl : l ∈ ls) (i : ℕ) : heard (ls.map fun x => (x, e)) l i = if e.about = i then [e] else [] := by
  induction ls with
  | nil => simp at hl
  | cons a ls ih =>
    rw [List.nodup_cons] at hn
    have hc : heard ((a :: ls).map fun x => (x, e)) l i = heard [(a, e)] l i ++ heard (ls.map fun x => (x, e)) l i := by
      rw [List.map_cons, ← heard_append]; rfl
    rw [hc]
    have h0 : ∀ ls : List L, l ∉ ls → heard (ls.map fun x => (x, e)) l i = [] := by
      intro ls h
      simp only [heard, List.map_eq_nil_iff, List.filter_eq_nil_iff, List.mem_map]
      rintro _ ⟨x, hx, rfl⟩ hp
      simp only [decide_eq_true_eq] at hp
      exact h (hp.1 ▸ hx)
    by_cases hal : a = l
    · subst hal
      rw [h0 ls hn.1, List.append_nil]
      by_cases hi : e.about = i <;> simp [heard, hi]
    · rcases List.mem_cons.1 hl with h | h
      · exact absurd h.symm hal
      · rw [ih hn.2 h]
        simp [heard, hal]

theorem tell_silent {b : Beh K} (hb : b.Silent) (e : Ev) (ls : List L) (s : St K) : s.tell b e ls = ok { s with log := s.log ++ ls.map fun x => (x, e) } := by
  induction ls generalizing s with
  | nil => simp [St.tell]
  | cons l ls ih =>
    have : ∀ v, b.react l e v = none := by
      intro v
      unfold Beh.react
      split
      · exact hb.1 _ _
      · rfl
      · exact hb.2 _ _ _
    unfold St.tell
    simp only [this]
    rw [ih]
    simp

theorem tell_h (b : Beh K) (e : Ev) (ls : List L) (s : St K) : (s.tell b e ls).1.h = s.h := by
  induction ls generalizing s with
  | nil => rfl
  | cons l ls ih =>
    unfold St.tell
    dsimp only
    split
    · rfl
    · rw [ih]

theorem setH_self (s : St K) (i : ℕ) (hd : PS K) : (s.setH i hd).h i = some hd := by simp [St.setH]

theorem setH_ne (s : St K) {i j : ℕ} (hd : PS K) (h : j ≠ i) : (s.setH i hd).h j = s.h j := by simp [St.setH, Function.update_of_ne h]

/-- A handler as it can occur. -/
def PS.Good (hd : PS K) : Prop := hd.value.isSome ∧ hd.listeners.Nodup ∧ L.owner ∈ hd.listeners

def Good (s : St K) : Prop := ∀ i hd, s.h i = some hd → hd.Good

theorem Good.setH {s : St K} (hs : Good s) (i : ℕ) (hd : PS K) (h : hd.Good) : Good (s.setH i hd) := by
  intro j hd' hj
  by_cases hji : j = i
  · subst hji
    rw [setH_self] at hj
    cases hj
    exact h
  · rw [setH_ne _ _ hji] at hj
    exact hs j hd' hj

theorem Good.tell {s : St K} (hs : Good s) (b : Beh K) (e : Ev) (ls : List L) : Good (s.tell b e ls).1 := by
  intro j hd' hj
  rw [tell_h] at hj
  exact hs j hd' hj

theorem andThen_fst {α} (P : α → Prop) (r : Res α) (f : α → Res α) (h1 : P r.1) (h2 : P r.1 → P (f r.1).1) : P (r.andThen f).1 := by
  rcases r with ⟨s, _ | e⟩
  · exact h2 h1
  · exact h1

/-- The state after a call is good; `hd` may be a new handler without a value. -/
theorem Good.putValue {s : St K} (b : Beh K) (i : ℕ) (hd : PS K) (hs : ∀ j ≠ i, ∀ hd, s.h j = some hd → hd.Good) (h : hd.listeners.Nodup ∧ L.owner ∈ hd.listeners) (v : K) : Good (s.putValue b i hd v).1 := by
  unfold St.putValue
  apply Good.tell
  intro j hd' hj
  by_cases hji : j = i
  · subst hji
    rw [setH_self] at hj
    cases hj
    exact ⟨rfl, h⟩
  · rw [setH_ne _ _ hji] at hj
    exact hs j hji hd' hj

theorem Good.setStatus {s : St K} (hs : Good s) (b : Beh K) (i : ℕ) (hd : PS K) (h : hd.Good) (st : Status) : Good (s.setStatus b i hd st).1 :=
  (hs.setH i { hd with status := st } h).tell b _ _

theorem Good.fix {s : St K} (b : Beh K) (i : ℕ) (hd : PS K) (hs : Good s ∧ hd.Good ∨ hd.bounds = none ∧ ∀ j ≠ i, ∀ hd, s.h j = some hd → hd.Good) (h : hd.listeners.Nodup ∧ L.owner ∈ hd.listeners)
    (v : Option K) (hv : v = none → hd.Good ∧ Good s) : Good (s.fixH b i hd v).1 := by
  have hs' : ∀ j ≠ i, ∀ hd, s.h j = some hd → hd.Good := hs.elim (fun g j _ hd hj => g.1 j hd hj) (fun g => g.2)
  unfold St.fixH
  have key : ∀ v : K, Good ((s.putValue b i hd v).andThen fun s => s.setStatus b i { hd with value := some v } .fixed).1 := fun v =>
    andThen_fst Good _ _ (Good.putValue b i hd hs' h v) fun g => g.setStatus b i { hd with value := some v } ⟨rfl, h⟩ _
  cases v with
  | none =>
    dsimp only
    obtain ⟨a, c⟩ := hv rfl
    split_ifs
    · exact c
    · exact c.setStatus b i hd a _
  | some v =>
    dsimp only
    split
    · rename_i hbd
      split_ifs
      · exact key v
      · rcases hs with g | g
        · exact g.1
        · rw [g.1] at hbd; cases hbd
    · exact key v

theorem Good.access {s : St K} (hs : Good s) (b : Beh K) (default : ℕ → K) (i : ℕ) : Good (s.access b default i).1 := by
  unfold St.access
  rcases hv : (s.h i).bind (·.value) with _ | x
  · refine Good.fix b i {} (.inr ⟨rfl, ?_⟩) ⟨by simp, by simp⟩ _ (by simp)
    intro j hj hd hh
    rw [setH_ne _ _ hj] at hh
    exact hs j hd hh
  · exact hs

theorem access_some (b : Beh K) (default : ℕ → K) {s : St K} (hs : Good s) {i : ℕ} {hd : PS K} (h : s.h i = some hd) : s.access b default i = ok s := by
  unfold St.access
  obtain ⟨x, hx⟩ := Option.isSome_iff_exists.1 (hs i hd h).1
  rw [h, Option.bind_some, hx]

theorem PS.Good.addListener {hd : PS K} (h : hd.Good) (l : L) : (hd.addListener l).Good := by
  unfold PS.addListener
  split_ifs with hl
  · exact h
  · refine ⟨h.1, ?_, List.mem_append_left _ h.2.2⟩
    rw [List.nodup_append]
    refine ⟨h.2.1, by simp, ?_⟩
    intro a ha c hc hac
    rw [List.mem_singleton] at hc
    exact hl (hc ▸ hac ▸ ha)

theorem Good.onH {s : St K} (hs : Good s) (b : Beh K) (default : ℕ → K) (i : ℕ) (f : St K → PS K → Res (St K)) (hf : ∀ s hd, Good s → hd.Good → Good (f s hd).1) : Good (s.onH b default i f).1 := by
  unfold St.onH
  refine andThen_fst Good _ _ (hs.access b default i) fun g => ?_
  split
  · exact g
  · rename_i hd hh
    exact hf _ _ g (g i hd hh)

theorem Good.setValue {s : St K} (hs : Good s) (b : Beh K) (i : ℕ) (hd : PS K) (h : hd.Good) (v : K) : Good (s.setValueH b i hd v).1 := by
  have hp := Good.putValue (s := s) b i hd (fun j _ hd hj => hs j hd hj) h.2 v
  unfold St.setValueH
  split_ifs
  · exact hs
  · split
    · split_ifs
      exacts [hp, hs]
    · exact hp

theorem Good.vary {s : St K} (hs : Good s) (b : Beh K) (i : ℕ) (hd : PS K) (h : hd.Good) (start delta : Option K) (range : Option (K × K)) : Good (s.varyH b i hd start delta range).1 := by
  unfold St.varyH
  split_ifs
  · exact hs
  · dsimp only
    have h' : PS.Good (hd.withRange range) := by
      cases range with
      | none => exact h
      | some p => exact h
    generalize (hd.withRange range) = hd' at h'
    split
    · exact hs.setH i _ h'
    · rename_i d _
      refine andThen_fst Good _ _ (hs.setStatus b i { hd' with delta := some d } h' _) fun g => ?_
      cases start with
      | none => dsimp only; split_ifs <;> exact g
      | some v => exact g.setValue b i { hd' with delta := some d, status := .varying } h' v

theorem Good.op {s : St K} (hs : Good s) (b : Beh K) (default : ℕ → K) (o : Op K) : Good (s.op b default o).1 := by
  cases o with
  | read i => exact hs.access b default i
  | assign i v =>
    show Good (s.assign b i v).1
    unfold St.assign
    split
    · rename_i hd hh
      exact Good.fix b i hd (.inl ⟨hs, hs i hd hh⟩) (hs i hd hh).2 _ (by simp)
    · refine Good.fix b i {} (.inr ⟨rfl, ?_⟩) ⟨by simp, by simp⟩ _ (by simp)
      intro j hj hd hh
      rw [setH_ne _ _ hj] at hh
      exact hs j hd hh
  | fix i v => exact hs.onH b default i _ fun s hd g h => Good.fix b i hd (.inl ⟨g, h⟩) h.2 v fun _ => ⟨h, g⟩
  | setValue i v => exact hs.onH b default i _ fun s hd g h => g.setValue b i hd h v
  | vary i a c d => exact hs.onH b default i _ fun s hd g h => g.vary b i hd h a c d
  | range i a c => exact hs.onH b default i _ fun s hd g h => g.setH i _ h
  | addListener i n => exact hs.onH b default i _ fun s hd g h => g.setH i _ (h.addListener _)
  | delListener i n => exact hs.onH b default i _ fun s hd g h => g

theorem Good.run {s : St K} (hs : Good s) (b : Beh K) (default : ℕ → K) (ops : List (Op K)) : Good (s.run b default ops) := by
  induction ops generalizing s with
  | nil => exact hs
  | cons o ops ih => exact ih (hs.op b default o)

theorem Reach.good {b : Beh K} {default : ℕ → K} {s : St K} (h : Reach b default s) : Good s := by
  obtain ⟨ops, rfl⟩ := h
  exact Good.run (s := {}) (fun i hd h => by cases h) b default ops

/-- From `s` to `s'` the listeners of each parameter were all told the same about it. -/
def Same (s s' : St K) : Prop :=
  ∃ d, s'.log = s.log ++ d ∧ ∀ i hd, s.h i = some hd → ∃ hd', s'.h i = some hd' ∧ (∀ l ∈ hd.listeners, l ∈ hd'.listeners) ∧ ∀ l ∈ hd.listeners, heard d l i = heard d .owner i

theorem Same.refl (s : St K) : Same s s := ⟨[], by simp, fun i hd h => ⟨hd, h, fun _ h => h, fun _ _ => rfl⟩⟩

theorem Same.trans {s t u : St K} (_hs : Good s) (h1 : Same s t) (h2 : Same t u) : Same s u := by
  obtain ⟨d, e1, f1⟩ := h1
  obtain ⟨d', e2, f2⟩ := h2
  refine ⟨d ++ d', by rw [e2, e1, List.append_assoc], fun i hd h => ?_⟩
  obtain ⟨hd', a1, a2, a3⟩ := f1 i hd h
  obtain ⟨hd'', c1, c2, c3⟩ := f2 i hd' a1
  refine ⟨hd'', c1, fun l hl => c2 l (a2 l hl), fun l hl => ?_⟩
  rw [heard_append, heard_append, a3 l hl, c3 l (a2 l hl)]

/-- Writing a handler back with the listeners it had (or more) tells nobody. -/
theorem Same.setH {s : St K} (i : ℕ) (hd : PS K) (h : ∀ hd', s.h i = some hd' → ∀ l ∈ hd'.listeners, l ∈ hd.listeners) : Same s (s.setH i hd) := by
  refine ⟨[], by simp [St.setH], fun j hd' hj => ?_⟩
  by_cases hji : j = i
  · subst hji
    exact ⟨hd, by simp [St.setH], h hd' hj, fun _ _ => rfl⟩
  · exact ⟨hd', by rw [setH_ne _ _ hji]; exact hj, fun _ h => h, fun _ _ => rfl⟩

theorem Same.tell {b : Beh K} (hb : b.Silent) {s : St K} (e : Ev) (hd : PS K) (hh : s.h e.about = some hd) (hn : hd.listeners.Nodup) (ho : L.owner ∈ hd.listeners) :
    Same s (s.tell b e hd.listeners).1 := by
  rw [tell_silent hb]
  refine ⟨hd.listeners.map fun x => (x, e), rfl, fun i hd' hi => ⟨hd', hi, fun _ h => h, fun l hl => ?_⟩⟩
  by_cases hie : e.about = i
  · have : hd = hd' := by rw [hie, hi] at hh; exact (Option.some.inj hh).symm
    subst this
    rw [heard_told _ hn e l hl, heard_told _ hn e _ ho]
  · have : ∀ l, heard (hd.listeners.map fun x => (x, e)) l i = [] := by
      intro l
      simp only [heard, List.map_eq_nil_iff, List.filter_eq_nil_iff, List.mem_map]
      rintro _ ⟨x, hx, rfl⟩ hp
      simp only [decide_eq_true_eq] at hp
      exact hie hp.2
    rw [this, this]

/-- The handler with which a method works is that of the state, up to the listeners. -/
def Fits (s : St K) (i : ℕ) (hd : PS K) : Prop := ∀ hd', s.h i = some hd' → hd'.listeners = hd.listeners

theorem Same.put {b : Beh K} (hb : b.Silent) {s : St K} (i : ℕ) (hd : PS K) (hf : Fits s i hd) (hl : hd.listeners.Nodup ∧ L.owner ∈ hd.listeners) (e : Ev) (he : e.about = i) (hd2 : PS K) (h2 : hd2.listeners = hd.listeners)
    (hs : Good s) : Same s ((s.setH i hd2).tell b e hd.listeners).1 := by
  refine Same.trans hs (Same.setH i hd2 fun hd' h l hl' => ?_) ?_
  · rw [h2, ← hf hd' h]; exact hl'
  · rw [← h2]
    exact Same.tell hb e hd2 (by rw [he, setH_self]) (h2 ▸ hl.1) (h2 ▸ hl.2)

theorem Same.put' {b : Beh K} (hb : b.Silent) {s : St K} (i : ℕ) (hd : PS K) (hf : Fits s i hd) (hl : hd.listeners.Nodup ∧ L.owner ∈ hd.listeners) (v : K) (hs : Good s) : Same s (s.putValue b i hd v).1 :=
  Same.put hb i hd hf hl (.value i) rfl _ rfl hs

theorem fits_put (b : Beh K) (s : St K) (i : ℕ) (hd hd2 : PS K) (e : Ev) (h2 : hd2.listeners = hd.listeners) (ls : List L) : Fits ((s.setH i hd2).tell b e ls).1 i hd := by
  intro hd' h
  rw [tell_h, setH_self] at h
  cases h
  exact h2

theorem andThen_same (s : St K) (hs : Good s) (r : Res (St K)) (f : St K → Res (St K)) (h1 : Same s r.1) (h2 : Same r.1 (f r.1).1) : Same s (r.andThen f).1 := by
  rcases r with ⟨t, _ | e⟩
  · exact h1.trans hs h2
  · exact h1

theorem Same.fix {b : Beh K} (hb : b.Silent) {s : St K} (hs : Good s) (i : ℕ) (hd : PS K) (hf : Fits s i hd) (hl : hd.listeners.Nodup ∧ L.owner ∈ hd.listeners) (v : Option K) :
    Same s (s.fixH b i hd v).1 := by
  have key : ∀ v : K, Same s ((s.putValue b i hd v).andThen fun s => s.setStatus b i { hd with value := some v } .fixed).1 := fun v =>
    andThen_same s hs _ _ (Same.put' hb i hd hf hl v hs)
      (Same.put hb i { hd with value := some v } (fits_put b s i _ _ _ rfl _) hl (.status i _ _) rfl _ rfl (Good.putValue b i hd (fun j _ hd hj => hs j hd hj) hl v))
  unfold St.fixH
  cases v with
  | none =>
    dsimp only
    split_ifs
    · exact Same.refl s
    · exact Same.put hb i hd hf hl (.status i _ _) rfl _ rfl hs
  | some v =>
    dsimp only
    split
    · split_ifs
      exacts [key v, Same.refl s]
    · exact key v

theorem setH_setH (s : St K) (i : ℕ) (a c : PS K) : (s.setH i a).setH i c = s.setH i c := by simp [St.setH]

/-- A new handler's first value. -/
theorem fix_new (b : Beh K) (s : St K) (i : ℕ) (v : K) : (s.setH i {}).fixH b i {} (some v) = s.fixH b i {} (some v) := by
  simp only [St.fixH, St.putValue, setH_setH]

theorem Same.access {b : Beh K} (hb : b.Silent) {s : St K} (hs : Good s) (default : ℕ → K) (i : ℕ) : Same s (s.access b default i).1 := by
  rcases hh : s.h i with _ | hd
  · unfold St.access
    rw [hh]
    show Same s ((s.setH i {}).fixH b i {} (some (default i))).1
    rw [fix_new]
    exact Same.fix hb hs i {} (fun hd' h => by rw [hh] at h; cases h) ⟨by simp, by simp⟩ _
  · rw [access_some b default hs hh]
    exact Same.refl s

theorem Same.onH {b : Beh K} (hb : b.Silent) {s : St K} (hs : Good s) (default : ℕ → K) (i : ℕ) (f : St K → PS K → Res (St K))
    (hf : ∀ s hd, Good s → s.h i = some hd → Same s (f s hd).1) : Same s (s.onH b default i f).1 := by
  refine andThen_same s hs _ _ (Same.access hb hs default i) ?_
  split
  · exact Same.refl _
  · rename_i hd hh
    exact hf _ _ (hs.access b default i) hh

theorem fits_of {s : St K} {i : ℕ} {hd : PS K} (h : s.h i = some hd) : Fits s i hd := fun hd' h' => by
  rw [h] at h'; cases h'; rfl

theorem Same.setValue {b : Beh K} (hb : b.Silent) {s : St K} (hs : Good s) (i : ℕ) (hd : PS K) (hf : Fits s i hd) (hl : hd.listeners.Nodup ∧ L.owner ∈ hd.listeners) (v : K) :
    Same s (s.setValueH b i hd v).1 := by
  have hp := Same.put' hb i hd hf hl v hs
  unfold St.setValueH
  split_ifs
  · exact Same.refl s
  · split
    · split_ifs
      exacts [hp, Same.refl s]
    · exact hp

theorem Same.vary {b : Beh K} (hb : b.Silent) {s : St K} (hs : Good s) (i : ℕ) (hd : PS K) (hh : s.h i = some hd) (start delta : Option K) (range : Option (K × K)) :
    Same s (s.varyH b i hd start delta range).1 := by
  have hg := hs i hd hh
  unfold St.varyH
  split_ifs
  · exact Same.refl s
  · dsimp only
    have h' : PS.Good (hd.withRange range) ∧
        (hd.withRange range).listeners = hd.listeners := by
      cases range with
      | none => exact ⟨hg, rfl⟩
      | some p => exact ⟨hg, rfl⟩
    generalize (hd.withRange range) = hd' at h'
    obtain ⟨h1, h2⟩ := h'
    have hf : Fits s i hd' := fun a ha => (fits_of hh a ha).trans h2.symm
    split
    · exact Same.setH i hd' fun a ha l hl => by rw [← hf a ha]; exact hl
    · rename_i d _
      refine andThen_same s hs _ _ (Same.put hb i { hd' with delta := some d } hf h1.2 (.status i _ _) rfl _ rfl hs) ?_
      cases start with
      | none => dsimp only; split_ifs <;> exact Same.refl _
      | some v =>
        exact Same.setValue hb (hs.setStatus b i { hd' with delta := some d } h1 _) i { hd' with delta := some d, status := .varying } (fits_put b s i _ _ _ rfl _) h1.2 v

theorem Same.op {b : Beh K} (hb : b.Silent) {s : St K} (hs : Good s) (default : ℕ → K) (o : Op K) : Same s (s.op b default o).1 := by
  cases o with
  | read i => exact Same.access hb hs default i
  | assign i v =>
    show Same s (s.assign b i v).1
    unfold St.assign
    split
    · rename_i hd hh
      exact Same.fix hb hs i hd (fits_of hh) (hs i hd hh).2 _
    · rename_i hh
      rw [fix_new]
      exact Same.fix hb hs i {} (fun hd' h => by rw [hh] at h; cases h) ⟨by simp, by simp⟩ _
  | fix i v => exact Same.onH hb hs default i _ fun s hd g h => Same.fix hb g i hd (fits_of h) (g i hd h).2 v
  | setValue i v => exact Same.onH hb hs default i _ fun s hd g h => Same.setValue hb g i hd (fits_of h) (g i hd h).2 v
  | vary i a c d => exact Same.onH hb hs default i _ fun s hd g h => Same.vary hb g i hd h a c d
  | range i a c => exact Same.onH hb hs default i _ fun s hd g h => Same.setH i _ fun a ha l hl => by rw [h] at ha; cases ha; exact hl
  | addListener i n =>
    refine Same.onH hb hs default i _ fun s hd g h => Same.setH i _ fun a ha l hl => ?_
    rw [h] at ha; cases ha
    unfold PS.addListener
    split_ifs
    · exact hl
    · exact List.mem_append_left _ hl
  | delListener i n => exact Same.onH hb hs default i _ fun s hd g h => Same.refl s

/-! ## The property -/

/-- **C110** (nobody is told twice).  In every state that occurs a parameter's listeners are distinct and its owner is one of them, whatever exceptions were raised. -/
theorem C110_listeners {b : Beh K} {default : ℕ → K} {s : St K} (hs : Reach b default s) {i : ℕ} {hd : PS K} (h : s.h i = some hd) : hd.listeners.Nodup ∧ L.owner ∈ hd.listeners :=
  (hs.good i hd h).2

/-- **C110** (adding).  `add_listener` makes the object a listener, whether or not it was one, and changes nothing else of a parameter that was in use. -/
theorem C110_add {b : Beh K} {default : ℕ → K} {s : St K} (hs : Reach b default s) {i : ℕ} {hd : PS K} (h : s.h i = some hd) (n : ℕ) :
    ∃ hd', s.op b default (.addListener i n) = (s.setH i hd', none) ∧ (∀ l, l ∈ hd'.listeners ↔ l ∈ hd.listeners ∨ l = .other n) ∧ { hd' with listeners := hd.listeners } = hd := by
  refine ⟨hd.addListener (.other n), ?_, ?_, ?_⟩
  · simp [St.op, St.onH, access_some b default hs.good h, h, Res.andThen]
  · intro l
    unfold PS.addListener
    split_ifs with hl
    · refine ⟨.inl, ?_⟩
      rintro (h | rfl)
      exacts [h, hl]
    · simp
  · unfold PS.addListener
    split_ifs <;> rfl

/-- **C110** (hearing, partial: without stepping parameters).  If no listener raises an exception, then whatever calls follow (including ones that are refused), an object that listens to a parameter is told exactly what the parameter's owner is told of it, in the same order.
Missing: stepping parameters, for which the order may differ (`C110_stepping_partial`, `C110_violated_stepping`). -/
theorem C110_hears_partial {b : Beh K} (hb : b.Silent) {default : ℕ → K} {s : St K} (hs : Reach b default s) {i : ℕ} {hd : PS K} (h : s.h i = some hd) {l : L} (hl : l ∈ hd.listeners) (ops : List (Op K)) :
    ∃ d, (s.run b default ops).log = s.log ++ d ∧ heard d l i = heard d .owner i := by
  have : Same s (s.run b default ops) := by
    have hg := hs.good
    clear hs h hl
    induction ops generalizing s with
    | nil => exact Same.refl s
    | cons o ops ih => exact (Same.op hb hg default o).trans hg (ih (hg.op b default o))
  obtain ⟨d, h1, h2⟩ := this
  obtain ⟨hd', _, _, h3⟩ := h2 i hd h
  exact ⟨d, h1, h3 l hl⟩

/-- **C110** (what the owner is told).  If no listener raises an exception, a value accepted by assignment or `fix` is announced to every listener, in the order in which they were added, then the new status … -/
theorem C110_fix {b : Beh K} (hb : b.Silent) {default : ℕ → K} {s : St K} (hs : Reach b default s) {i : ℕ} {hd : PS K} (h : s.h i = some hd) (v : K)
    (hv : ∀ lo hi, hd.bounds = some (lo, hi) → lo ≤ v ∧ v ≤ hi) (o : Op K) (ho : o = .fix i (some v) ∨ o = .assign i v) :
    (s.op b default o).2 = none ∧ (s.op b default o).1.h i = some { hd with value := some v, status := .fixed } ∧
      (s.op b default o).1.log = s.log ++ (hd.listeners.map fun l => (l, .value i)) ++ hd.listeners.map fun l => (l, .status i hd.status .fixed) := by
  have e1 : s.op b default o = s.fixH b i hd (some v) := by
    rcases ho with rfl | rfl
    · simp [St.op, St.onH, access_some b default hs.good h, h, Res.andThen]
    · simp [St.op, St.assign, h]
  have e2 : s.fixH b i hd (some v) = (s.putValue b i hd v).andThen fun s => s.setStatus b i { hd with value := some v } .fixed := by
    unfold St.fixH
    cases hbd : hd.bounds with
    | none => rfl
    | some p =>
      obtain ⟨lo, hi⟩ := p
      exact if_pos (hv lo hi hbd)
  rw [e1, e2]
  simp [St.putValue, tell_silent hb, Res.andThen, St.setStatus, St.setH]

/-- … a value accepted by `set_value` is announced … -/
theorem C110_set_value {b : Beh K} (hb : b.Silent) {default : ℕ → K} {s : St K} (hs : Reach b default s) {i : ℕ} {hd : PS K} (h : s.h i = some hd) (hst : hd.status = .varying) (v : K)
    (hv : ∀ lo hi, hd.bounds = some (lo, hi) → lo ≤ v ∧ v ≤ hi) :
    (s.op b default (.setValue i v)).2 = none ∧ (s.op b default (.setValue i v)).1.h i = some { hd with value := some v } ∧
      (s.op b default (.setValue i v)).1.log = s.log ++ hd.listeners.map fun l => (l, .value i) := by
  have e1 : s.op b default (.setValue i v) = s.putValue b i hd v := by
    have : s.setValueH b i hd v = s.putValue b i hd v := by
      unfold St.setValueH
      rw [if_neg (by simp [hst])]
      cases hbd : hd.bounds with
      | none => rfl
      | some p =>
        obtain ⟨lo, hi⟩ := p
        exact if_pos (hv lo hi hbd)
    simp [St.op, St.onH, access_some b default hs.good h, h, Res.andThen, this]
  rw [e1]
  simp [St.putValue, tell_silent hb, St.setH]

/-- … and `vary` with a range, a step and a starting value in the range announces first the status, then the value. -/
theorem C110_vary {b : Beh K} (hb : b.Silent) {default : ℕ → K} {s : St K} (hs : Reach b default s) {i : ℕ} {hd : PS K} (h : s.h i = some hd) (v d x y : K) (hv : min x y ≤ v ∧ v ≤ max x y) :
    (s.op b default (.vary i (some v) (some d) (some (x, y)))).2 = none ∧
      (s.op b default (.vary i (some v) (some d) (some (x, y)))).1.h i = some { hd with value := some v, status := .varying, bounds := some (min x y, max x y), delta := some d } ∧
      (s.op b default (.vary i (some v) (some d) (some (x, y)))).1.log = s.log ++ (hd.listeners.map fun l => (l, .status i hd.status .varying)) ++ hd.listeners.map fun l => (l, .value i) := by
  have e1 : s.op b default (.vary i (some v) (some d) (some (x, y))) = s.varyH b i hd (some v) (some d) (some (x, y)) := by
    simp [St.op, St.onH, access_some b default hs.good h, h, Res.andThen]
  rw [e1]
  have hv' : v ≥ min x y ∧ v ≤ max x y := hv
  simp [St.varyH, PS.withRange, St.setStatus, tell_silent hb, Res.andThen, St.setValueH, hv.1, hv.2, St.putValue, St.setH]

/-- **C110 fails for a check in `on_param_change`** (the documented place for one): if it refuses the new values by raising an exception, the assignment raises it, but the parameter has the refused value, and its status is not changed. -/
theorem C110_violated_check {b : Beh K} {default : ℕ → K} {s : St K} (hs : Reach b default s) {i : ℕ} {hd : PS K} (h : s.h i = some hd) (hl : hd.listeners = [.owner]) (v : K)
    (hv : ∀ lo hi, hd.bounds = some (lo, hi) → lo ≤ v ∧ v ≤ hi) (x : Err) (hx : b.hook i (s.setH i { hd with value := some v }).view = some x) :
    (s.op b default (.assign i v)).2 = some x ∧ (s.op b default (.assign i v)).1.h i = some { hd with value := some v } := by
  have e2 : s.fixH b i hd (some v) = (s.putValue b i hd v).andThen fun s => s.setStatus b i { hd with value := some v } .fixed := by
    unfold St.fixH
    cases hbd : hd.bounds with
    | none => rfl
    | some p =>
      obtain ⟨lo, hi⟩ := p
      exact if_pos (hv lo hi hbd)
  have e3 : s.putValue b i hd v = raise x { s.setH i { hd with value := some v } with log := s.log ++ [(.owner, .value i)] } := by
    have hlog : (s.setH i { hd with value := some v }).log = s.log := rfl
    unfold St.putValue
    generalize s.setH i { hd with value := some v } = t at hx hlog
    have : ∀ log, St.view { t with log := log } = t.view := fun _ => rfl
    rw [hl]
    unfold St.tell
    simp only [Beh.react]
    rw [hlog, this, hx]
  have e1 : s.op b default (.assign i v) = s.fixH b i hd (some v) := by simp [St.op, St.assign, h]
  rw [e1, e2, e3]
  simp [Res.andThen, St.setH]

/-- … and a parameter whose default is refused at its first use keeps the refused default without a status: reading it again returns the value normally, and fixing it at that value raises ParamError. -/
theorem C110_violated_default (b : Beh K) (default : ℕ → K) (i : ℕ) (x : Err) (hx : b.hook i (Function.update (fun _ => none) i (some (default i))) = some x) :
    ∃ s : St K, ({} : St K).op b default (.read i) = (s, some x) ∧ s.view i = some (default i) ∧ (s.h i).map PS.status = some .undef ∧
      s.op b default (.read i) = (s, none) ∧ s.op b default (.fix i none) = (s, some .param) := by
  have hview : ∀ log, St.view { St.setH ({} : St K) i { value := some (default i) } with log := log } = Function.update (fun _ => none) i (some (default i)) := by
    intro log
    funext j
    unfold St.view St.setH
    by_cases hj : j = i
    · subst hj; simp
    · simp [Function.update_of_ne hj]
  have e3 : (({} : St K).setH i {}).putValue b i {} (default i) = raise x { St.setH ({} : St K) i { value := some (default i) } with log := [(.owner, .value i)] } := by
    unfold St.putValue
    rw [setH_setH]
    show St.tell b (.value i) [.owner] _ = _
    unfold St.tell
    simp only [Beh.react]
    rw [hview, hx]
    rfl
  have e4 : ({} : St K).op b default (.read i) = raise x { St.setH ({} : St K) i { value := some (default i) } with log := [(.owner, .value i)] } := by
    show (({} : St K).setH i {}).fixH b i {} (some (default i)) = _
    show ((({} : St K).setH i {}).putValue b i {} (default i)).andThen _ = _
    rw [e3]
    rfl
  refine ⟨_, e4, ?_, ?_, ?_, ?_⟩
  · rw [hview]; simp
  · simp [St.setH]
  · simp [St.op, St.access, St.setH]
  · simp [St.op, St.onH, St.access, St.setH, Res.andThen, St.fixH]

/-- The hypothesis of the last two theorems is met: two parameters must not add up to more than one. -/
example : ∃ b : Beh ℚ, ∃ s, Reach b (fun _ => 2 / 5) s ∧ (s.h 0).map PS.listeners = some [.owner] ∧ (s.op b (fun _ => 2 / 5) (.assign 0 (4 / 5))).2 = some .param ∧
    (s.op b (fun _ => 2 / 5) (.assign 0 (4 / 5))).1.view 0 = some (4 / 5) :=
  ⟨{ hook := fun _ v => match v 0, v 1 with | some x, some y => if x + y > 1 then some .param else none | _, _ => none, other := fun _ _ _ => none },
    St.run _ _ {} [.read 0, .read 1], ⟨_, rfl⟩, by decide +kernel, by decide +kernel, by decide +kernel⟩

/-- **C110 fails for removing a listener**: `del_listener` always raises AttributeError, and the object goes on listening. -/
theorem C110_violated_del {b : Beh K} {default : ℕ → K} {s : St K} (hs : Reach b default s) {i : ℕ} {hd : PS K} (h : s.h i = some hd) (n : ℕ) :
    s.op b default (.delListener i n) = (s, some .attribute) := by
  simp [St.op, St.onH, access_some b default hs.good h, h, Res.andThen]

/-- **C110 fails for a listener with the documented methods** (`on_param_change`, `on_param_use`): every later assignment raises AttributeError, because other methods are called, and leaves the new value with the old status. -/
theorem C110_violated_documented {b : Beh K} (hook : ∀ i v, b.hook i v = none) {default : ℕ → K} {s : St K} {i : ℕ} {hd : PS K} (h : s.h i = some hd) (n : ℕ)
    (hn : ∀ e v, b.other n e v = some .attribute) (hl : hd.listeners = [.owner, .other n]) (v : K) (hv : ∀ lo hi, hd.bounds = some (lo, hi) → lo ≤ v ∧ v ≤ hi) :
    (s.op b default (.assign i v)).2 = some .attribute ∧ (s.op b default (.assign i v)).1.h i = some { hd with value := some v } := by
  have e2 : s.fixH b i hd (some v) = (s.putValue b i hd v).andThen fun s => s.setStatus b i { hd with value := some v } .fixed := by
    unfold St.fixH
    cases hbd : hd.bounds with
    | none => rfl
    | some p =>
      obtain ⟨lo, hi⟩ := p
      exact if_pos (hv lo hi hbd)
  have e3 : s.putValue b i hd v = raise .attribute { s.setH i { hd with value := some v } with log := s.log ++ [(.owner, .value i)] ++ [(.other n, .value i)] } := by
    unfold St.putValue
    rw [hl]
    simp [St.tell, Beh.react, hook, hn, St.setH]
  have e1 : s.op b default (.assign i v) = s.fixH b i hd (some v) := by simp [St.op, St.assign, h]
  rw [e1, e2, e3]
  simp [Res.andThen, St.setH]

/-- A state with two listeners beside the owner, one of them added twice, and what they hear. -/
example : let b : Beh ℚ := { hook := fun _ _ => none, other := fun _ _ _ => none }
    let s := St.run b (fun _ => 1) {} [.addListener 0 7, .addListener 0 8, .addListener 0 7, .vary 0 (some 3) (some 1) (some (0, 5)), .setValue 0 9, .fix 0 (some 2), .delListener 0 7, .assign 0 4]
    heard s.log (.other 7) 0 = [.status 0 .fixed .varying, .value 0, .value 0, .status 0 .varying .fixed, .value 0, .status 0 .fixed .fixed] ∧ (s.h 0).map PS.listeners = some [.owner, .other 7, .other 8] := by
  decide +kernel

end Verif.Pie.Listen
