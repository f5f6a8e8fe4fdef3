import Verif.Pie.PredCopy
import Mathlib.Data.List.Nodup

/-!
# C214: predictors with parameters of their own
-/

namespace Verif.Pie.PredCopy

variable {K : Type}

theorem renew_of_not_mem (vals : ℕ → K) (es : List (String × Entry K)) (c : String → Option K) (k : String) (h : ∀ i, (k, Entry.param i) ∉ es) : renew vals es c k = c k := by
  induction es generalizing c with
  | nil => rfl
  | cons e es ih =>
    obtain ⟨k', e⟩ := e
    have hr : ∀ i, (k, Entry.param i) ∉ es := fun i hi => h i (List.mem_cons_of_mem _ hi)
    cases e with
    | plain v => exact ih _ hr
    | param i =>
      rw [renew, ih _ hr, Function.update_of_ne]
      rintro rfl
      exact h i List.mem_cons_self

theorem renew_of_mem (vals : ℕ → K) (es : List (String × Entry K)) (hn : (es.map Prod.fst).Nodup) (c : String → Option K) (k : String) (i : ℕ) (h : (k, Entry.param i) ∈ es) :
    renew vals es c k = some (vals i) := by
  induction es generalizing c with
  | nil => cases h
  | cons e es ih =>
    obtain ⟨k', e⟩ := e
    rw [List.map_cons, List.nodup_cons] at hn
    rcases List.mem_cons.mp h with h' | h'
    · obtain ⟨rfl, rfl⟩ := Prod.mk.inj h'
      rw [renew, renew_of_not_mem]
      · simp
      · intro j hj
        exact hn.1 (List.mem_map.mpr ⟨_, hj, rfl⟩)
    · cases e <;> exact ih hn.2 _ h'

theorem change_dict (hook : ℕ → (ℕ → K) → Option Err) (s : St K) (i : ℕ) (v : K) : (s.change hook i v).1.dict = s.dict := by
  unfold St.change; dsimp only; split
  · rfl
  · split <;> rfl

theorem change_vals (hook : ℕ → (ℕ → K) → Option Err) (s : St K) (i : ℕ) (v : K) : (s.change hook i v).1.vals = Function.update s.vals i v := by
  unfold St.change; dsimp only; split
  · rfl
  · split <;> rfl

theorem run_dict (hook : ℕ → (ℕ → K) → Option Err) (s : St K) (os : List (ℕ × K)) : (s.run hook os).dict = s.dict := by
  induction os generalizing s with
  | nil => rfl
  | cons o os ih => rw [St.run, ih, change_dict]

theorem listens_of_mem (s : St K) (k : String) (i : ℕ) (h : (k, Entry.param i) ∈ s.dict) : s.listens i = true := by
  simp only [St.listens, List.any_eq_true]
  exact ⟨_, h, by simp⟩

/-- Every copy is the value of its parameter. -/
def Current (s : St K) : Prop := ∀ k i, (k, Entry.param i) ∈ s.dict → s.get k = .ok (.plain (s.vals i))

theorem current_of (s : St K) (h : ∀ k i, (k, Entry.param i) ∈ s.dict → s.copies k = some (s.vals i)) : Current s := by
  intro k i hk
  simp [St.get, h k i hk]

theorem copies_of (s : St K) (hs : Current s) (hc : ∀ k i, (k, Entry.param i) ∈ s.dict → (s.copies k).isSome) (k : String) (i : ℕ) (hk : (k, Entry.param i) ∈ s.dict) : s.copies k = some (s.vals i) := by
  have h1 := hs k i hk
  obtain ⟨v, hv⟩ := Option.isSome_iff_exists.mp (hc k i hk)
  simp only [St.get, hv, Except.ok.injEq, Entry.plain.injEq] at h1
  rw [hv, h1]

/-- A change about which the owner does not complain. -/
theorem change_copies (hook : ℕ → (ℕ → K) → Option Err) (s : St K) (hn : (s.dict.map Prod.fst).Nodup) (j : ℕ) (v : K) (hq : (s.change hook j v).2 = none)
    (hs : (∃ k, (k, Entry.param j) ∈ s.dict) ∨ ∀ k i, (k, Entry.param i) ∈ s.dict → s.copies k = some (s.vals i)) (k : String) (i : ℕ) (hk : (k, Entry.param i) ∈ s.dict) :
    (s.change hook j v).1.copies k = some (Function.update s.vals j v i) := by
  unfold St.change at hq ⊢
  dsimp only at hq ⊢
  split at hq
  · cases hq
  · rename_i e
    by_cases hl : ({ s with vals := Function.update s.vals j v } : St K).listens j = true
    · rw [if_pos hl]
      exact renew_of_mem _ _ hn _ _ _ hk
    · rw [if_neg hl]
      have hj : ∀ k, (k, Entry.param j) ∉ s.dict := fun k' hk' => hl (listens_of_mem _ k' j hk')
      rcases hs with ⟨k', hk'⟩ | hs
      · exact absurd hk' (hj k')
      · have : i ≠ j := by rintro rfl; exact hj k hk
        rw [Function.update_of_ne this]
        exact hs k i hk

/-- **C214** (partial).  If the owner does not complain about a change, then after any changes of any parameters every parameter of the predictor, read through it, has the value it has in the owner, and the owner's values are those last set.
Missing: owners that complain (`C214_violated_stale`). -/
theorem C214_copies_partial (hook : ℕ → (ℕ → K) → Option Err) (hq : ∀ i f, hook i f = none) (vals : ℕ → K) (dict : List (String × Entry K)) (hn : (dict.map Prod.fst).Nodup) (os : List (ℕ × K)) :
    ((St.create vals dict).run hook os).vals = os.foldl (fun f o => Function.update f o.1 o.2) vals ∧
    ∀ k i, (k, Entry.param i) ∈ dict → ((St.create vals dict).run hook os).get k = .ok (.plain (((St.create vals dict).run hook os).vals i)) := by
  have key : ∀ (os : List (ℕ × K)) (s : St K), s.dict = dict → (∀ k i, (k, Entry.param i) ∈ s.dict → s.copies k = some (s.vals i)) →
      (s.run hook os).vals = os.foldl (fun f o => Function.update f o.1 o.2) s.vals ∧ ∀ k i, (k, Entry.param i) ∈ dict → (s.run hook os).get k = .ok (.plain ((s.run hook os).vals i)) := by
    intro os
    induction os with
    | nil => intro s hd hs; exact ⟨rfl, hd ▸ current_of s hs⟩
    | cons o os ih =>
      intro s hd hs
      have hok : (s.change hook o.1 o.2).2 = none := by
        unfold St.change; simp only [hq]; split <;> rfl
      have := ih (s.change hook o.1 o.2).1 (by rw [change_dict, hd]) (by
        intro k i hk
        rw [change_dict] at hk
        rw [change_copies hook s (hd ▸ hn) o.1 o.2 hok (Or.inr hs) k i hk, change_vals])
      rw [change_vals] at this
      exact this
  exact key os _ rfl fun k i hk => renew_of_mem _ _ hn _ _ _ hk

/-- **C214, recovery.**  Whatever happened before and whatever the owner complained about, a change of any parameter of the predictor about which it does not complain makes all copies right. -/
theorem C214_heals (hook : ℕ → (ℕ → K) → Option Err) (vals : ℕ → K) (dict : List (String × Entry K)) (hn : (dict.map Prod.fst).Nodup) (os : List (ℕ × K)) (j : ℕ) (v : K) (k₀ : String)
    (hj : (k₀, Entry.param j) ∈ dict) (hq : (((St.create vals dict).run hook os).change hook j v).2 = none) :
    ∀ k i, (k, Entry.param i) ∈ dict →
      (((St.create vals dict).run hook os).change hook j v).1.get k = .ok (.plain ((((St.create vals dict).run hook os).change hook j v).1.vals i)) := by
  have hd : ((St.create vals dict).run hook os).dict = dict := run_dict ..
  generalize (St.create vals dict).run hook os = s at hq hd ⊢
  subst hd
  intro k i hk
  simp only [St.get, change_copies hook s hn j v hq (Or.inl ⟨k₀, hj⟩) k i hk, change_vals]

/-- **C214 is violated.**  If the owner raises an exception when told of a value, the parameter has that value, but the predictor goes on with the old one. -/
theorem C214_violated_stale (hook : ℕ → (ℕ → K) → Option Err) (vals : ℕ → K) (dict : List (String × Entry K)) (hn : (dict.map Prod.fst).Nodup) (k : String) (i : ℕ) (hk : (k, Entry.param i) ∈ dict) (v : K)
    (hv : v ≠ vals i) (e : Err) (he : hook i (Function.update vals i v) = some e) :
    ((St.create vals dict).change hook i v).2 = some e ∧ ((St.create vals dict).change hook i v).1.vals i = v ∧
    ((St.create vals dict).change hook i v).1.get k = .ok (.plain (vals i)) ∧ vals i ≠ v := by
  have : (St.create vals dict).change hook i v = (⟨Function.update vals i v, dict, (St.create vals dict).copies⟩, some e) := by
    unfold St.change
    simp only [St.create, he, raise]
  rw [this]
  refine ⟨rfl, by simp, ?_, hv.symm⟩
  simp [St.get, St.create, renew_of_mem vals dict hn _ k i hk]

/-- **C214, other attributes.**  What the predictor was given that is not a parameter is read as given; names it does not have raise a `KeyError`, where `AttributeError` is what `getattr` with a default, copying and pickling rely on. -/
theorem C214_violated_missing (hook : ℕ → (ℕ → K) → Option Err) (vals : ℕ → K) (dict : List (String × Entry K)) (hn : (dict.map Prod.fst).Nodup) (os : List (ℕ × K)) (k : String) :
    (∀ v, (k, Entry.plain v) ∈ dict → ((St.create vals dict).run hook os).get k = .ok (.plain v)) ∧
    (k ∉ dict.map Prod.fst → ((St.create vals dict).run hook os).get k = .error .key) := by
  have hc : ∀ (os : List (ℕ × K)) (s : St K), s.dict = dict → (∀ i, (k, Entry.param i) ∉ dict) → s.copies k = none → (s.run hook os).copies k = none := by
    intro os
    induction os with
    | nil => intro s _ _ h; exact h
    | cons o os ih =>
      intro s hd hi h
      refine ih _ (by rw [change_dict, hd]) hi ?_
      unfold St.change; dsimp only
      split
      · exact h
      · split
        · simp only [ok]
          rw [renew_of_not_mem _ _ _ _ (by simpa [hd] using hi)]
          exact h
        · exact h
  have hd : ((St.create vals dict).run hook os).dict = dict := run_dict ..
  constructor
  · intro v hv
    have hi : ∀ i, (k, Entry.param i) ∉ dict := by
      intro i hi
      have := List.inj_on_of_nodup_map hn hi hv rfl
      simp at this
    have hl : dict.lookup k = some (.plain v) := by
      clear hi hc hd
      induction dict with
      | nil => cases hv
      | cons a d ih =>
        obtain ⟨k', e⟩ := a
        rw [List.map_cons, List.nodup_cons] at hn
        rcases List.mem_cons.mp hv with h | h
        · obtain ⟨rfl, rfl⟩ := Prod.mk.inj h
          simp [List.lookup]
        · have : k ≠ k' := by rintro rfl; exact hn.1 (List.mem_map.mpr ⟨_, h, rfl⟩)
          rw [List.lookup_cons, beq_false_of_ne this]
          exact ih hn.2 h
    simp [St.get, hc os (St.create vals dict) rfl hi (renew_of_not_mem _ _ _ _ hi), hd, hl]
  · intro hk
    have hi : ∀ i, (k, Entry.param i) ∉ dict := fun i hi => hk (List.mem_map.mpr ⟨_, hi, rfl⟩)
    have hl : dict.lookup k = none := by
      rw [List.lookup_eq_none_iff]
      intro p hp
      simp only [beq_eq_false_iff_ne, ne_eq, bne_iff_ne]
      rintro rfl
      exact hk (List.mem_map.mpr ⟨_, hp, rfl⟩)
    simp [St.get, hc os (St.create vals dict) rfl hi (renew_of_not_mem _ _ _ _ hi), hd, hl]

/-- A predictor with two parameters and a document string meets the hypotheses. -/
example : (([("sigfac", .param 0), ("doc", .plain 7), ("tau", .param 3)] : List (String × Entry ℚ)).map Prod.fst).Nodup ∧ ("tau", Entry.param 3) ∈ ([("sigfac", .param 0), ("doc", .plain 7), ("tau", .param 3)] : List (String × Entry ℚ)) := by
  refine ⟨by decide, by simp⟩

end Verif.Pie.PredCopy
