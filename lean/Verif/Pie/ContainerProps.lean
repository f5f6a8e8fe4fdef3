import Verif.Pie.Container
import Mathlib.Algebra.Order.Field.Rat
import Mathlib.Data.List.Induction
import Mathlib.Tactic.Linarith

/-!
# C217: what a snapshot container holds, whatever is stored in it
-/

namespace Verif.Pie.Container

variable {K : Type}

theorem run_snoc (c : Cont K) (l : List (Entry K)) (e : Entry K) : c.run (l ++ [e]) = ((c.run l).put e).1 := by
  induction l generalizing c with
  | nil => rfl
  | cons x l ih => exact ih _

theorem firsts_snoc (seen : List String) (l : List (Entry K)) (e : Entry K) :
    firsts seen (l ++ [e]) = firsts seen l ++ if e.name ∈ seen ∨ e.name ∈ l.map (·.name) then [] else [e] := by
  induction l generalizing seen with
  | nil => by_cases h : e.name ∈ seen <;> simp [firsts, h]
  | cons x l ih =>
    by_cases h : x.name ∈ seen
    · have h' : (e.name ∈ seen ∨ e.name ∈ (x :: l).map (·.name)) ↔ (e.name ∈ seen ∨ e.name ∈ l.map (·.name)) := by
        simp only [List.map_cons, List.mem_cons]
        constructor
        · rintro (a | a | a)
          exacts [.inl a, .inl (a ▸ h), .inr a]
        · rintro (a | a)
          exacts [.inl a, .inr (.inr a)]
      simp only [List.cons_append, firsts, h, if_true, ih, h']
    · have h' : (e.name ∈ seen ∨ e.name ∈ (x :: l).map (·.name)) ↔
          (e.name ∈ x.name :: seen ∨ e.name ∈ l.map (·.name)) := by
        simp only [List.map_cons, List.mem_cons]; tauto
      simp only [List.cons_append, firsts, h, if_false, ih, h', List.cons_append]

theorem mem_firsts (l : List (Entry K)) (n : String) :
    n ∈ (firsts [] l).map (·.name) ↔ n ∈ l.map (·.name) := by
  induction l using List.reverseRecOn with
  | nil => simp [firsts]
  | append_singleton l e ih =>
    rw [firsts_snoc]
    by_cases h : e.name ∈ ([] : List String) ∨ e.name ∈ l.map (·.name)
    · rw [if_pos h, List.append_nil, ih]
      have : e.name ∈ l.map (·.name) := by simpa using h
      simp only [List.map_append, List.mem_append]
      refine ⟨.inl, ?_⟩
      rintro (a | a)
      · exact a
      · simp at a; exact a ▸ this
    · rw [if_neg h]; simp only [List.map_append, List.mem_append, ih]

/-- The state of a container after a history without reserved names. -/
structure Holds (c : Cont K) (f : List (Entry K)) : Prop where
  names : c.names = .own (f.map (·.name))
  docs : c.docs = .own (f.map fun e => (e.name, e.doc))
  store : c.store = none
  attrs : ∀ e ∈ f, c.attrs e.name = some e.value
  other : ∀ n, n ∉ f.map (·.name) → c.attrs n = none

theorem Holds.put_new {c : Cont K} {f : List (Entry K)} (h : Holds c f) {e : Entry K} (hr : ¬ reserved e.name)
    (hn : e.name ∉ f.map (·.name)) : (c.put e).2 = none ∧ Holds (c.put e).1 (f ++ [e]) := by
  obtain ⟨h1, h2, h3, h4, h5⟩ := h
  simp only [reserved, not_or] at hr
  have e1 : c.put e = ({ c with
      names := .own (f.map (·.name) ++ [e.name])
      docs := .own ((f.map fun e => (e.name, e.doc)) ++ [(e.name, e.doc)])
      attrs := Function.update c.attrs e.name (some e.value) }, none) := by
    simp only [Cont.put, h1, h2, h3, hn, if_false, Cont.setattr, hr.1, hr.2.1, hr.2.2, ok]
  rw [e1]
  refine ⟨rfl, by simp, by simp, h3, ?_, ?_⟩
  · intro x hx
    rcases List.mem_append.1 hx with hx | hx
    · have : x.name ≠ e.name := fun he => hn (he ▸ List.mem_map_of_mem hx)
      simp only [Function.update_of_ne this, h4 x hx]
    · simp at hx; subst hx; simp
  · intro n hn'
    simp only [List.map_append, List.mem_append, not_or] at hn'
    have : n ≠ e.name := by simpa using hn'.2
    simp only [Function.update_of_ne this, h5 n hn'.1]

theorem Holds.put_old {c : Cont K} {f : List (Entry K)} (h : Holds c f) {e : Entry K}
    (hn : e.name ∈ f.map (·.name)) : c.put e = (c, some .param) := by
  simp only [Cont.put, h.names, h.store, hn, if_true, raise]

theorem run_holds (l : List (Entry K)) (hl : ∀ e ∈ l, ¬ reserved e.name) :
    Holds (({} : Cont K).run l) (firsts [] l) := by
  induction l using List.reverseRecOn with
  | nil => exact ⟨rfl, rfl, rfl, by simp [firsts], by simp [Cont.run]⟩
  | append_singleton l e ih =>
    have ih := ih fun x hx => hl x (List.mem_append_left _ hx)
    rw [run_snoc, firsts_snoc]
    by_cases h : e.name ∈ l.map (·.name)
    · rw [if_pos (.inr h), List.append_nil, ih.put_old ((mem_firsts l _).2 h)]
      exact ih
    · rw [if_neg (by simpa using h)]
      exact (ih.put_new (hl e (by simp)) (fun h' => h ((mem_firsts l _).1 h'))).2

theorem lookup_map (f : List (Entry K)) (hd : (f.map (·.name)).Nodup) {e : Entry K} (he : e ∈ f) :
    (f.map fun e => (e.name, e.doc)).lookup e.name = some e.doc := by
  induction f with
  | nil => simp at he
  | cons x f ih =>
    simp only [List.map_cons, List.nodup_cons] at hd
    rcases List.mem_cons.1 he with he | he
    · subst he; simp [List.lookup]
    · have : e.name ≠ x.name := fun h => hd.1 (h ▸ List.mem_map_of_mem he)
      simp only [List.map_cons, List.lookup, beq_eq_false_iff_ne.2 this]
      exact ih hd.2 he

theorem firsts_nodup (l : List (Entry K)) : ((firsts [] l).map (·.name)).Nodup := by
  induction l using List.reverseRecOn with
  | nil => simp [firsts]
  | append_singleton l e ih =>
    rw [firsts_snoc]
    by_cases h : e.name ∈ ([] : List String) ∨ e.name ∈ l.map (·.name)
    · rw [if_pos h, List.append_nil]; exact ih
    · rw [if_neg h, List.map_append, List.nodup_append]
      refine ⟨ih, by simp, ?_⟩
      intro a ha b hb
      simp at hb; subst hb
      rintro rfl
      exact h (.inr ((mem_firsts l _).1 ha))

theorem firsts_mem (l : List (Entry K)) {e : Entry K} (h : e ∈ firsts [] l) : e ∈ l := by
  induction l using List.reverseRecOn with
  | nil => simp [firsts] at h
  | append_singleton l x ih =>
    rw [firsts_snoc] at h
    rcases List.mem_append.1 h with h | h
    · exact List.mem_append_left _ (ih h)
    · split at h
      · simp at h
      · exact List.mem_append_right _ h

theorem Holds.get {c : Cont K} {f : List (Entry K)} (h : Holds c f) (hf : ∀ e ∈ f, ¬ reserved e.name) {e : Entry K}
    (he : e ∈ f) : c.get e.name = some e.value := by
  have hr := hf e he
  simp only [reserved, not_or] at hr
  simp only [Cont.get, hr.1, hr.2.1, hr.2.2, if_false, h.attrs e he]

theorem Holds.textLoop {c : Cont K} {f : List (Entry K)} (h : Holds c f) (hf : ∀ e ∈ f, ¬ reserved e.name)
    (hd : (f.map (·.name)).Nodup) (str : K → String) (strObj : String → String) (g : List (Entry K))
    (hg : ∀ e ∈ g, e ∈ f) (s : String) :
    c.textLoop str strObj (g.map (·.name)) s = .ok (g.foldl (fun s e => s ++ line str e) s) := by
  induction g generalizing s with
  | nil => rfl
  | cons e g ih =>
    have he := hg e (by simp)
    have ht : c.getText str strObj e.name = some (str e.value) := by
      simp only [Cont.getText, h.get hf he]
    simp only [List.map_cons, Cont.textLoop, ht, h.docs, lookup_map f hd he, List.foldl_cons]
    rw [ih fun x hx => hg x (by simp [hx])]
    congr 2
    by_cases hdoc : e.doc = ""
    · simp [line, hdoc, String.append_assoc]
    · simp [line, hdoc, String.append_assoc]

/-- **C217.**  For every history of calls of `store` on a new container, with repeated names or not, whose names are none of `names`, `docs` and `store`: reading a stored name gives the value of its first call (no later call, whether it raised or not, changes it), a name never stored has no value, the next call succeeds if its name is new and raises `ParamError`, changing nothing, if it is not, and `str` gives one line for each different name, in the order of the first calls.  Missing: a parameter of one of those three names (`C217_violated_names`, `C217_violated_docs`, `C217_violated_store`). -/
theorem C217_container_partial (l : List (Entry K)) (hl : ∀ e ∈ l, ¬ reserved e.name) (str : K → String)
    (strObj : String → String) :
    (∀ (k : ℕ) (e : Entry K), l[k]? = some e → (∀ (j : ℕ) (x : Entry K), j < k → l[j]? = some x → x.name ≠ e.name) →
      (({} : Cont K).run l).get e.name = some e.value) ∧
    (∀ n, n ∉ l.map (·.name) → (({} : Cont K).run l).get n = none) ∧
    (∀ e : Entry K, ¬ reserved e.name → e.name ∉ l.map (·.name) → ((({} : Cont K).run l).put e).2 = none) ∧
    (∀ e : Entry K, e.name ∈ l.map (·.name) → (({} : Cont K).run l).put e = (({} : Cont K).run l, some .param)) ∧
    (({} : Cont K).run l).text str strObj = .ok ((firsts [] l).foldl (fun s e => s ++ line str e) "") := by
  have h := run_holds l hl
  have hf : ∀ e ∈ firsts [] l, ¬ reserved e.name := fun e he => hl e (firsts_mem l he)
  refine ⟨?_, ?_, ?_, ?_, ?_⟩
  · intro k e hk hfirst
    refine h.get hf ?_
    clear h hf hl
    induction l using List.reverseRecOn generalizing k with
    | nil => simp at hk
    | append_singleton l x ih =>
      rw [firsts_snoc]
      rcases Nat.lt_or_ge k l.length with hlt | hge
      · refine List.mem_append_left _ (ih k ?_ ?_)
        · rwa [List.getElem?_append_left hlt] at hk
        · intro j y hj hy
          exact hfirst j y hj (by rw [List.getElem?_append_left (hj.trans hlt)]; exact hy)
      · have hk' : k = l.length := by
          have := (List.getElem?_eq_some_iff.1 hk).1
          simp at this; omega
        subst hk'
        simp at hk
        subst hk
        refine List.mem_append_right _ ?_
        rw [if_neg]
        · simp
        · rintro (a | a)
          · simp at a
          · obtain ⟨y, hy, hy'⟩ := List.mem_map.1 a
            obtain ⟨j, hj, hj'⟩ := List.getElem_of_mem hy
            refine hfirst j y hj ?_ hy'
            rw [List.getElem?_append_left hj, List.getElem?_eq_getElem hj, hj']
  · intro n hn
    have ho := h.other n fun h' => hn ((mem_firsts l n).1 h')
    simp only [Cont.get, h.names, h.docs, h.store, ho]
    split_ifs <;> rfl
  · intro e he hn
    exact (h.put_new he fun h' => hn ((mem_firsts l _).1 h')).1
  · intro e he
    exact h.put_old ((mem_firsts l _).2 he)
  · simp only [Cont.text, h.names]
    exact h.textLoop hf (firsts_nodup l) str strObj _ (fun _ h => h) ""

/-- Three calls, one of them repeated: two lines. -/
example : (({} : Cont ℚ).run [⟨"a", "amplitude", 1⟩, ⟨"b", "", 2⟩, ⟨"a", "", 3⟩]).text (fun v => if v = 1 then "1.0" else "2.0") id =
    .ok "a = 1.0 (amplitude)\nb = 2.0\n" ∧ (({} : Cont ℚ).run [⟨"a", "amplitude", 1⟩, ⟨"b", "", 2⟩, ⟨"a", "", 3⟩]).get "a" = some 1 := by
  constructor <;> simp [Cont.run, Cont.put, Cont.setattr, Cont.text, Cont.textLoop, Cont.getText, Cont.get, ok, raise,
    List.lookup, Function.update_apply]

/-- **C217, violated.**  After any history without reserved names, storing a parameter called `names` succeeds, and from then on every call of `store` and every call of `str` raises `TypeError`. -/
theorem C217_violated_names (l : List (Entry K)) (hl : ∀ e ∈ l, ¬ reserved e.name) (d : String) (v : K)
    (e : Entry K) (str : K → String) (strObj : String → String) :
    ((({} : Cont K).run l).put ⟨"names", d, v⟩).2 = none ∧
    (((({} : Cont K).run l).put ⟨"names", d, v⟩).1.put e).2 = some .type ∧
    (((({} : Cont K).run l).put ⟨"names", d, v⟩).1).text str strObj = .error .type := by
  have h := run_holds l hl
  have hn : "names" ∉ (firsts [] l).map (·.name) := by
    intro h'
    obtain ⟨x, hx, hx'⟩ := List.mem_map.1 h'
    exact hl x (firsts_mem l hx) (.inl hx')
  simp [Cont.put, h.names, h.docs, h.store, hn, Cont.setattr, ok, raise, Cont.text]

/-- **C217, violated.**  After any history without reserved names, storing a parameter called `docs` succeeds; then storing any new name raises `TypeError` but the name counts as stored, so that storing it again raises `ParamError` although it has no value; and `str` raises `TypeError`. -/
theorem C217_violated_docs (l : List (Entry K)) (hl : ∀ e ∈ l, ¬ reserved e.name) (d : String) (v : K)
    (e : Entry K) (he : ¬ reserved e.name) (hnew : e.name ∉ l.map (·.name)) (str : K → String)
    (strObj : String → String) :
    ((({} : Cont K).run l).put ⟨"docs", d, v⟩).2 = none ∧
    (((({} : Cont K).run l).put ⟨"docs", d, v⟩).1.put e).2 = some .type ∧
    ((((({} : Cont K).run l).put ⟨"docs", d, v⟩).1.put e).1.put e).2 = some .param ∧
    ((((({} : Cont K).run l).put ⟨"docs", d, v⟩).1.put e).1).get e.name = none ∧
    (((({} : Cont K).run l).put ⟨"docs", d, v⟩).1).text str strObj = .error .type := by
  have h := run_holds l hl
  have hn : "docs" ∉ (firsts [] l).map (·.name) := by
    intro h'
    obtain ⟨x, hx, hx'⟩ := List.mem_map.1 h'
    exact hl x (firsts_mem l hx) (.inr (.inl hx'))
  have hn' : e.name ∉ (firsts [] l).map (·.name) := fun h' => hnew ((mem_firsts l _).1 h')
  have ho := h.other e.name hn'
  simp only [reserved, not_or] at he
  have e1 : (({} : Cont K).run l).put ⟨"docs", d, v⟩ =
      ({ ({} : Cont K).run l with names := .own ((firsts [] l).map (·.name) ++ ["docs"]), docs := .number v }, none) := by
    simp only [Cont.put, h.names, h.docs, h.store, hn, if_false, Cont.setattr, ok]
    simp
  have hin : e.name ∉ (firsts [] l).map (·.name) ++ ["docs"] := by
    simp only [List.mem_append, not_or, List.mem_singleton]
    exact ⟨hn', he.2.1⟩
  rw [e1]
  have e2 : ({ ({} : Cont K).run l with names := .own ((firsts [] l).map (·.name) ++ ["docs"]), docs := .number v } :
      Cont K).put e = ({ ({} : Cont K).run l with
        names := .own ((firsts [] l).map (·.name) ++ ["docs"] ++ [e.name]), docs := .number v }, some .type) := by
    simp only [Cont.put, h.store, hin, if_false, raise]
  refine ⟨rfl, ?_, ?_, ?_, ?_⟩
  · rw [e2]
  · rw [e2]
    simp only [Cont.put, h.store, List.mem_append, List.mem_singleton, or_true, if_true, raise]
  · rw [e2]
    simp only [Cont.get, he.1, he.2.1, he.2.2, if_false, ho]
  · simp only [Cont.text]
    cases hf : firsts [] l with
    | nil =>
      simp [Cont.textLoop, Cont.getText, Cont.get]
    | cons x f =>
      have hx : x ∈ firsts [] l := by rw [hf]; simp
      have hxr := hl x (firsts_mem l hx)
      simp only [reserved, not_or] at hxr
      simp only [List.map_cons, List.cons_append, Cont.textLoop, Cont.getText, Cont.get, hxr.1, hxr.2.1, hxr.2.2,
        if_false, h.attrs x hx]

/-- **C217, violated.**  After any history without reserved names, storing a parameter called `store` succeeds, and then every call of `store` raises `TypeError`: the value has taken the place of the method. -/
theorem C217_violated_store (l : List (Entry K)) (hl : ∀ e ∈ l, ¬ reserved e.name) (d : String) (v : K)
    (e : Entry K) :
    ((({} : Cont K).run l).put ⟨"store", d, v⟩).2 = none ∧
    (((({} : Cont K).run l).put ⟨"store", d, v⟩).1.put e).2 = some .type := by
  have h := run_holds l hl
  have hn : "store" ∉ (firsts [] l).map (·.name) := by
    intro h'
    obtain ⟨x, hx, hx'⟩ := List.mem_map.1 h'
    exact hl x (firsts_mem l hx) (.inr (.inr hx'))
  simp [Cont.put, h.names, h.docs, h.store, hn, Cont.setattr, ok, raise]

end Verif.Pie.Container
