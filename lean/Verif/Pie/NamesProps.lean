import Verif.Pie.Names
import Mathlib.Data.List.Nodup
import Mathlib.Data.List.Perm.Basic
import Mathlib.Data.List.Infix
import Mathlib.Tactic.Ring
import Mathlib.Tactic.Linarith

/-!
# C17, C18: order of parameter names; class definitions
-/

set_option linter.unusedSectionVars false
set_option linter.unusedSimpArgs false

namespace Verif.Pie

/-- An identifier contains neither a blank nor an equals sign. -/
def Ident (p : Str) : Prop := ' ' ∉ p ∧ '=' ∉ p

/-- The source line assigns `p`: apart from white space at its ends it begins with `p =` or `p=`. -/
def Assigns (p line : Str) : Prop := ∃ rest, strip line = p ++ ' ' :: '=' :: rest ∨ strip line = p ++ '=' :: rest

/-- The number of the first line that assigns `p` (the number of lines if none does). -/
noncomputable def firstLine (src : List Str) (p : Str) : ℕ := open Classical in src.findIdx fun l => Assigns p l

/-- `out` is `names` in source order: the same names, by increasing number of the first line that assigns them. -/
def SourceOrder (src names out : List Str) : Prop :=
  out.Perm names ∧ out.Pairwise fun p q => firstLine src p < firstLine src q

/-! ### Helpers -/

theorem starts_iff (line p : Str) : starts (strip line) p = true ↔ Assigns p line := by
  unfold starts Assigns
  simp only [Bool.or_eq_true, List.isPrefixOf_iff_prefix]
  constructor
  · rintro (⟨r, h⟩ | ⟨r, h⟩)
    · exact ⟨r, Or.inl (by rw [← h]; simp)⟩
    · exact ⟨r, Or.inr (by rw [← h]; simp)⟩
  · rintro ⟨r, h | h⟩
    · exact Or.inl ⟨r, by rw [h]; simp⟩
    · exact Or.inr ⟨r, by rw [h]; simp⟩

theorem takeWhile_ident (p : Str) (hp : Ident p) (c : Char) (rest : Str) (hc : c = ' ' ∨ c = '=') :
    (p ++ c :: rest).takeWhile (fun c => c ≠ ' ' && c ≠ '=') = p := by
  induction p with
  | nil => rcases hc with rfl | rfl <;> simp
  | cons a p ih =>
    obtain ⟨h1, h2⟩ := hp
    simp only [List.mem_cons, not_or] at h1 h2
    have : (a ≠ ' ' && a ≠ '=') = true := by simp [Ne.symm h1.1, Ne.symm h2.1]
    rw [List.cons_append, List.takeWhile_cons, if_pos this, ih ⟨h1.2, h2.2⟩]

/-- A line assigns at most one name. -/
theorem assigns_unique {p q line : Str} (hp : Ident p) (hq : Ident q) (h1 : Assigns p line) (h2 : Assigns q line) :
    p = q := by
  have key : ∀ p, Ident p → Assigns p line → (strip line).takeWhile (fun c => c ≠ ' ' && c ≠ '=') = p := by
    intro p hp ⟨r, h⟩
    rcases h with h | h
    · rw [h]; exact takeWhile_ident p hp _ _ (Or.inl rfl)
    · rw [h]; exact takeWhile_ident p hp _ _ (Or.inr rfl)
  rw [← key p hp h1, ← key q hq h2]

theorem scanLine_none (line : Str) (names : List Str) (i : ℕ) (out : List Str)
    (h : ∀ j (hj : j < names.length), i ≤ j → starts line names[j] = false) :
    scanLine line names i out = (names, out) := by
  unfold scanLine
  split_ifs with h1 h2
  · rw [h i h1 (le_refl _)] at h2; simp at h2
  · exact scanLine_none line names (i + 1) out fun j hj hi => h j hj (by omega)
  · rfl
termination_by names.length - i

/-- Scanning a line finds the one name it assigns, if it is there. -/
theorem scanLine_some (line : Str) (names : List Str) (i : ℕ) (out : List Str) (hnd : names.Nodup) (hid : ∀ p ∈ names, Ident p)
    (k : ℕ) (hk : k < names.length) (hik : i ≤ k) (hm : starts (strip line) names[k] = true) :
    scanLine (strip line) names i out = (names.erase names[k], out ++ [names[k]]) := by
  have uniq : ∀ q ∈ names, starts (strip line) q = true → q = names[k] := fun q hq h =>
    assigns_unique (hid q hq) (hid _ (List.getElem_mem hk)) ((starts_iff _ _).mp h) ((starts_iff _ _).mp hm)
  unfold scanLine
  have hi : i < names.length := by omega
  rw [dif_pos hi]
  by_cases h2 : starts (strip line) names[i] = true
  · rw [if_pos h2]
    have e := uniq _ (List.getElem_mem hi) h2
    rw [e]
    refine scanLine_none _ _ _ _ fun j hj _ => ?_
    by_contra hc
    have hmem := List.getElem_mem hj
    have := uniq _ (List.mem_of_mem_erase hmem) (by simpa using hc)
    rw [this] at hmem
    exact (hnd.not_mem_erase) hmem
  · rw [if_neg h2]
    have hne : i ≠ k := by rintro rfl; exact h2 hm
    exact scanLine_some line names (i + 1) out hnd hid k hk (by omega) hm
termination_by names.length - i

theorem scan_out (src : List Str) : ∀ (names out : List Str), scan src names out = ((scan src names []).1, out ++ (scan src names []).2) := by
  have h0 : ∀ (line : Str) (names : List Str) (i : ℕ) (out : List Str),
      scanLine line names i out = ((scanLine line names i []).1, out ++ (scanLine line names i []).2) := by
    intro line names i out
    induction hn : names.length - i using Nat.strong_induction_on generalizing names i out with
    | _ n ih =>
      unfold scanLine
      split_ifs with h1 h2
      · have hl := List.length_erase_le (a := names[i]) (l := names)
        have hl' := List.length_erase_of_mem (List.getElem_mem h1)
        rw [ih _ (by omega) _ (i + 1) (out ++ [names[i]]) rfl, ih _ (by omega) _ (i + 1) ([] ++ [names[i]]) rfl]
        simp
      · exact ih _ (by omega) _ _ _ rfl
      · simp
  induction src with
  | nil => intro names out; simp [scan]
  | cons line src ih =>
    intro names out
    simp only [scan]
    rw [h0 _ _ _ out]
    dsimp only
    rw [ih _ (out ++ _), ih _ (scanLine (strip line) names 0 []).2]
    simp

theorem firstLine_pos {line : Str} {src : List Str} {p : Str} (h : ¬Assigns p line) :
    firstLine (line :: src) p = firstLine src p + 1 := by
  unfold firstLine; rw [List.findIdx_cons]; simp [h]

theorem firstLine_zero {line : Str} {src : List Str} {p : Str} (h : Assigns p line) : firstLine (line :: src) p = 0 := by
  unfold firstLine; rw [List.findIdx_cons]; simp [h]

theorem firstLine_found {src : List Str} {p : Str} : (∃ l ∈ src, Assigns p l) ↔ firstLine src p < src.length := by
  unfold firstLine
  rw [List.findIdx_lt_length]
  simp

/-- What a scan of the source does. -/
theorem scan_spec (src : List Str) : ∀ (names : List Str), names.Nodup → (∀ p ∈ names, Ident p) →
    (scan src names []).2.Perm (names.filter fun p => decide (firstLine src p < src.length)) ∧
    (scan src names []).2.Pairwise (fun p q => firstLine src p < firstLine src q) ∧
    (scan src names []).1.Perm (names.filter fun p => decide (¬firstLine src p < src.length)) := by
  induction src with
  | nil => intro names _ _; simp [scan, firstLine]
  | cons line src ih =>
    intro names hnd hid
    simp only [scan]
    by_cases hex : ∃ p ∈ names, Assigns p line
    · obtain ⟨p, hp, hpa⟩ := hex
      obtain ⟨k, hk, rfl⟩ := List.mem_iff_getElem.mp hp
      rw [scanLine_some line names 0 [] hnd hid k hk (by omega) ((starts_iff _ _).mpr hpa)]
      dsimp only
      rw [scan_out]
      dsimp only
      have hother : ∀ q ∈ names.erase names[k], ¬Assigns q line := by
        intro q hq hqa
        have := assigns_unique (hid q (List.mem_of_mem_erase hq)) (hid _ hp) hqa hpa
        subst this
        exact hnd.not_mem_erase hq
      have hfl : ∀ q ∈ names.erase names[k], firstLine (line :: src) q = firstLine src q + 1 :=
        fun q hq => firstLine_pos (hother q hq)
      obtain ⟨i1, i2, i3⟩ := ih (names.erase names[k]) (hnd.erase _) fun q hq => hid q (List.mem_of_mem_erase hq)
      have hmem : ∀ q ∈ (scan src (names.erase names[k]) []).2, q ∈ names.erase names[k] := fun q hq =>
        List.mem_of_mem_filter (i1.subset hq)
      have hperm := List.perm_cons_erase hp
      have hz := firstLine_zero (src := src) hpa
      refine ⟨?_, ?_, ?_⟩
      · refine List.Perm.trans ?_ (hperm.filter _).symm
        rw [List.filter_cons_of_pos (by simp [hz])]
        simp only [List.nil_append, List.singleton_append]
        refine List.Perm.cons _ (i1.trans ?_)
        refine List.Perm.of_eq (List.filter_congr fun q hq => ?_)
        rw [hfl q hq]; simp
      · simp only [List.nil_append, List.singleton_append, List.pairwise_cons]
        refine ⟨fun q hq => ?_, ?_⟩
        · rw [hz, hfl q (hmem q hq)]; omega
        · refine List.Pairwise.imp_of_mem ?_ i2
          intro a b ha hb hab
          rw [hfl a (hmem a ha), hfl b (hmem b hb)]; omega
      · refine List.Perm.trans i3 ?_
        refine List.Perm.trans ?_ (hperm.filter _).symm
        rw [List.filter_cons_of_neg (by simp [hz])]
        refine List.Perm.of_eq (List.filter_congr fun q hq => ?_)
        rw [hfl q hq]; simp
    · push Not at hex
      rw [scanLine_none (strip line) names 0 [] fun j hj _ => by
        have := hex _ (List.getElem_mem hj)
        rw [← starts_iff] at this
        simpa using this]
      have hfl : ∀ q ∈ names, firstLine (line :: src) q = firstLine src q + 1 := fun q hq => firstLine_pos (hex q hq)
      obtain ⟨i1, i2, i3⟩ := ih names hnd hid
      have hmem : ∀ q ∈ (scan src names []).2, q ∈ names := fun q hq => List.mem_of_mem_filter (i1.subset hq)
      refine ⟨?_, ?_, ?_⟩
      · refine i1.trans (List.Perm.of_eq (List.filter_congr fun q hq => ?_))
        rw [hfl q hq]; simp
      · refine List.Pairwise.imp_of_mem ?_ i2
        intro a b ha hb hab
        rw [hfl a (hmem a ha), hfl b (hmem b hb)]; omega
      · refine i3.trans (List.Perm.of_eq (List.filter_congr fun q hq => ?_))
        rw [hfl q hq]; simp

theorem scan_found {src names : List Str} (hnd : names.Nodup) (hid : ∀ p ∈ names, Ident p)
    (h : ∀ p ∈ names, ∃ l ∈ src, Assigns p l) : ∃ out, scan src names [] = ([], out) ∧ SourceOrder src names out := by
  obtain ⟨h1, h2, h3⟩ := scan_spec src names hnd hid
  have e : (scan src names []).1 = [] := by
    have : names.filter (fun p => decide (¬firstLine src p < src.length)) = [] := by
      rw [List.filter_eq_nil_iff]
      intro p hp
      simpa using firstLine_found.mp (h p hp)
    rw [this] at h3
    exact h3.eq_nil
  refine ⟨(scan src names []).2, Prod.ext e rfl, ?_, h2⟩
  refine h1.trans (List.Perm.of_eq (List.filter_eq_self.mpr fun p hp => ?_))
  simpa using firstLine_found.mp (h p hp)

theorem scan_missing {src names : List Str} (hnd : names.Nodup) (hid : ∀ p ∈ names, Ident p) {p : Str} (hp : p ∈ names)
    (h : ∀ l ∈ src, ¬Assigns p l) : (scan src names []).1 ≠ [] := by
  obtain ⟨_, _, h3⟩ := scan_spec src names hnd hid
  intro e
  rw [e] at h3
  have : p ∈ names.filter (fun p => decide (¬firstLine src p < src.length)) := by
    rw [List.mem_filter]
    refine ⟨hp, ?_⟩
    have : ¬firstLine src p < src.length := fun hc => by
      obtain ⟨l, hl, ha⟩ := firstLine_found.mpr hc
      exact h l hl ha
    simpa using this
  have := h3.symm.subset this
  simp at this

/-! ### C17 -/

/-- **C17.** Let the source of the signal model and of the predictor set be available, their parameter and predictor names
be distinct identifiers, every one of them assigned on some line of its class's source. Then creating the inference
succeeds; its `params` are exactly the signal model's parameters in source order followed by the predictor set's in
source order, and `predictors` the predictors in source order. -/
theorem C17_source_order (ssrc psrc snames pnames preds : List Str) (pp : Option (List Str)) (hpp : pp.getD [] = pnames)
    (hnd : (snames ++ pnames).Nodup) (hndp : preds.Nodup) (hid : ∀ p ∈ snames ++ pnames ++ preds, Ident p)
    (hs : ∀ p ∈ snames, ∃ l ∈ ssrc, Assigns p l) (hp : ∀ p ∈ pnames, ∃ l ∈ psrc, Assigns p l)
    (hq : ∀ p ∈ preds, ∃ l ∈ psrc, Assigns p l) :
    ∃ so po qo, (initNames (some ⟨some snames, none, some ssrc⟩) (some ⟨pp, some preds, some psrc⟩)).2 = .ok (so ++ po, qo) ∧
      SourceOrder ssrc snames so ∧ SourceOrder psrc pnames po ∧ SourceOrder psrc preds qo := by
  obtain ⟨so, e1, h1⟩ := scan_found (List.Nodup.of_append_left hnd) (fun p h => hid p (by simp [h])) hs
  obtain ⟨po, e2, h2⟩ := scan_found (List.Nodup.of_append_right hnd) (fun p h => hid p (by simp [h])) hp
  obtain ⟨qo, e3, h3⟩ := scan_found hndp (fun p h => hid p (by simp [h])) hq
  refine ⟨so, po, qo, ?_, h1, h2, h3⟩
  have hr : (if pnames = [] then (([], []) : List Str × List Str) else scan psrc pnames []) = ([], po) := by
    split_ifs with h
    · subst h
      rw [h2.1.eq_nil]
    · exact e2
  have hnod : (so ++ po).Nodup := ((h1.1.append h2.1).nodup_iff).mpr hnd
  simp only [initNames, getSignalNames, getPredNames, e1, hpp, hr, e3]
  simp [hnod]

/-- **C17, a parameter that is not assigned on a line of its own.** The error this raises internally is swallowed: the
inference is created without complaint and *none* of the signal model's parameters is in `params`. -/
theorem C17_missing_is_silent (ssrc psrc snames preds : List Str) (hnd : snames.Nodup) (hndp : preds.Nodup)
    (hid : ∀ p ∈ snames ++ preds, Ident p) (hq : ∀ p ∈ preds, ∃ l ∈ psrc, Assigns p l)
    (p : Str) (hp : p ∈ snames) (hmiss : ∀ l ∈ ssrc, ¬Assigns p l) :
    ∃ qo, (initNames (some ⟨some snames, none, some ssrc⟩) (some ⟨none, some preds, some psrc⟩)).2 = .ok ([], qo) := by
  obtain ⟨qo, e3, _⟩ := scan_found hndp (fun p h => hid p (by simp [h])) hq
  have h1 := scan_missing hnd (fun p h => hid p (by simp [h])) hp hmiss
  refine ⟨qo, ?_⟩
  have : getSignalNames ⟨some snames, none, some ssrc⟩ snames = .error .inference := by
    unfold getSignalNames
    dsimp only
    generalize scan ssrc snames [] = r at h1
    obtain ⟨_ | ⟨a, l⟩, out⟩ := r
    · simp at h1
    · rfl
  simp only [initNames, this, getPredNames, e3]
  simp

/-- **C17, without source.** If the signal model's source cannot be found, the inference's `params` list is the class's own
list: parameters of the predictor set are appended to the *class's* parameter names, so that creating a second inference
fails with the duplicate-name error. -/
theorem C17_no_source (psrc snames pnames preds : List Str) (hne : pnames ≠ [])
    (hnd : (snames ++ pnames).Nodup) (hndp : preds.Nodup) (hid : ∀ p ∈ snames ++ pnames ++ preds, Ident p)
    (hp : ∀ p ∈ pnames, ∃ l ∈ psrc, Assigns p l) (hq : ∀ p ∈ preds, ∃ l ∈ psrc, Assigns p l) :
    let pred : Mixin := ⟨some pnames, some preds, some psrc⟩
    let r := initNames (some ⟨some snames, none, none⟩) (some pred)
    (∃ po qo, r.2 = .ok (snames ++ po, qo) ∧ po.Perm pnames ∧ r.1 = some (snames ++ po)) ∧
    (initNames (some ⟨r.1, none, none⟩) (some pred)).2 = .error .inference := by
  obtain ⟨po, e2, h2⟩ := scan_found (List.Nodup.of_append_right hnd) (fun p h => hid p (by simp [h])) hp
  obtain ⟨qo, e3, h3⟩ := scan_found hndp (fun p h => hid p (by simp [h])) hq
  have hnod : (snames ++ po).Nodup := (((List.Perm.refl snames).append h2.1).nodup_iff).mpr hnd
  have hr : (initNames (some ⟨some snames, none, none⟩) (some ⟨some pnames, some preds, some psrc⟩)) =
      (some (snames ++ po), .ok (snames ++ po, qo)) := by
    simp [initNames, getSignalNames, getPredNames, hne, e2, e3, hnod]
  intro pred r
  have hr' : r = (some (snames ++ po), .ok (snames ++ po, qo)) := hr
  refine ⟨⟨po, qo, by rw [hr'], h2.1, by rw [hr']⟩, ?_⟩
  rw [hr']
  have hpo : po ≠ [] := fun h => hne (by rw [h] at h2; exact h2.1.symm.eq_nil)
  obtain ⟨a, l, rfl⟩ := List.exists_cons_of_ne_nil hpo
  have hdup : ¬(snames ++ (a :: l) ++ (a :: l)).Nodup := by
    intro h
    rw [List.nodup_append] at h
    exact h.2.2 a (by simp) a (by simp) rfl
  show (initNames (some ⟨some (snames ++ (a :: l)), none, none⟩) (some ⟨some pnames, some preds, some psrc⟩)).2 = _
  have e4 : getPredNames ⟨some pnames, some preds, some psrc⟩ pnames = .ok (a :: l, qo) := by
    simp [getPredNames, hne, e2, e3]
  simp only [initNames, getSignalNames, Option.getD_some, e4]
  rw [if_neg hdup]

/-- Non-vacuity: a source with comments, white space, and names that are prefixes of one another. -/
example :
    let src := ["class M(SignalModel):", "  ab = RealParam(1.)", "  # a = old", "\ta= RealParam(2.)", "  abc =RealParam(0)"].map String.toList
    let names := ["abc", "a", "ab"].map String.toList
    (initNames (some ⟨some names, none, some src⟩) (some ⟨none, some [], some []⟩)).2.toOption =
      some (["ab", "a", "abc"].map String.toList, []) ∧
    (initNames (some ⟨some (names ++ ["z".toList]), none, some src⟩) (some ⟨none, some [], some []⟩)).2.toOption =
      some ([], []) := by
  constructor <;> decide +kernel

/-! ### C18 -/

/-- **C18 violated.** Defining a subclass `S(B)` with a parameter `b` adds `b` to the parameter names of the base class
`B`; and since `b` is not in the source of `B`, inferences with `B` then silently have no parameters at all. -/
theorem C18_violated :
    let a := "a".toList; let b := "b".toList
    let s := ({} : Classes).run [([], [a])]
    let s' := s.define [0] [b]
    let src := ["class B(SignalModel):", "  a = RealParam(1.)"].map String.toList
    let params := fun s : Classes => (initNames (some ⟨s.paramNames 0, none, some src⟩) (some ⟨none, some [], some []⟩)).2.toOption
    s.paramNames 0 = some [a] ∧ s'.paramNames 0 = some [a, b] ∧ params s = some ([a], []) ∧ params s' = some ([], []) := by
  refine ⟨?_, ?_, ?_, ?_⟩ <;> decide +kernel

/-- Every class that declares parameters itself has no ancestor with parameters, and ancestors are defined earlier. -/
def Separate : Classes → List (List ℕ × List Str) → Prop
  | _, [] => True
  | s, d :: defs =>
    (∀ c ∈ d.1, c < s.cls.length) ∧ (d.2 ≠ [] → ∀ c ∈ d.1, s.paramNames c = none) ∧ Separate (s.define d.1 d.2) defs

/-- Invariant: every recorded list exists. -/
structure ClsInv (s : Classes) : Prop where
  addr : ∀ (c : ℕ) (k : PyClass) (a : ℕ), s.cls[c]? = some k → k.names = some a → a < s.lists.length

theorem lookup_none {s : Classes} (hi : ClsInv s) {mro : List ℕ} (h : ∀ c ∈ mro, c < s.cls.length)
    (hn : ∀ c ∈ mro, s.paramNames c = none) : s.lookup mro = none := by
  unfold Classes.lookup
  rw [List.findSome?_eq_none_iff]
  intro c hc
  have h1 := hn c hc
  have h2 := h c hc
  unfold Classes.paramNames at h1
  rw [List.getElem?_eq_getElem h2] at h1 ⊢
  dsimp only at h1
  simp only [Option.bind_some]
  cases e : s.cls[c].names with
  | none => rfl
  | some a =>
    have := hi.addr c _ a (List.getElem?_eq_getElem h2) e
    rw [e] at h1
    simp only [Option.some_or, Option.bind_some] at h1
    rw [List.getElem?_eq_getElem this] at h1
    simp at h1

/-- Class `c` with its own list `l` last among the lists. -/
structure Own (s0 : Classes) (mro : List ℕ) (l : List Str) (t : Classes) : Prop where
  cls : t.cls = s0.cls ++ [{ mro := mro, names := some s0.lists.length }]
  lists : t.lists = s0.lists ++ [l]

theorem define_own {s : Classes} {mro : List ℕ} (hl : s.lookup mro = none) (hm : ∀ c ∈ mro, c < s.cls.length)
    {n : Str} {names : List Str} :
    Own s mro (n :: names) (s.define mro (n :: names)) := by
  have hcls : ∀ (x : PyClass) (ls : List (List Str)), ({ cls := s.cls ++ [x], lists := ls } : Classes).lookup mro = none := by
    intro x ls
    unfold Classes.lookup at hl ⊢
    rw [List.findSome?_eq_none_iff] at hl ⊢
    intro c hc
    rw [← hl c hc]
    simp [List.getElem?_append_left (hm c hc)]
  unfold Classes.define
  rw [List.foldl_cons]
  have h1 : Own s mro [n] (Classes.report { s with cls := s.cls ++ [{ mro := mro, names := none }] } s.cls.length n) := by
    unfold Classes.report
    simp only [List.getElem?_concat_length, Option.none_or]
    rw [hcls]
    exact ⟨by simp, rfl⟩
  generalize Classes.report { s with cls := s.cls ++ [{ mro := mro, names := none }] } s.cls.length n = t at h1
  have key : ∀ (names pre : List Str) (t : Classes), Own s mro pre t →
      Own s mro (pre ++ names) (names.foldl (fun t n => t.report s.cls.length n) t) := by
    intro names
    induction names with
    | nil => intro pre t h; simpa using h
    | cons m names ih =>
      intro pre t h
      rw [List.foldl_cons]
      have h2 : Own s mro (pre ++ [m]) (t.report s.cls.length m) := by
        unfold Classes.report
        rw [h.cls]
        simp only [List.getElem?_concat_length, Option.some_or]
        refine ⟨rfl, ?_⟩
        dsimp only
        rw [h.lists]
        rw [List.modify_eq_set_getElem?]
        simp
      have := ih (pre ++ [m]) _ h2
      simpa using this
  simpa using key names [n] t h1

/-- **C18 (part).** As long as every class that declares parameters has no ancestor that has any, a class definition
changes the parameter names of no class defined before, and the new class's are exactly those it declares, in order
(or, if it declares none, what it inherits). Missing: classes that add parameters to those of a base class, for which the
property is false (`C18_violated`). -/
theorem C18_definitions_partial (defs : List (List ℕ × List Str)) (mro : List ℕ) (names : List Str)
    (h : Separate {} (defs ++ [(mro, names)])) :
    let s := ({} : Classes).run defs
    (∀ c, c < s.cls.length → (s.define mro names).paramNames c = s.paramNames c) ∧
    (names ≠ [] → (s.define mro names).paramNames s.cls.length = some names) := by
  have step : ∀ (s : Classes) (mro : List ℕ) (names : List Str), ClsInv s →
      (∀ (c : ℕ) (k : PyClass), s.cls[c]? = some k → ∀ b ∈ k.mro, b < c) → (∀ c ∈ mro, c < s.cls.length) →
      (names ≠ [] → ∀ c ∈ mro, s.paramNames c = none) →
      ClsInv (s.define mro names) ∧ (∀ (c : ℕ) (k : PyClass), (s.define mro names).cls[c]? = some k → ∀ b ∈ k.mro, b < c) ∧
      (∀ c, c < s.cls.length → (s.define mro names).paramNames c = s.paramNames c) ∧
      (names ≠ [] → (s.define mro names).paramNames s.cls.length = some names) := by
    intro s mro names hi hmro hm hn
    -- all that is needed of the new state
    obtain ⟨x, ls, hcls, hlists, hx, hxm⟩ : ∃ x ls, (s.define mro names).cls = s.cls ++ [x] ∧
        (s.define mro names).lists = s.lists ++ ls ∧ (∀ a, x.names = some a → a < (s.lists ++ ls).length) ∧ x.mro = mro := by
      cases names with
      | nil => exact ⟨{ mro := mro, names := none }, [], rfl, by simp [Classes.define], by simp, rfl⟩
      | cons n names =>
        have ho := define_own (lookup_none hi hm (hn (by simp))) hm (n := n) (names := names)
        refine ⟨_, _, ho.cls, ho.lists, ?_, rfl⟩
        intro a ha; simp at ha; subst ha; simp
    have hlk : ∀ m : List ℕ, (∀ b ∈ m, b < s.cls.length) → (s.define mro names).lookup m = s.lookup m := by
      intro m hb
      unfold Classes.lookup
      rw [hcls]
      clear hxm
      induction m with
      | nil => rfl
      | cons b m ih =>
        simp only [List.findSome?_cons]
        rw [List.getElem?_append_left (hb b (by simp)), ih fun c hc => hb c (by simp [hc])]
    refine ⟨⟨fun c k a hc ha => ?_⟩, fun c k hc b hb => ?_, fun c hc => ?_, fun hne => ?_⟩
    · rw [hcls] at hc
      rw [hlists]
      by_cases hlt : c < s.cls.length
      · rw [List.getElem?_append_left hlt] at hc
        have := hi.addr c k a hc ha
        rw [List.length_append]; omega
      · rw [List.getElem?_append_right (by omega)] at hc
        have : k = x := by
          cases hcc : c - s.cls.length with
          | zero => rw [hcc] at hc; simpa using hc.symm
          | succ n => rw [hcc] at hc; simp at hc
        subst this
        exact hx a ha
    · rw [hcls] at hc
      by_cases hlt : c < s.cls.length
      · rw [List.getElem?_append_left hlt] at hc
        exact hmro c k hc b hb
      · rw [List.getElem?_append_right (by omega)] at hc
        have : k = x := by
          cases hcc : c - s.cls.length with
          | zero => rw [hcc] at hc; simpa using hc.symm
          | succ n => rw [hcc] at hc; simp at hc
        subst this
        rw [hxm] at hb
        have := hm b hb
        omega
    · unfold Classes.paramNames
      rw [hcls, List.getElem?_append_left hc, List.getElem?_eq_getElem hc]
      dsimp only
      rw [hlk _ fun b hb => by
        have := hmro c _ (List.getElem?_eq_getElem hc) b hb
        omega]
      cases e : s.cls[c].names.or (s.lookup s.cls[c].mro) with
      | none => rfl
      | some a =>
        simp only [Option.bind_some]
        rw [hlists, List.getElem?_append_left]
        cases e2 : s.cls[c].names with
        | some a' =>
          rw [e2] at e; simp at e; subst e
          exact hi.addr c _ a' (List.getElem?_eq_getElem hc) e2
        | none =>
          rw [e2] at e
          simp only [Option.none_or] at e
          unfold Classes.lookup at e
          obtain ⟨b, hb, hb2⟩ := List.exists_of_findSome?_eq_some e
          cases e3 : s.cls[b]? with
          | none => rw [e3] at hb2; simp at hb2
          | some k => rw [e3] at hb2; exact hi.addr b k a e3 hb2
    · cases names with
      | nil => exact absurd rfl hne
      | cons n names =>
        have ho := define_own (lookup_none hi hm (hn (by simp))) hm (n := n) (names := names)
        unfold Classes.paramNames
        rw [ho.cls, ho.lists]
        simp
  have all : ∀ (defs : List (List ℕ × List Str)) (s : Classes), ClsInv s →
      (∀ (c : ℕ) (k : PyClass), s.cls[c]? = some k → ∀ b ∈ k.mro, b < c) → Separate s (defs ++ [(mro, names)]) →
      let t := s.run defs
      (∀ c, c < t.cls.length → (t.define mro names).paramNames c = t.paramNames c) ∧
      (names ≠ [] → (t.define mro names).paramNames t.cls.length = some names) := by
    intro defs
    induction defs with
    | nil =>
      intro s hi hm hsep
      obtain ⟨h1, h2, _⟩ := hsep
      obtain ⟨_, _, h3, h4⟩ := step s mro names hi hm h1 h2
      exact ⟨h3, h4⟩
    | cons d defs ih =>
      intro s hi hm hsep
      obtain ⟨h1, h2, h3⟩ := hsep
      obtain ⟨i1, i2, _, _⟩ := step s d.1 d.2 hi hm h1 h2
      exact ih _ i1 i2 h3
  exact all defs {} ⟨fun c k a h => by simp at h⟩ (fun c k h => by simp at h) h

/-- Non-vacuity: two unrelated models, a parameterless subclass of the first, and a third model. -/
example :
    let defs : List (List ℕ × List Str) := [([], ["a".toList]), ([], ["b".toList, "c".toList]), ([0], [])]
    Separate {} (defs ++ [([], ["d".toList])]) ∧ (({} : Classes).run defs).paramNames 2 = some ["a".toList] ∧
    ((({} : Classes).run defs).define [] ["d".toList]).paramNames 3 = some ["d".toList] := by
  refine ⟨?_, ?_, ?_⟩
  · refine ⟨by simp, by simp, by simp, by simp, ?_, by simp, by simp, by simp, trivial⟩
    intro c hc; simp at hc; subst hc; decide +kernel
  · decide +kernel
  · decide +kernel

end Verif.Pie
