import Verif.Grid.MaxList
import Mathlib.Data.List.Nodup
import Mathlib.Data.List.Pairwise
import Mathlib.Data.List.Infix
import Mathlib.Tactic.Linarith
import Mathlib.Algebra.Order.Ring.Rat

/-!
# C24, C25: the list of maxima
-/

set_option linter.unusedSectionVars false
set_option linter.unusedSimpArgs false

namespace Verif.Grid1

variable {K ι : Type} [Field K] [LinearOrder K]

/-! ### Specification -/

/-- An offer (value and label) together with its arrival number. -/
abbrev Offer (K ι : Type) := (K × ι) × ℕ

/-- One offer ranks before another: a larger value, or the same value offered earlier. -/
def Before (a b : Offer K ι) : Prop := a.1.1 > b.1.1 ∨ (a.1.1 = b.1.1 ∧ a.2 < b.2)

/-- `S` is the list of all offers in order of rank. -/
structure Ranking (os : List (K × ι)) (S : List (Offer K ι)) : Prop where
  perm : S.Perm os.zipIdx
  sorted : S.Pairwise Before

/-- At most `n` elements, if a capacity is given. -/
def takeOpt {α : Type} : Option ℕ → List α → List α
  | none, l => l
  | some n, l => l.take n

/-- The value is within the (logarithmic) range `dyn`, if one is given, of every offered value. -/
def Within (dyn : Option K) (os : List (K × ι)) (v : K) : Prop := ∀ d, dyn = some d → ∀ o ∈ os, o.1 - v ≤ d

/-! ### Helpers -/

variable [IsStrictOrderedRing K]

theorem bisect_spec (q : K) (l : List (K × ι)) (hs : l.Pairwise fun a b => a.1 ≥ b.1) (lo hi : ℕ) (hle : lo ≤ hi) (hhi : hi ≤ l.length)
    (h1 : ∀ i (h : i < l.length), i < lo → q ≤ l[i].1) (h2 : ∀ i (h : i < l.length), hi ≤ i → l[i].1 < q) :
    ∃ p, bisect q l lo hi = some p ∧ p ≤ l.length ∧ (∀ i (h : i < l.length), i < p → q ≤ l[i].1) ∧
      ∀ i (h : i < l.length), p ≤ i → l[i].1 < q := by
  unfold bisect
  split_ifs with h
  · have hm : (lo + hi) / 2 < l.length := by omega
    rw [List.getElem?_eq_getElem hm]
    dsimp only
    have hp := List.pairwise_iff_getElem.mp hs
    split_ifs with hq
    · refine bisect_spec q l hs lo ((lo + hi) / 2) (by omega) (by omega) h1 fun i hi' hge => ?_
      rcases Nat.eq_or_lt_of_le hge with e | e
      · subst e; exact hq
      · exact lt_of_le_of_lt (hp _ _ hm hi' e) hq
    · refine bisect_spec q l hs ((lo + hi) / 2 + 1) hi (by omega) hhi (fun i hi' hlt => ?_) h2
      rcases Nat.eq_or_lt_of_le (Nat.lt_succ_iff.mp hlt) with e | e
      · subst e; exact not_lt.mp hq
      · exact le_trans (not_lt.mp hq) (hp _ _ hi' hm e)
  · exact ⟨lo, rfl, by omega, h1, fun i hi' hge => h2 i hi' (by omega)⟩
termination_by hi - lo

theorem prune_eq (top d : K) (l : List (K × ι)) (i : ℕ) :
    prune top d l i = l.take i ++ (l.drop i).filter fun e => decide (¬top - e.1 > d) := by
  induction hn : l.length - i using Nat.strong_induction_on generalizing l i with
  | _ n ih =>
    unfold prune
    split_ifs with h1 h2
    · have hl := List.length_eraseIdx_of_lt h1
      have e : l.eraseIdx i = l.take i ++ l.drop (i + 1) := List.eraseIdx_eq_take_drop_succ ..
      have hli : (l.take i).length = i := by rw [List.length_take]; omega
      rw [ih _ (by omega) _ _ rfl, List.drop_eq_getElem_cons h1, List.filter_cons_of_neg (by simp only [decide_eq_true_eq, not_not]; exact h2), e, List.take_left' hli,
        List.drop_left' hli]
    · rw [ih _ (by omega) _ _ rfl]
      rw [List.drop_eq_getElem_cons h1, List.filter_cons_of_pos (by simp only [decide_eq_true_eq]; exact h2), List.take_succ_eq_append_getElem h1]
      rw [List.append_assoc]; rfl
    · rw [List.take_of_length_le (by omega), List.drop_of_length_le (by omega)]
      simp

theorem ranking_tags {os : List (K × ι)} {S : List (Offer K ι)} (h : Ranking os S) : ∀ e ∈ S, e.2 < os.length ∧ e.1 ∈ os := by
  intro e he
  have := h.perm.subset he
  obtain ⟨x, i⟩ := e
  rw [List.mem_zipIdx_iff_getElem?] at this
  have h2 := List.getElem?_eq_some_iff.mp this
  obtain ⟨h3, h4⟩ := h2
  exact ⟨h3, h4 ▸ List.getElem_mem h3⟩

theorem ranking_mem {os : List (K × ι)} {S : List (Offer K ι)} (h : Ranking os S) {o : K × ι} (ho : o ∈ os) : ∃ e ∈ S, e.1 = o := by
  obtain ⟨i, hi, rfl⟩ := List.mem_iff_getElem.mp ho
  refine ⟨(os[i], i), h.perm.symm.subset ?_, rfl⟩
  rw [List.mem_zipIdx_iff_getElem?]
  simp [List.getElem?_eq_getElem hi]

theorem Before.ge {a b : Offer K ι} (h : Before a b) : a.1.1 ≥ b.1.1 := by
  rcases h with h | ⟨h, _⟩
  · exact le_of_lt h
  · exact le_of_eq h.symm

/-- A new offer ranks after those at least as large, and before the smaller ones. -/
theorem ranking_insert {os : List (K × ι)} {A B : List (Offer K ι)} (h : Ranking os (A ++ B)) (o : K × ι)
    (hA : ∀ a ∈ A, o.1 ≤ a.1.1) (hB : ∀ b ∈ B, b.1.1 < o.1) : Ranking (os ++ [o]) (A ++ (o, os.length) :: B) := by
  constructor
  · rw [List.zipIdx_append]
    refine List.perm_middle.trans ?_
    refine (List.Perm.cons _ h.perm).trans ?_
    simp only [List.zipIdx_singleton, Nat.zero_add]
    exact (List.perm_append_comm (l₁ := [(o, os.length)]))
  · have hs := h.sorted
    rw [List.pairwise_append] at hs ⊢
    refine ⟨hs.1, List.pairwise_cons.mpr ⟨fun b hb => Or.inl (hB b hb), hs.2.1⟩, fun a ha b hb => ?_⟩
    rcases List.mem_cons.mp hb with rfl | hb
    · have := (ranking_tags h a (by simp [ha])).1
      rcases lt_or_eq_of_le (hA a ha) with h1 | h1
      · exact Or.inl h1
      · exact Or.inr ⟨h1.symm, this⟩
    · exact hs.2.2 a ha b hb

/-- Splitting a ranked list at a value. -/
theorem ranked_split (R : List (Offer K ι)) (hs : R.Pairwise Before) (q : K) :
    ∃ A B, R = A ++ B ∧ (∀ a ∈ A, q ≤ a.1.1) ∧ ∀ b ∈ B, b.1.1 < q := by
  induction R with
  | nil => exact ⟨[], [], rfl, by simp, by simp⟩
  | cons r R ih =>
    obtain ⟨h1, h2⟩ := List.pairwise_cons.mp hs
    by_cases hq : q ≤ r.1.1
    · obtain ⟨A, B, e, hA, hB⟩ := ih h2
      refine ⟨r :: A, B, by rw [e]; rfl, fun a ha => ?_, hB⟩
      rcases List.mem_cons.mp ha with rfl | ha
      · exact hq
      · exact hA a ha
    · refine ⟨[], r :: R, rfl, by simp, fun b hb => ?_⟩
      push Not at hq
      rcases List.mem_cons.mp hb with rfl | hb
      · exact hq
      · exact lt_of_le_of_lt (h1 b hb).ge hq

theorem insertIdx_append_length {α : Type} (A B : List α) (x : α) : (A ++ B).insertIdx A.length x = A ++ x :: B := by
  induction A with
  | nil => simp
  | cons a A ih => simp [ih]

/-- A sorted list splits at a threshold. -/
theorem sorted_filter (L : List (Offer K ι)) (hs : L.Pairwise Before) (top d : K) :
    L = L.filter (fun e => decide (¬top - e.1.1 > d)) ++ L.filter (fun e => decide (top - e.1.1 > d)) := by
  induction L with
  | nil => rfl
  | cons a L ih =>
    obtain ⟨h1, h2⟩ := List.pairwise_cons.mp hs
    by_cases h : top - a.1.1 > d
    · have hall : ∀ b ∈ L, top - b.1.1 > d := fun b hb => by
        have := (h1 b hb).ge
        linarith
      rw [List.filter_cons_of_neg (by simp only [decide_eq_true_eq, not_not]; exact h), List.filter_cons_of_pos (by simp only [decide_eq_true_eq]; exact h)]
      have e1 : L.filter (fun e => decide (¬top - e.1.1 > d)) = [] := by
        rw [List.filter_eq_nil_iff]; intro b hb hc; exact of_decide_eq_true hc (hall b hb)
      have e2 : L.filter (fun e => decide (top - e.1.1 > d)) = L := by
        rw [List.filter_eq_self]; intro b hb; exact decide_eq_true (hall b hb)
      rw [e1, e2]; rfl
    · rw [List.filter_cons_of_pos (by simp only [decide_eq_true_eq]; exact h), List.filter_cons_of_neg (by simp only [decide_eq_true_eq]; exact h)]
      rw [List.cons_append, ← ih h2]

/-- The invariant: the list is a prefix `L` of the ranking, and what follows was dropped for a reason. -/
structure Inv (nmax : Option ℕ) (dyn : Option K) (os : List (K × ι)) (list : List (K × ι)) (L R : List (Offer K ι)) : Prop where
  rank : Ranking os (L ++ R)
  list : list = L.map Prod.fst
  cap : ∀ n, nmax = some n → L.length ≤ n
  within : ∀ l ∈ L, Within dyn os l.1.1
  dropped : ∀ r ∈ R, nmax = some L.length ∨ ¬Within dyn os r.1.1

theorem Within.mono {dyn : Option K} {os : List (K × ι)} {v w : K} (h : Within dyn os v) (hvw : v ≤ w) : Within dyn os w := by
  intro d hd o ho
  have := h d hd o ho
  linarith

theorem Within.snoc {dyn : Option K} {os : List (K × ι)} {v : K} (h : Within dyn os v) (hpos : ∀ d, dyn = some d → 0 ≤ d) {o : K × ι}
    (ho : o.1 ≤ v) : Within dyn (os ++ [o]) v := by
  intro d hd x hx
  rcases List.mem_append.mp hx with hx | hx
  · exact h d hd x hx
  · simp at hx; subst hx
    have := hpos d hd
    linarith

theorem not_within_snoc {dyn : Option K} {os : List (K × ι)} {v : K} (h : ¬Within dyn os v) (o : K × ι) : ¬Within dyn (os ++ [o]) v := by
  intro hc
  exact h fun d hd x hx => hc d hd x (by simp [hx])

/-- The head of the ranking is the largest offer. -/
theorem rank_head {os : List (K × ι)} {e : Offer K ι} {S : List (Offer K ι)} (h : Ranking os (e :: S)) :
    e.1 ∈ os ∧ ∀ o ∈ os, o.1 ≤ e.1.1 := by
  refine ⟨(ranking_tags h e (by simp)).2, fun o ho => ?_⟩
  obtain ⟨x, hx, rfl⟩ := ranking_mem h ho
  rcases List.mem_cons.mp hx with rfl | hx
  · exact le_refl _
  · exact ((List.pairwise_cons.mp h.sorted).1 x hx).ge

theorem within_iff_top {dyn : Option K} {os : List (K × ι)} {t v : K} (h1 : ∃ o ∈ os, o.1 = t) (h2 : ∀ o ∈ os, o.1 ≤ t) :
    Within dyn os v ↔ ∀ d, dyn = some d → t - v ≤ d := by
  constructor
  · intro h d hd
    obtain ⟨o, ho, rfl⟩ := h1
    exact h d hd o ho
  · intro h d hd o ho
    have := h d hd
    have := h2 o ho
    linarith

theorem sorted_of_rank {os : List (K × ι)} {L R : List (Offer K ι)} (h : Ranking os (L ++ R)) :
    (L.map Prod.fst).Pairwise fun a b : K × ι => a.1 ≥ b.1 := by
  rw [List.pairwise_map]
  have := (List.pairwise_append.mp h.sorted).1
  exact this.imp fun h => h.ge

/-- What remains of `insert` once the position is known. -/
theorem LML.insert_eq (s : LML K ι) (q : K) (label : ι) {p : ℕ} (hb : bisect q s.list 0 s.list.length = some p) :
    s.insert q label =
      match s.dyn with
      | none => ok { s with list := s.insertAt p (q, label) }
      | some d =>
        if d = 0 then ok { s with list := s.insertAt p (q, label) }
        else
          match (s.insertAt p (q, label)).head? with
          | none => raise .index { s with list := s.insertAt p (q, label) }
          | some top => ok { s with list := prune top.1 d (s.insertAt p (q, label)) p } := by
  unfold LML.insert
  rw [hb]
  rfl

/-- One `update`. -/
theorem update_inv (s : LML K ι) (os : List (K × ι)) (L R : List (Offer K ι)) (hn : ∀ n, s.nmax = some n → 1 ≤ n)
    (hd : ∀ d, s.dyn = some d → 0 < d) (hi : Inv s.nmax s.dyn os s.list L R) (o : K × ι) :
    ∃ s' L' R', s.update o.1 o.2 = ok s' ∧ s'.nmax = s.nmax ∧ s'.dyn = s.dyn ∧ Inv s.nmax s.dyn (os ++ [o]) s'.list L' R' := by
  obtain ⟨q, label⟩ := o
  dsimp only
  have hd0 : ∀ d, s.dyn = some d → 0 ≤ d := fun d h => le_of_lt (hd d h)
  have hlen : s.list.length = L.length := by rw [hi.list, List.length_map]
  -- the insertion
  have hins : ¬(s.nmax = some L.length ∧ ∀ l ∈ L, q ≤ l.1.1) →
      ∃ s' L' R', s.insert q label = ok s' ∧ s'.nmax = s.nmax ∧ s'.dyn = s.dyn ∧
        Inv s.nmax s.dyn (os ++ [(q, label)]) s'.list L' R' := by
    intro hne
    obtain ⟨p, hb, hpl, hp1, hp2⟩ := bisect_spec q s.list (hi.list ▸ sorted_of_rank hi.rank) 0 s.list.length
      (by omega) (le_refl _) (by intros; omega) (by intros; omega)
    have hpL : p ≤ L.length := by omega
    obtain ⟨L1, L2, hL, hL1⟩ : ∃ L1 L2, L = L1 ++ L2 ∧ L1.length = p :=
      ⟨L.take p, L.drop p, (List.take_append_drop p L).symm, by simp [hpL]⟩
    have h1 : ∀ a ∈ L1, q ≤ a.1.1 := by
      intro a ha
      obtain ⟨i, hil, rfl⟩ := List.mem_iff_getElem.mp ha
      have hil' : i < s.list.length := by rw [hlen, hL, List.length_append]; omega
      have := hp1 i hil' (by omega)
      simpa [hi.list, hL, List.getElem_append, hil] using this
    have h2 : ∀ b ∈ L2, b.1.1 < q := by
      intro b hb'
      obtain ⟨i, hil, rfl⟩ := List.mem_iff_getElem.mp hb'
      have hil' : p + i < s.list.length := by rw [hlen, hL, List.length_append]; omega
      have := hp2 (p + i) hil' (by omega)
      simpa [hi.list, hL, List.getElem_append, hL1] using this
    have hlist : s.list.insertIdx p (q, label) = (L1 ++ ((q, label), os.length) :: L2).map Prod.fst := by
      rw [hi.list, hL, List.map_append, List.map_append, List.map_cons]
      have : p = (L1.map (Prod.fst : Offer K ι → K × ι)).length := by rw [List.length_map, hL1]
      rw [this, insertIdx_append_length]
    rw [LML.insert_eq s q label hb]
    by_cases hR : ∀ r ∈ R, r.1.1 < q
    · -- the new offer follows `L1`
      have hrank := ranking_insert (A := L1) (B := L2 ++ R) (by rw [← List.append_assoc, ← hL]; exact hi.rank) (q, label) h1
        (fun b hb' => by rcases List.mem_append.mp hb' with h | h; exacts [h2 b h, hR b h])
      set e : Offer K ι := ((q, label), os.length) with he
      -- after the capacity cut
      obtain ⟨M, D, hMD, hat, hMcap, hMne, hMfull⟩ : ∃ M D, L1 ++ e :: L2 = M ++ D ∧ s.insertAt p (q, label) = M.map Prod.fst ∧
          (∀ n, s.nmax = some n → M.length ≤ n) ∧ M ≠ [] ∧ (D ≠ [] ∨ s.nmax = some L.length → s.nmax = some M.length) := by
        unfold LML.insertAt
        dsimp only
        rw [hlist]
        cases hnm : s.nmax with
        | none => exact ⟨L1 ++ e :: L2, [], by simp, rfl, by simp, by simp, by simp⟩
        | some n =>
          have hcap := hi.cap n hnm
          have hn1 := hn n hnm
          have hll : (L1 ++ e :: L2).length = L.length + 1 := by rw [hL]; simp; omega
          dsimp only
          rw [List.length_map, hll]
          split_ifs with hgt
          · have hnl : n = L.length := by omega
            refine ⟨(L1 ++ e :: L2).take n, (L1 ++ e :: L2).drop n, (List.take_append_drop _ _).symm, ?_, ?_, ?_, ?_⟩
            · rw [List.eraseIdx_eq_take_drop_succ, List.drop_of_length_le (by rw [List.length_map]; omega), List.map_take]
              simp
            · intro m hm; simp at hm; subst hm; rw [List.length_take]; omega
            · intro hc
              have := congrArg List.length hc
              rw [List.length_take] at this
              simp only [List.length_nil] at this
              omega
            · intro _
              rw [List.length_take]
              congr 1; omega
          · refine ⟨L1 ++ e :: L2, [], by simp, rfl, ?_, by simp, ?_⟩
            · intro m hm; simp at hm; subst hm; rw [hll]; omega
            · intro hc
              exfalso
              rcases hc with hc | hc
              · exact hc rfl
              · simp at hc; omega
      have hMR : L1 ++ e :: (L2 ++ R) = M ++ (D ++ R) := by
        rw [← List.append_assoc, ← hMD]; simp
      rw [hMR] at hrank
      rw [hat]
      -- reasons for dropping
      have hdrop : ∀ r ∈ D ++ R, s.nmax = some M.length ∨ ¬Within s.dyn (os ++ [(q, label)]) r.1.1 := by
        intro r hr
        rcases List.mem_append.mp hr with hr | hr
        · exact Or.inl (hMfull (Or.inl fun h => by simp [h] at hr))
        · rcases hi.dropped r hr with h | h
          · exact Or.inl (hMfull (Or.inr h))
          · exact Or.inr (not_within_snoc h _)
      obtain ⟨m, M', rfl⟩ := List.exists_cons_of_ne_nil hMne
      obtain ⟨ht1, ht2⟩ := rank_head (e := m) (S := M' ++ (D ++ R)) hrank
      have htop := fun v => within_iff_top (dyn := s.dyn) (v := v) ⟨_, ht1, rfl⟩ ht2
      -- without a dynamic range
      have hnone : s.dyn = none → ∃ s' L' R', ok (σ := LML K ι) { s with list := (m :: M').map Prod.fst } = ok s' ∧ s'.nmax = s.nmax ∧
          s'.dyn = s.dyn ∧ Inv s.nmax s.dyn (os ++ [(q, label)]) s'.list L' R' := fun hdyn =>
        ⟨_, m :: M', D ++ R, rfl, rfl, rfl, hrank, rfl, hMcap, fun l _ d hd' => by simp [hdyn] at hd', hdrop⟩
      cases hdyn : s.dyn with
      | none => simpa [hdyn] using hnone hdyn
      | some d =>
        have hdpos := hd d hdyn
        dsimp only
        rw [if_neg (ne_of_gt hdpos)]
        simp only [List.map_cons, List.head?_cons]
        have hkeep : ∀ v, Within (some d) (os ++ [(q, label)]) v ↔ ¬m.1.1 - v > d := by
          intro v
          have := htop v
          rw [hdyn] at this
          rw [this]
          constructor
          · intro h; exact not_lt.mpr (h d rfl)
          · intro h d' hd'
            simp at hd'; subst hd'
            exact not_lt.mp h
        -- elements before position `p` are within range
        have hbefore : ∀ l ∈ (m :: M').take p, ¬m.1.1 - l.1.1 > d := by
          intro l hl
          rw [← hkeep]
          have hsub : l ∈ (L1 ++ e :: L2).take p := by
            rw [hMD, List.take_append]
            exact List.mem_append_left _ hl
          rw [← hL1, List.take_left'] at hsub
          · have := hi.within l (by rw [hL]; simp [hsub])
            rw [hdyn] at this
            exact this.snoc (fun d' h' => hd0 d' (by rw [hdyn]; exact h')) (h1 l hsub)
          · rfl
        have hpr : prune m.1.1 d ((m :: M').map Prod.fst) p =
            ((m :: M').filter fun e => decide (¬m.1.1 - e.1.1 > d)).map Prod.fst := by
          rw [prune_eq]
          conv_rhs => rw [← List.take_append_drop p (m :: M'), List.filter_append]
          rw [List.map_append, ← List.map_take, ← List.map_drop]
          congr 1
          · rw [List.filter_eq_self.mpr fun l hl => decide_eq_true (hbefore l hl)]
          · rw [List.filter_map]; rfl
        have hsf := sorted_filter (m :: M') (List.pairwise_append.mp hrank.sorted).1 m.1.1 d
        refine ⟨_, (m :: M').filter (fun e => decide (¬m.1.1 - e.1.1 > d)),
          (m :: M').filter (fun e => decide (m.1.1 - e.1.1 > d)) ++ (D ++ R), rfl, rfl, hdyn.symm ▸ rfl, ?_, hpr, ?_, ?_, ?_⟩
        · rw [← List.append_assoc, ← hsf]; exact hrank
        · intro n hnm
          exact le_trans (List.length_filter_le _ _) (hMcap n hnm)
        · intro l hl
          rw [hkeep]
          exact of_decide_eq_true (List.mem_filter.mp hl).2
        · intro r hr
          rcases List.mem_append.mp hr with hr | hr
          · refine Or.inr ?_
            rw [hkeep]
            exact not_not.mpr (of_decide_eq_true (List.mem_filter.mp hr).2)
          · by_cases hz : (m :: M').filter (fun e => decide (m.1.1 - e.1.1 > d)) = []
            · have : (m :: M').filter (fun e => decide (¬m.1.1 - e.1.1 > d)) = m :: M' := by
                rw [hz, List.append_nil] at hsf
                exact hsf.symm
              rw [this]
              rw [hdyn] at hdrop
              exact hdrop r hr
            · obtain ⟨z, hz'⟩ := List.exists_mem_of_ne_nil _ hz
              obtain ⟨hz1, hz2⟩ := List.mem_filter.mp hz'
              refine Or.inr ?_
              rw [hkeep]
              have := ((List.pairwise_append.mp hrank.sorted).2.2 z hz1 r hr).ge
              have hz2' : m.1.1 - z.1.1 > d := of_decide_eq_true hz2
              intro hc
              exact hc (by linarith)
    · -- the new offer is out of range
      push Not at hR
      obtain ⟨r, hr, hrq⟩ := hR
      have hL2 : L2 = [] := by
        by_contra hne2
        obtain ⟨b, hb'⟩ := List.exists_mem_of_ne_nil _ hne2
        have := ((List.pairwise_append.mp hi.rank.sorted).2.2 b (by rw [hL]; simp [hb']) r hr).ge
        have := h2 b hb'
        linarith
      rw [hL2, List.append_nil] at hL
      have hallL : ∀ l ∈ L, q ≤ l.1.1 := by rw [hL]; exact h1
      have hnf : s.nmax ≠ some L.length := fun h => hne ⟨h, hallL⟩
      have hout : ¬Within s.dyn os r.1.1 := (hi.dropped r hr).resolve_left hnf
      have hoq : ¬Within s.dyn os q := fun h => hout (h.mono hrq)
      obtain ⟨m, L', hL'⟩ : ∃ m L', L = m :: L' := by
        cases hLc : L with
        | cons m L' => exact ⟨m, L', rfl⟩
        | nil =>
          exfalso
          have hrank := hi.rank
          rw [hLc, List.nil_append] at hrank
          obtain ⟨x, R', hxR⟩ := List.exists_cons_of_ne_nil (List.ne_nil_of_mem hr)
          rw [hxR] at hrank
          obtain ⟨ht1, ht2⟩ := rank_head hrank
          have hx := hi.dropped x (by rw [hxR]; simp)
          rw [hLc] at hx
          rcases hx with hx | hx
          · have := hn _ hx; simp at this
          · rw [within_iff_top ⟨_, ht1, rfl⟩ ht2] at hx
            exact hx fun d h => by simpa using hd0 d h
      have hrank := hi.rank
      rw [hL', List.cons_append] at hrank
      obtain ⟨ht1, ht2⟩ := rank_head hrank
      obtain ⟨A, B, hAB, hA, hB⟩ := ranked_split R (List.pairwise_append.mp hi.rank.sorted).2.1 q
      have hnew := ranking_insert (os := os) (A := L ++ A) (B := B) (by rw [List.append_assoc, ← hAB]; exact hi.rank) (q, label)
        (fun a ha => by rcases List.mem_append.mp ha with h | h; exacts [hallL a h, hA a h]) hB
      have hat : s.insertAt p (q, label) = (L ++ [((q, label), os.length)]).map Prod.fst := by
        unfold LML.insertAt
        dsimp only
        rw [hlist, hL2, ← hL]
        cases hnm : s.nmax with
        | none => rfl
        | some n =>
          have hcap := hi.cap n hnm
          have : n ≠ L.length := fun h => hnf (by rw [hnm, h])
          dsimp only
          rw [if_neg]
          simp; omega
      have hdl : ∃ d, s.dyn = some d ∧ m.1.1 - q > d := by
        rw [within_iff_top ⟨_, ht1, rfl⟩ ht2] at hoq
        push Not at hoq
        exact hoq
      obtain ⟨d, hdyn, hdq⟩ := hdl
      rw [hat, hdyn]
      dsimp only
      rw [if_neg (ne_of_gt (hd d hdyn))]
      have hhead : ((L ++ [((q, label), os.length)]).map Prod.fst).head? = some m.1 := by rw [hL']; rfl
      rw [hhead]
      dsimp only
      have hpL' : p = L.length := by rw [hL]; exact hL1.symm
      have hpr : prune m.1.1 d ((L ++ [((q, label), os.length)]).map Prod.fst) p = L.map Prod.fst := by
        rw [prune_eq, hpL', ← List.map_take, ← List.map_drop, List.take_left', List.drop_left']
        · rw [List.map_cons, List.map_nil, List.filter_cons_of_neg (by simp only [decide_eq_true_eq, not_not]; exact hdq)]
          simp
        · rfl
        · rfl
      refine ⟨_, L, A ++ ((q, label), os.length) :: B, rfl, rfl, hdyn.symm ▸ rfl, ?_, hpr, ?_, ?_, ?_⟩
      · rw [← List.append_assoc]; exact hnew
      · exact hi.cap
      · intro l hl
        have := hi.within l hl
        rw [hdyn] at this
        exact this.snoc (fun d' h' => hd0 d' (by rw [hdyn]; exact h')) (hallL l hl)
      · intro x hx
        right
        rcases List.mem_append.mp hx with hx | hx
        · have := (hi.dropped x (by rw [hAB]; simp [hx])).resolve_left hnf
          rw [hdyn] at this
          exact not_within_snoc this _
        · rcases List.mem_cons.mp hx with rfl | hx
          · rw [hdyn] at hoq; exact not_within_snoc hoq _
          · have := (hi.dropped x (by rw [hAB]; simp [hx])).resolve_left hnf
            rw [hdyn] at this
            exact not_within_snoc this _
  unfold LML.update
  rw [hlen]
  by_cases hfull : s.nmax = some L.length
  · rw [if_pos hfull]
    have hLne : L ≠ [] := fun h => by
      have := hn _ hfull
      rw [h] at this; simp at this
    have hlast : s.list.getLast? = some (L.getLast hLne).1 := by
      rw [hi.list, List.getLast?_map, List.getLast?_eq_getLast_of_ne_nil hLne]; rfl
    rw [hlast]
    dsimp only
    by_cases hq : q ≤ (L.getLast hLne).1.1
    · rw [if_pos hq]
      have hallL : ∀ l ∈ L, q ≤ l.1.1 := by
        intro l hl
        have hs := (List.pairwise_append.mp hi.rank.sorted).1
        have := List.dropLast_append_getLast hLne
        rw [← this] at hs hl
        rcases List.mem_append.mp hl with h | h
        · exact le_trans hq ((List.pairwise_append.mp hs).2.2 l h _ (by simp)).ge
        · simp at h; subst h; exact hq
      obtain ⟨A, B, hAB, hA, hB⟩ := ranked_split R (List.pairwise_append.mp hi.rank.sorted).2.1 q
      have hnew := ranking_insert (os := os) (A := L ++ A) (B := B) (by rw [List.append_assoc, ← hAB]; exact hi.rank) (q, label)
        (fun a ha => by rcases List.mem_append.mp ha with h | h; exacts [hallL a h, hA a h]) hB
      refine ⟨s, L, A ++ ((q, label), os.length) :: B, rfl, rfl, rfl, ?_, hi.list, hi.cap, ?_, ?_⟩
      · rw [← List.append_assoc]; exact hnew
      · intro l hl; exact (hi.within l hl).snoc hd0 (hallL l hl)
      · intro x _; exact Or.inl hfull
    · rw [if_neg hq]
      refine hins fun h => hq (h.2 _ (List.getLast_mem hLne))
  · rw [if_neg hfull]
    exact hins fun h => hfull h.1

theorem updates_inv (s : LML K ι) (pre : List (K × ι)) (L R : List (Offer K ι)) (hn : ∀ n, s.nmax = some n → 1 ≤ n)
    (hd : ∀ d, s.dyn = some d → 0 < d) (hi : Inv s.nmax s.dyn pre s.list L R) (os : List (K × ι)) :
    ∃ s' L' R', s.updates os = ok s' ∧ s'.nmax = s.nmax ∧ s'.dyn = s.dyn ∧ Inv s.nmax s.dyn (pre ++ os) s'.list L' R' := by
  induction os generalizing s pre L R with
  | nil => exact ⟨s, L, R, rfl, rfl, rfl, by simpa using hi⟩
  | cons o os ih =>
    obtain ⟨s1, L1, R1, e1, hn1, hd1, hi1⟩ := update_inv s pre L R hn hd hi o
    obtain ⟨s2, L2, R2, e2, hn2, hd2, hi2⟩ := ih s1 (pre ++ [o]) L1 R1 (by rw [hn1]; exact hn) (by rw [hd1]; exact hd)
      (by rw [hn1, hd1]; exact hi1)
    refine ⟨s2, L2, R2, ?_, hn2.trans hn1, hd2.trans hd1, ?_⟩
    · rw [LML.updates, e1]; exact e2
    · rw [hn1, hd1] at hi2
      simpa using hi2

theorem Inv.result {nmax : Option ℕ} {dyn : Option K} {os list : List (K × ι)} {L R : List (Offer K ι)} (h : Inv nmax dyn os list L R)
    [DecidablePred fun v : K => Within dyn os v] :
    list = (takeOpt nmax ((L ++ R).filter fun e => decide (Within dyn os e.1.1))).map Prod.fst := by
  rw [h.list]
  congr 1
  rw [List.filter_append, List.filter_eq_self.mpr fun l hl => by simpa using h.within l hl]
  cases hn : nmax with
  | none =>
    have : R.filter (fun e => decide (Within dyn os e.1.1)) = [] := by
      rw [List.filter_eq_nil_iff]
      intro r hr
      simpa [hn] using h.dropped r hr
    rw [this]; simp [takeOpt]
  | some n =>
    have hcap := h.cap n hn
    by_cases hf : n = L.length
    · subst hf; simp [takeOpt]
    · have : R.filter (fun e => decide (Within dyn os e.1.1)) = [] := by
        rw [List.filter_eq_nil_iff]
        intro r hr
        have hf' : L.length ≠ n := fun h => hf h.symm
        simpa [hn, hf, hf'] using h.dropped r hr
      rw [this, List.append_nil]
      simp only [takeOpt]
      rw [List.take_of_length_le hcap]

/-! ### The properties -/

open Classical in
/-- **C24.** Without a dynamic range: after any sequence of `update` calls on a list of capacity at least one (or without a
capacity), none of which raises, the list consists of the highest-ranked offers in order of rank: descending values, equal
values in order of arrival, as many as the capacity allows. -/
theorem C24_top (nmax : Option ℕ) (hn : ∀ n, nmax = some n → 1 ≤ n) (os : List (K × ι)) :
    ∃ s S, (LML.mk nmax (none : Option K) []).updates os = ok s ∧ Ranking os S ∧ s.list = (takeOpt nmax S).map Prod.fst := by
  obtain ⟨s, L, R, e, h1, h2, h3⟩ := updates_inv (LML.mk nmax none []) [] [] [] hn (by simp)
    ⟨⟨List.Perm.refl _, List.Pairwise.nil⟩, rfl, by simp, by simp, by simp⟩ os
  rw [List.nil_append] at h3
  refine ⟨s, L ++ R, e, h3.rank, ?_⟩
  have := h3.result
  rw [this, List.filter_eq_self.mpr]
  intro x _
  simp [Within]

/-- **C24, capacity and maximum.** The list never exceeds its capacity, and its first entry is the largest value offered
(the earliest, if there are several). -/
theorem C24_max (nmax : Option ℕ) (hn : ∀ n, nmax = some n → 1 ≤ n) (dyn : Option K) (hd : ∀ d, dyn = some d → 0 < d)
    (os : List (K × ι)) (hne : os ≠ []) :
    ∃ s k, ∃ hk : k < os.length, (LML.mk nmax dyn []).updates os = ok s ∧ (∀ n, nmax = some n → s.list.length ≤ n) ∧
      s.list.head? = some os[k] ∧ (∀ o ∈ os, o.1 ≤ os[k].1) ∧ ∀ j (h : j < os.length), os[j].1 = os[k].1 → k ≤ j := by
  obtain ⟨s, L, R, e, h1, h2, h3⟩ := updates_inv (LML.mk nmax dyn []) [] [] [] hn hd
    ⟨⟨List.Perm.refl _, List.Pairwise.nil⟩, rfl, by simp, by simp, by simp⟩ os
  rw [List.nil_append] at h3
  have hLne : L ≠ [] := by
    intro hL
    have hr := h3.rank
    rw [hL, List.nil_append] at hr
    cases hR : R with
    | nil =>
      rw [hR] at hr
      have := hr.perm.length_eq
      simp at this
      exact hne (List.eq_nil_of_length_eq_zero this.symm)
    | cons x R' =>
      rw [hR] at hr
      obtain ⟨ht1, ht2⟩ := rank_head hr
      rcases h3.dropped x (by rw [hR]; simp) with hx | hx
      · rw [hL] at hx
        have := hn _ hx
        simp at this
      · rw [within_iff_top ⟨_, ht1, rfl⟩ ht2] at hx
        exact hx fun d h => by simpa using le_of_lt (hd d h)
  obtain ⟨m, L', rfl⟩ := List.exists_cons_of_ne_nil hLne
  have hr := h3.rank
  rw [List.cons_append] at hr
  have hm := hr.perm.subset (List.mem_cons_self)
  obtain ⟨x, k⟩ := m
  rw [List.mem_zipIdx_iff_getElem?] at hm
  obtain ⟨hk, hx⟩ := List.getElem?_eq_some_iff.mp hm
  dsimp only at hk hx
  refine ⟨s, k, hk, e, ?_, ?_, ?_, ?_⟩
  · intro n hnn
    have := h3.cap n hnn
    rw [h3.list, List.length_map]; exact this
  · rw [h3.list]; simp [hx]
  · have := (rank_head hr).2
    rw [hx]; exact this
  · intro j hj hjk
    have hmem : ((os[j], j) : Offer K ι) ∈ (x, k) :: (L' ++ R) := by
      refine hr.perm.symm.subset ?_
      rw [List.mem_zipIdx_iff_getElem?]
      simp [List.getElem?_eq_getElem hj]
    rcases List.mem_cons.mp hmem with h | h
    · simp at h; omega
    · rcases (List.pairwise_cons.mp hr.sorted).1 _ h with h | ⟨_, h⟩
      · simp only at h
        rw [hjk, hx] at h
        exact absurd h (lt_irrefl _)
      · exact le_of_lt h

open Classical in
/-- **C25.** With a dynamic range (logarithm `d > 0`): after any sequence of `update` calls, none of which raises, the list
consists exactly of the highest-ranked among those offers that are within `d` of every offered value, i.e. of the largest:
no entry out of range is kept, and no offer within range of the final maximum is missing unless the capacity is used up
by offers ranking before it - in whatever order the offers came. -/
theorem C25_range (nmax : Option ℕ) (hn : ∀ n, nmax = some n → 1 ≤ n) (d : K) (hd : 0 < d) (os : List (K × ι)) :
    ∃ s S, (LML.mk nmax (some d) []).updates os = ok s ∧ Ranking os S ∧
      s.list = (takeOpt nmax (S.filter fun e => decide (∀ o ∈ os, o.1 - e.1.1 ≤ d))).map Prod.fst := by
  obtain ⟨s, L, R, e, h1, h2, h3⟩ := updates_inv (LML.mk nmax (some d) []) [] [] [] hn (by simpa using hd)
    ⟨⟨List.Perm.refl _, List.Pairwise.nil⟩, rfl, by simp, by simp, by simp⟩ os
  rw [List.nil_append] at h3
  refine ⟨s, L ++ R, e, h3.rank, ?_⟩
  have := h3.result
  rw [this]
  congr 3
  funext x
  simp [Within]

open Classical in
/-- **C25, `limitRange`.** Applied after any non-empty sequence of updates with a range factor of at least one (logarithm
`r ≥ 0`), it removes exactly the entries that are not within `r` of every offered value. -/
theorem C25_limitRange (nmax : Option ℕ) (hn : ∀ n, nmax = some n → 1 ≤ n) (dyn : Option K) (hd : ∀ d, dyn = some d → 0 < d)
    (os : List (K × ι)) (hne : os ≠ []) (r : K) (hr : 0 ≤ r) :
    ∃ s s', (LML.mk nmax dyn []).updates os = ok s ∧ s.limitRange r = ok s' ∧
      s'.list = s.list.filter fun e => decide (∀ o ∈ os, o.1 - e.1 ≤ r) := by
  obtain ⟨s, k, hk, e, _, hh, hmax, _⟩ := C24_max nmax hn dyn hd os hne
  refine ⟨s, _, e, by unfold LML.limitRange; rw [hh], ?_⟩
  dsimp only
  have hkeep : ∀ v : K, (∀ o ∈ os, o.1 - v ≤ r) ↔ ¬os[k].1 - v > r := by
    intro v
    constructor
    · intro h; exact not_lt.mpr (h _ (List.getElem_mem hk))
    · intro h o ho
      have := hmax o ho
      have := not_lt.mp h
      linarith
  rw [prune_eq]
  cases hl : s.list with
  | nil => simp
  | cons a l =>
    rw [hl] at hh
    simp at hh
    subst hh
    rw [List.filter_cons_of_pos]
    · simp only [List.take_succ_cons, List.take_zero, List.drop_succ_cons, List.drop_zero, List.singleton_append]
      congr 1
      refine List.filter_congr fun x _ => ?_
      simp only [decide_eq_decide]
      exact (hkeep x.1).symm
    · simp only [decide_eq_true_eq]
      rw [hkeep]
      simpa using hr

/-- Non-vacuity: ties, a capacity of three, and a range of 5 that a late maximum makes bite. -/
example :
    ((LML.mk (some 3) none []).updates [((1 : ℚ), "a"), (4, "b"), (2, "c"), (4, "d"), (3, "e")]).1.list = [(4, "b"), (4, "d"), (3, "e")] ∧
    ((LML.mk (some 3) (some 5) []).updates [((1 : ℚ), "a"), (4, "b"), (2, "c"), (8, "d"), (3, "e")]).1.list = [(8, "d"), (4, "b"), (3, "e")] ∧
    (((LML.mk (some 3) (some 5) []).updates [((1 : ℚ), "a"), (4, "b"), (2, "c"), (8, "d"), (3, "e")]).1.limitRange 4).1.list =
      [(8, "d"), (4, "b")] := by
  refine ⟨?_, ?_, ?_⟩ <;> decide +kernel

/-- A capacity of zero, which the constructor accepts, makes the first `update` raise. -/
theorem C24_zero_capacity (dyn : Option K) (q : K) (label : ι) :
    ((LML.mk (some 0) dyn []).update q label).2 = some .index := by
  simp [LML.update]

end Verif.Grid1
