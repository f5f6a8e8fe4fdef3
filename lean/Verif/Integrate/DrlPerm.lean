import Verif.Integrate.Drlhre
import Mathlib.Data.List.Permutation
import Mathlib.Data.List.GetD
import Mathlib.Data.Finset.Card
import Mathlib.Data.Finset.Dedup
import Mathlib.Algebra.Order.Field.Basic

/-!
# The basic rules of DCUHRE: the permutations in `DFSHRE`
-/

set_option linter.unusedSectionVars false

namespace Verif.Drl

open Finset
open Verif.Adapt (put Box)

variable {K : Type*} [Field K] [LinearOrder K]

/-! ## The exchange -/

/-- The state of the loop of exchanges after `t` rounds. -/
def revSt (i c lx : ℕ) (p : ℕ → K) (t : ℕ) : (ℕ → K) × ℕ × ℕ :=
  (fun j => if (1 ≤ j ∧ j ≤ t) ∨ (i - t ≤ j ∧ j < i) then p (i - j) else p j, i - 1 - min t c, if t = 0 then lx else min t (i - 1 - c))

theorem reverse_spec {i c : ℕ} (hci : c + 2 ≤ i) (lx : ℕ) {a : K} {p : ℕ → K} (hc : ∀ j, 1 ≤ j → j < i → (p j ≤ a ↔ j ≤ c)) :
    ∀ cnt t, t + cnt ≤ (i - 1) / 2 → reverse i a cnt (t + 1) (revSt i c lx p t) = revSt i c lx p (t + cnt) := by
  intro cnt
  induction cnt with
  | zero => intro t _; rfl
  | succ cnt ih =>
    intro t ht
    rw [show revSt i c lx p t = ((revSt i c lx p t).1, (revSt i c lx p t).2.1, (revSt i c lx p t).2.2) from rfl, reverse]
    have e1 : (revSt i c lx p t).1 (t + 1) = p (t + 1) := by
      simp only [revSt]; rw [if_neg (by omega)]
    have e2 : (revSt i c lx p t).1 (i - (t + 1)) = p (i - (t + 1)) := by
      simp only [revSt]; rw [if_neg (by omega)]
    rw [e1, e2]
    have hl := hc (t + 1) (by omega) (by omega)
    have hr := hc (i - (t + 1)) (by omega) (by omega)
    have e3 : (put (put (revSt i c lx p t).1 (t + 1) (p (i - (t + 1)))) (i - (t + 1)) (p (t + 1))) (t + 1) = p (i - (t + 1)) := by
      simp only [put]; rw [if_neg (by omega), if_true]
    rw [e3, show t + (cnt + 1) = t + 1 + cnt by omega, ← ih (t + 1) (by omega)]
    congr 1
    refine Prod.ext ?_ (Prod.ext ?_ ?_)
    · funext j
      simp only [put, revSt]
      by_cases h1 : j = i - (t + 1)
      · subst h1
        rw [if_pos rfl, if_pos (by omega), show i - (i - (t + 1)) = t + 1 by omega]
      · rw [if_neg h1]
        by_cases h2 : j = t + 1
        · subst h2
          rw [if_pos rfl, if_pos (by omega)]
        · rw [if_neg h2]
          by_cases h3 : (1 ≤ j ∧ j ≤ t) ∨ (i - t ≤ j ∧ j < i)
          · rw [if_pos h3, if_pos (by omega)]
          · rw [if_neg h3, if_neg (by omega)]
    · dsimp only [revSt]
      by_cases h : t + 1 ≤ c
      · rw [if_pos (hl.2 h)]; omega
      · rw [if_neg (mt hl.1 h)]; omega
    · dsimp only [revSt]
      by_cases h : i - (t + 1) ≤ c
      · rw [if_neg (not_lt.2 (hr.2 h)), if_neg (by omega), if_neg (by omega)]; omega
      · rw [if_pos (not_le.1 (mt hr.1 h)), if_neg (by omega)]; omega

/-- What the exchange does: the numbers before are put in descending order, but for the smallest `b` that is larger than `a`, and `a` and `b` change places. -/
theorem exchange_eq (lx : ℕ) {lo hi : List K} {a b : K} (hlo : ∀ x ∈ lo, x ≤ a) (hb : a < b) (hhi : ∀ x ∈ hi, b ≤ x) :
    (exchange (lo ++ b :: hi) a lx).1 = hi.reverse ++ a :: lo.reverse ++ [b] := by
  set pre := lo ++ b :: hi with hpre
  have hlen : pre.length = lo.length + 1 + hi.length := by simp [hpre]; omega
  set i := pre.length + 1 with hi'
  set c := lo.length with hcdef
  set p : ℕ → K := put (fun j => pre.getD (j - 1) 0) i a with hp
  have hpj : ∀ j, 1 ≤ j → j < i → p j = pre.getD (j - 1) 0 := by
    intro j _ h2
    simp only [hp, put]; rw [if_neg (by omega)]
  have hc : ∀ j, 1 ≤ j → j < i → (p j ≤ a ↔ j ≤ c) := by
    intro j h1 h2
    rw [hpj j h1 h2]
    have hj : j - 1 < pre.length := by omega
    rw [List.getD_eq_getElem _ _ hj]
    by_cases h : j ≤ c
    · refine iff_of_true ?_ h
      have : pre[j - 1] = lo[j - 1]'(by omega) := by
        simp only [hpre]; rw [List.getElem_append_left]
      rw [this]
      exact hlo _ (List.getElem_mem _)
    · refine iff_of_false ?_ h
      have : pre[j - 1] = (b :: hi)[j - 1 - c]'(by simp; omega) := by
        simp only [hpre]; rw [List.getElem_append_right (by omega)]
      rw [this]
      have := List.getElem_mem (l := b :: hi) (n := j - 1 - c) (by simp; omega)
      rcases List.mem_cons.1 this with h | h
      · rw [h]; exact not_le.2 hb
      · exact not_le.2 (hb.trans_le (hhi _ h))
  -- the numbers and the place of the exchange
  have key : ∀ mp : (ℕ → K), ∀ ix, (∀ j, 1 ≤ j → j < i → mp j = p (i - j)) → ix = i - 1 - c →
      ((List.range i).map fun j => (put (put mp i (mp ix)) ix a) (j + 1)) = hi.reverse ++ a :: lo.reverse ++ [b] := by
    intro mp ix hmp hix
    have hpc : p (c + 1) = b := by
      rw [hpj _ (by omega) (by omega), Nat.add_sub_cancel, List.getD_eq_getElem _ _ (by omega)]
      simp [hpre, hcdef]
    refine List.ext_getElem (by simp; omega) fun k h1 h2 => ?_
    simp only [List.length_map, List.length_range] at h1
    rw [List.getElem_map, List.getElem_range]
    have hrhs : hi.reverse ++ a :: lo.reverse ++ [b] = (pre.reverse.set hi.length a) ++ [b] := by
      simp [hpre]
    simp only [hrhs, put]
    by_cases hk : k + 1 = ix
    · rw [if_pos hk, List.getElem_append_left (by simp; omega), List.getElem_set, if_pos (by omega)]
    · rw [if_neg hk]
      by_cases hk2 : k + 1 = i
      · rw [if_pos hk2, List.getElem_append_right (by simp; omega), hmp ix (by omega) (by omega), show i - ix = c + 1 by omega, hpc]
        simp
      · rw [if_neg hk2, List.getElem_append_left (by simp; omega), List.getElem_set, if_neg (by omega), List.getElem_reverse, hmp _ (by omega) (by omega), hpj _ (by omega) (by omega),
          List.getD_eq_getElem _ _ (by omega)]
        congr 1
        omega
  unfold exchange
  simp only
  rw [← hi', ← hp]
  have hrev := reverse_spec (by omega) lx hc ((i - 1) / 2) 0 (by omega)
  have h0 : revSt i c lx p 0 = (p, i - 1, lx) := by
    refine Prod.ext ?_ (Prod.ext ?_ ?_)
    · funext j
      simp only [revSt]; rw [if_neg (by omega)]
    · simp [revSt]
    · simp [revSt]
  rw [h0] at hrev
  rw [hrev, Nat.zero_add]
  have hmp : ∀ j, 1 ≤ j → j < i → (revSt i c lx p ((i - 1) / 2)).1 j = p (i - j) := by
    intro j h1 h3
    simp only [revSt]
    by_cases h : (1 ≤ j ∧ j ≤ (i - 1) / 2) ∨ (i - (i - 1) / 2 ≤ j ∧ j < i)
    · rw [if_pos h]
    · rw [if_neg h, show i - j = j by omega]
  refine key (revSt i c lx p ((i - 1) / 2)).1 (if (revSt i c lx p ((i - 1) / 2)).1 (revSt i c lx p ((i - 1) / 2)).2.1 ≤ a then (revSt i c lx p ((i - 1) / 2)).2.2 else (revSt i c lx p ((i - 1) / 2)).2.1) hmp ?_
  have e1 : (revSt i c lx p ((i - 1) / 2)).2.1 = i - 1 - min ((i - 1) / 2) c := rfl
  have e2 : (revSt i c lx p ((i - 1) / 2)).2.2 = if (i - 1) / 2 = 0 then lx else min ((i - 1) / 2) (i - 1 - c) := rfl
  rw [e1, e2, hmp _ (by omega) (by omega)]
  have := hc (i - (i - 1 - min ((i - 1) / 2) c)) (by omega) (by omega)
  split_ifs with h h'
  · have := this.1 h; omega
  · have := this.1 h; omega
  · have := mt this.2 h; omega

/-! ## The order -/

/-- The lexicographic order of lists. -/
def lex : List K → List K → Prop
  | [], _ => True
  | _ :: _, [] => False
  | a :: l, b :: m => a < b ∨ (a = b ∧ lex l m)

instance : (l m : List K) → Decidable (lex l m)
  | [], _ => isTrue trivial
  | _ :: _, [] => isFalse id
  | a :: l, b :: m => by
    unfold lex
    have := instDecidableLex l m
    infer_instance

theorem lex_refl : ∀ l : List K, lex l l
  | [] => trivial
  | _ :: l => Or.inr ⟨rfl, lex_refl l⟩

theorem lex_trans : ∀ {l m n : List K}, lex l m → lex m n → lex l n
  | [], _, _, _, _ => trivial
  | _ :: _, [], _, h, _ => h.elim
  | _ :: _, _ :: _, [], _, h => h.elim
  | a :: l, b :: m, c :: n, h1, h2 => by
    rcases h1 with h1 | ⟨rfl, h1⟩
    · rcases h2 with h2 | ⟨rfl, h2⟩
      · exact Or.inl (h1.trans h2)
      · exact Or.inl h1
    · rcases h2 with h2 | ⟨rfl, h2⟩
      · exact Or.inl h2
      · exact Or.inr ⟨rfl, lex_trans h1 h2⟩

theorem lex_antisymm : ∀ {l m : List K}, lex l m → lex m l → l = m
  | [], [], _, _ => rfl
  | [], _ :: _, _, h => h.elim
  | _ :: _, [], h, _ => h.elim
  | a :: l, b :: m, h1, h2 => by
    rcases h1 with h1 | ⟨rfl, h1⟩
    · rcases h2 with h2 | ⟨rfl, h2⟩
      · exact absurd h2 h1.not_gt
      · exact absurd h1 (lt_irrefl _)
    · rcases h2 with h2 | ⟨-, h2⟩
      · exact absurd h2 (lt_irrefl _)
      · rw [lex_antisymm h1 h2]

theorem lex_append (c : List K) {l m : List K} : lex (c ++ l) (c ++ m) ↔ lex l m := by
  induction c with
  | nil => rfl
  | cons a c ih => simp [lex, ih]

/-- An ascending list is the first of its permutations. -/
theorem lex_min : ∀ {l m : List K}, l.Pairwise (· ≤ ·) → m.Perm l → lex l m
  | [], _, _, _ => trivial
  | _ :: _, [], _, h => by simp at h
  | a :: l, b :: m, hs, h => by
    rw [List.pairwise_cons] at hs
    have hb : b ∈ a :: l := h.subset (by simp)
    rcases List.mem_cons.1 hb with rfl | hb
    · exact Or.inr ⟨rfl, lex_min hs.2 (List.Perm.cons_inv h)⟩
    · rcases (hs.1 b hb).lt_or_eq with h1 | rfl
      · exact Or.inl h1
      · exact Or.inr ⟨rfl, lex_min hs.2 (List.Perm.cons_inv h)⟩

/-- A descending list is the last of its permutations. -/
theorem lex_max : ∀ {l m : List K}, l.Pairwise (· ≥ ·) → m.Perm l → lex m l
  | _, [], _, _ => trivial
  | [], _ :: _, _, h => by simp at h
  | a :: l, b :: m, hs, h => by
    rw [List.pairwise_cons] at hs
    have hb : b ∈ a :: l := h.subset (by simp)
    rcases List.mem_cons.1 hb with rfl | hb
    · exact Or.inr ⟨rfl, lex_max hs.2 (List.Perm.cons_inv h)⟩
    · rcases (hs.1 b hb).lt_or_eq with h1 | rfl
      · exact Or.inl h1
      · exact Or.inr ⟨rfl, lex_max hs.2 (List.Perm.cons_inv h)⟩

/-- Nothing is between a list with a descending end and the list with the next larger number there and the rest ascending. -/
theorem lex_between {a b : K} {p q : List K} (hp : p.Pairwise (· ≥ ·)) (hq : q.Pairwise (· ≤ ·)) (hperm : (b :: q).Perm (a :: p)) (hmin : ∀ x ∈ p, a < x → b ≤ x) :
    ∀ (c x : List K), x.Perm (c ++ a :: p) → lex (c ++ a :: p) x → x = c ++ a :: p ∨ lex (c ++ b :: q) x
  | [], [], h, _ => by simp at h
  | [], x :: xs, h, hl => by
    simp only [List.nil_append] at *
    rcases hl with hl | ⟨rfl, hl⟩
    · right
      have hx : x ∈ a :: p := h.subset (by simp)
      rcases List.mem_cons.1 hx with rfl | hx
      · exact absurd hl (lt_irrefl _)
      · rcases (hmin x hx hl).lt_or_eq with h1 | rfl
        · exact Or.inl h1
        · exact Or.inr ⟨rfl, lex_min hq (List.Perm.cons_inv (h.trans hperm.symm))⟩
    · left
      have := List.Perm.cons_inv h
      rw [lex_antisymm (lex_max hp this) hl]
  | c :: cs, [], h, _ => by simp at h
  | c :: cs, x :: xs, h, hl => by
    simp only [List.cons_append] at *
    rcases hl with hl | ⟨rfl, hl⟩
    · exact Or.inr (Or.inl hl)
    · rcases lex_between hp hq hperm hmin cs xs (List.Perm.cons_inv h) hl with h1 | h1
      · left; rw [h1]
      · exact Or.inr (Or.inr ⟨rfl, h1⟩)

/-- An ascending list with a last number above `a` is made of the numbers up to `a` and the larger ones. -/
theorem split_at (a : K) : ∀ (l : List K), l.Pairwise (· ≤ ·) → (∃ x ∈ l, a < x) → ∃ lo b hi, l = lo ++ b :: hi ∧ (∀ x ∈ lo, x ≤ a) ∧ a < b ∧ (∀ x ∈ hi, b ≤ x)
  | [], _, h => by simp at h
  | y :: l, hs, h => by
    rw [List.pairwise_cons] at hs
    by_cases hy : a < y
    · exact ⟨[], y, l, rfl, by simp, hy, hs.1⟩
    · obtain ⟨x, hx, hax⟩ := h
      have hx' : x ∈ l := by
        rcases List.mem_cons.1 hx with rfl | h
        · exact absurd hax hy
        · exact h
      obtain ⟨lo, b, hi, rfl, h1, h2, h3⟩ := split_at a l hs.2 ⟨x, hx', hax⟩
      refine ⟨y :: lo, b, hi, rfl, ?_, h2, h3⟩
      intro z hz
      rcases List.mem_cons.1 hz with rfl | hz
      · exact not_lt.1 hy
      · exact h1 z hz

/-- What follows a permutation. -/
theorem next_some : ∀ (rest pre : List K) (last : K) (lx : ℕ) (l' : List K) (lx' : ℕ), (pre ++ [last]).Pairwise (· ≤ ·) → next (pre ++ [last]) last lx rest = some (l', lx') →
    l'.Perm (pre ++ [last] ++ rest) ∧ lex (pre ++ [last] ++ rest).reverse l'.reverse ∧ l' ≠ pre ++ [last] ++ rest ∧
      ∀ x : List K, x.Perm (pre ++ [last] ++ rest) → lex (pre ++ [last] ++ rest).reverse x.reverse → x = pre ++ [last] ++ rest ∨ lex l'.reverse x.reverse
  | [], _, _, _, _, _, _, h => by simp [next] at h
  | a :: rest, pre, last, lx, l', lx', hs, h => by
    rw [next] at h
    split_ifs at h with hc
    · rw [Option.some.injEq, Prod.mk.injEq] at h
      obtain ⟨h, -⟩ := h
      obtain ⟨lo, b, hi, he, hlo, hb, hhi⟩ := split_at a (pre ++ [last]) hs ⟨last, by simp, hc⟩
      rw [he] at h hs ⊢
      rw [exchange_eq lx hlo hb hhi] at h
      subst h
      obtain ⟨s1, s2, s3⟩ := List.pairwise_append.1 hs
      rw [List.pairwise_cons] at s2
      have hperm : (b :: (lo ++ a :: hi)).Perm (a :: (lo ++ b :: hi).reverse) := by
        refine List.Perm.trans ?_ (List.Perm.cons a (List.reverse_perm _).symm)
        refine (List.Perm.cons b List.perm_middle).trans ?_
        refine (List.Perm.swap a b _).trans ?_
        exact List.Perm.cons a List.perm_middle.symm
      have hr1 : (lo ++ b :: hi ++ a :: rest).reverse = rest.reverse ++ a :: (lo ++ b :: hi).reverse := by simp
      have hr2 : (hi.reverse ++ a :: lo.reverse ++ [b] ++ rest).reverse = rest.reverse ++ b :: (lo ++ a :: hi) := by simp
      have hp : ((lo ++ b :: hi).reverse).Pairwise (· ≥ ·) := by
        rw [List.pairwise_reverse]; exact hs
      have hq : (lo ++ a :: hi).Pairwise (· ≤ ·) := by
        rw [List.pairwise_append, List.pairwise_cons]
        refine ⟨s1, ⟨fun x hx => hb.le.trans (hhi x hx), s2.2⟩, fun x hx y hy => ?_⟩
        rcases List.mem_cons.1 hy with rfl | hy
        · exact hlo x hx
        · exact s3 x hx y (by simp [hy])
      have hmin : ∀ x ∈ (lo ++ b :: hi).reverse, a < x → b ≤ x := by
        intro x hx hax
        simp only [List.mem_reverse, List.mem_append, List.mem_cons] at hx
        rcases hx with hx | rfl | hx
        · exact absurd hax (hlo x hx).not_gt
        · exact le_rfl
        · exact hhi x hx
      refine ⟨?_, ?_, ?_, ?_⟩
      · have h := hperm.append_left rest.reverse
        rw [← hr1, ← hr2] at h
        exact ((List.reverse_perm _).symm.trans h).trans (List.reverse_perm _)
      · rw [hr1, hr2, lex_append]
        exact Or.inl hb
      · intro h
        have := congrArg List.reverse h
        rw [hr1, hr2] at this
        have := List.append_cancel_left this
        rw [List.cons.injEq] at this
        exact hb.ne' this.1
      · intro x hx hl
        rw [hr1] at hl
        rw [hr2]
        have hx' : x.reverse.Perm (rest.reverse ++ a :: (lo ++ b :: hi).reverse) := by
          rw [← hr1]
          exact ((List.reverse_perm x).trans hx).trans (List.reverse_perm _).symm
        rcases lex_between hp hq hperm hmin rest.reverse x.reverse hx' hl with h | h
        · left
          rw [← hr1] at h
          exact List.reverse_injective h
        · exact Or.inr h
    · have hs' : (pre ++ [last] ++ [a]).Pairwise (· ≤ ·) := by
        rw [List.pairwise_append]
        refine ⟨hs, by simp, fun x hx y hy => ?_⟩
        rw [List.mem_singleton] at hy
        subst hy
        rw [List.mem_append, List.mem_singleton] at hx
        rcases hx with hx | rfl
        · exact ((List.pairwise_append.1 hs).2.2 x hx last (by simp)).trans (not_lt.1 hc)
        · exact not_lt.1 hc
      have := next_some rest (pre ++ [last]) a lx l' lx' hs' h
      simpa [List.append_assoc] using this

theorem next_none : ∀ (rest pre : List K) (last : K) (lx : ℕ), (pre ++ [last]).Pairwise (· ≤ ·) → next (pre ++ [last]) last lx rest = none → (pre ++ [last] ++ rest).Pairwise (· ≤ ·)
  | [], _, _, _, hs, _ => by simpa using hs
  | a :: rest, pre, last, lx, hs, h => by
    rw [next] at h
    split_ifs at h with hc
    have hs' : (pre ++ [last] ++ [a]).Pairwise (· ≤ ·) := by
      rw [List.pairwise_append]
      refine ⟨hs, by simp, fun x hx y hy => ?_⟩
      rw [List.mem_singleton] at hy
      subst hy
      rw [List.mem_append, List.mem_singleton] at hx
      rcases hx with hx | rfl
      · exact ((List.pairwise_append.1 hs).2.2 x hx last (by simp)).trans (not_lt.1 hc)
      · exact not_lt.1 hc
    have := next_none rest (pre ++ [last]) a lx hs' h
    simpa [List.append_assoc] using this

/-! ## All permutations -/

/-- The permutations of a list. -/
def Pm (M : List K) : Finset (List K) := M.permutations.toFinset

theorem mem_Pm {M l : List K} : l ∈ Pm M ↔ l.Perm M := by
  simp [Pm]

/-- The permutations that are not before `l`. -/
def after (M l : List K) : Finset (List K) := {x ∈ Pm M | lex l.reverse x.reverse}

theorem after_desc {M : List K} (h : M.Pairwise (· ≥ ·)) : after M M = Pm M := by
  unfold after
  refine filter_true_of_mem fun x hx => ?_
  refine lex_min (by rw [List.pairwise_reverse]; exact h) ?_
  exact ((List.reverse_perm x).trans (mem_Pm.1 hx)).trans (List.reverse_perm M).symm

/-- Label 20 to the loop over `I`: what follows a permutation. -/
def stepP (lx : ℕ) : List K → Option (List K × ℕ)
  | [] => none
  | m :: ms => next [m] m lx ms

theorem after_some {M l l' : List K} {lx lx' : ℕ} (hl : l.Perm M) (h : stepP lx l = some (l', lx')) : l'.Perm M ∧ l ∉ after M l' ∧ after M l = insert l (after M l') := by
  cases l with
  | nil => simp [stepP] at h
  | cons m ms =>
    obtain ⟨h1, h2, h3, h4⟩ := next_some ms [] m lx l' lx' (by simp) h
    simp only [List.nil_append, List.singleton_append] at h1 h2 h3 h4
    refine ⟨h1.trans hl, ?_, ?_⟩
    · intro hm
      exact h3 (List.reverse_injective (lex_antisymm (mem_filter.1 hm).2 h2))
    · ext x
      rw [mem_insert]
      unfold after
      rw [mem_filter, mem_filter, mem_Pm]
      constructor
      · rintro ⟨hx, hx'⟩
        rcases h4 x (hx.trans hl.symm) hx' with h | h
        · exact Or.inl h
        · exact Or.inr ⟨hx, h⟩
      · rintro (rfl | ⟨hx, hx'⟩)
        · exact ⟨hl, lex_refl _⟩
        · exact ⟨hx, lex_trans h2 hx'⟩

theorem after_none {M l : List K} {lx : ℕ} (hl : l.Perm M) (h : stepP lx l = none) : after M l = {l} := by
  have hs : l.Pairwise (· ≤ ·) := by
    cases l with
    | nil => exact List.Pairwise.nil
    | cons m ms => simpa using next_none ms [] m lx (by simp) h
  ext x
  rw [mem_singleton]
  unfold after
  rw [mem_filter, mem_Pm]
  constructor
  · rintro ⟨hx, hx'⟩
    refine List.reverse_injective (lex_antisymm (lex_max (by rw [List.pairwise_reverse]; exact hs) ?_) hx')
    exact ((List.reverse_perm x).trans (hx.trans hl.symm)).trans (List.reverse_perm l).symm
  · rintro rfl
    exact ⟨hl, lex_refl _⟩

end Verif.Drl
