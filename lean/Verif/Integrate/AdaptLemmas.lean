import Verif.Integrate.Adapt
import Mathlib.Algebra.BigOperators.Group.Finset.Basic
import Mathlib.Algebra.BigOperators.Intervals
import Mathlib.Algebra.Order.BigOperators.Group.Finset
import Mathlib.Algebra.Order.Interval.Finset.SuccPred
import Mathlib.Logic.Equiv.Basic
import Mathlib.Tactic.Linarith
import Mathlib.Tactic.Ring
import Mathlib.Tactic.FieldSimp
import Mathlib.Tactic.NormNum
import Mathlib.Tactic.Positivity

/-!
# Lemmas about adaptive integration
-/

set_option linter.unusedSectionVars false
set_option linter.unusedSimpArgs false

namespace Verif.Adapt

open Finset

variable {K : Type*} [Field K] [LinearOrder K] [IsStrictOrderedRing K]

section put
variable {α : Type*}
@[simp] theorem put_self (x : ℕ → α) (i : ℕ) (v : α) : put x i v i = v := by simp [put]
theorem put_ne (x : ℕ → α) {i k : ℕ} (v : α) (h : k ≠ i) : put x i v k = x k := by simp [put, h]
theorem put_put (x : ℕ → α) (i : ℕ) (v w : α) : put (put x i v) i w = put x i w := by
  funext k; unfold put; split_ifs <;> rfl
end put

/-! ## Sums over the list -/

variable {M : Type*} [AddCommMonoid M]

theorem sum_move {α : Type*} (g : α → M) (h : ℕ → α) {n r t : ℕ} (hr : r ∈ Icc 1 n) (ht : t ∈ Icc 1 n) (x : α) :
    ∑ k ∈ Icc 1 n, g (put (put h r (h t)) t x k) = ∑ k ∈ Icc 1 n, g (put h r x k) := by
  refine Finset.sum_equiv (Equiv.swap r t) ?_ ?_
  · intro k
    by_cases h1 : k = r
    · subst h1; rw [Equiv.swap_apply_left]; exact ⟨fun _ => ht, fun _ => hr⟩
    · by_cases h2 : k = t
      · subst h2; rw [Equiv.swap_apply_right]; exact ⟨fun _ => hr, fun _ => ht⟩
      · rw [Equiv.swap_apply_of_ne_of_ne h1 h2]
  · intro k _
    congr 1
    by_cases h1 : k = r
    · subst h1
      rw [Equiv.swap_apply_left]
      by_cases h2 : k = t
      · subst h2; rw [put_self, put_self]
      · rw [put_ne _ _ h2, put_self, put_ne _ _ (Ne.symm h2)]
    · by_cases h2 : k = t
      · subst h2; rw [Equiv.swap_apply_right, put_self, put_self]
      · rw [Equiv.swap_apply_of_ne_of_ne h1 h2, put_ne _ _ h2, put_ne _ _ h1, put_ne _ _ h1]

/-- The child that is compared. -/
def child (n : ℕ) (h : ℕ → Rec K) (r : ℕ) : ℕ := if 2 * r = n then 2 * r else if (h (2 * r)).err < (h (2 * r + 1)).err then 2 * r + 1 else 2 * r

theorem child_spec {n : ℕ} {h : ℕ → Rec K} {r : ℕ} (hr : 1 ≤ r) (h2 : ¬ 2 * r > n) : r < child n h r ∧ child n h r ≤ n ∧ child n h r / 2 = r ∧ 2 * r ≤ child n h r ∧ ∀ k, k ≤ n → k / 2 = r → (h k).err ≤ (h (child n h r)).err := by
  unfold child
  split_ifs with a b
  · refine ⟨by omega, by omega, by omega, by omega, fun k h1 h3 => ?_⟩
    have : k = 2 * r := by omega
    rw [this]
  · refine ⟨by omega, by omega, by omega, by omega, fun k h1 h3 => ?_⟩
    have : k = 2 * r ∨ k = 2 * r + 1 := by omega
    rcases this with rfl | rfl
    · exact b.le
    · exact le_rfl
  · refine ⟨by omega, by omega, by omega, by omega, fun k h1 h3 => ?_⟩
    have : k = 2 * r ∨ k = 2 * r + 1 := by omega
    rcases this with rfl | rfl
    · exact le_rfl
    · exact not_lt.1 b

theorem down_succ (n : ℕ) (e : K) (fuel : ℕ) (h : ℕ → Rec K) (r : ℕ) :
    down n e (fuel + 1) h r = if 2 * r > n then (h, r) else if e ≥ (h (child n h r)).err then (h, r) else down n e fuel (put h r (h (child n h r))) (child n h r) := rfl

theorem down_sum (g : Rec K → M) {n : ℕ} (e : K) (x : Rec K) : ∀ (fuel : ℕ) (h : ℕ → Rec K) (r : ℕ), r ∈ Icc 1 n →
    ∑ k ∈ Icc 1 n, g (store (down n e fuel h r) x k) = ∑ k ∈ Icc 1 n, g (put h r x k) := by
  intro fuel
  induction fuel with
  | zero => intro h r hr; rfl
  | succ fuel ih =>
    intro h r hr
    rw [mem_Icc] at hr
    rw [down_succ]
    split_ifs with h1 h2
    · rfl
    · rfl
    · obtain ⟨c1, c2, -, -, -⟩ := child_spec (h := h) hr.1 h1
      have hc : child n h r ∈ Icc 1 n := mem_Icc.2 ⟨by omega, c2⟩
      rw [ih _ _ hc, sum_move g h (mem_Icc.2 hr) hc]

theorem up_sum (g : Rec K → M) {n : ℕ} (e : K) (x : Rec K) : ∀ (fuel : ℕ) (h : ℕ → Rec K) (r : ℕ), r ∈ Icc 1 n →
    ∑ k ∈ Icc 1 n, g (store (up e fuel h r) x k) = ∑ k ∈ Icc 1 n, g (put h r x k) := by
  intro fuel
  induction fuel with
  | zero => intro h r hr; rfl
  | succ fuel ih =>
    intro h r hr
    rw [mem_Icc] at hr
    rw [up]
    split_ifs with h1 h2
    · rfl
    · rfl
    · have hc : r / 2 ∈ Icc 1 n := mem_Icc.2 ⟨by omega, by omega⟩
      rw [ih _ _ hc, sum_move g h (mem_Icc.2 hr) hc]

/-- Records outside the list are not touched. -/
theorem down_frame {n : ℕ} (e : K) (x : Rec K) {j : ℕ} (hj : j = 0 ∨ n < j) : ∀ (fuel : ℕ) (h : ℕ → Rec K) (r : ℕ), r ∈ Icc 1 n → store (down n e fuel h r) x j = h j := by
  intro fuel
  induction fuel with
  | zero => intro h r hr; rw [mem_Icc] at hr; exact put_ne _ _ (show j ≠ r by omega)
  | succ fuel ih =>
    intro h r hr
    rw [mem_Icc] at hr
    rw [down_succ]
    split_ifs with h1 h2
    · exact put_ne _ _ (by omega)
    · exact put_ne _ _ (by omega)
    · obtain ⟨c1, c2, -, -, -⟩ := child_spec (h := h) hr.1 h1
      rw [ih _ _ (mem_Icc.2 ⟨by omega, c2⟩), put_ne _ _ (by omega)]

theorem up_frame {n : ℕ} (e : K) (x : Rec K) {j : ℕ} (hj : j = 0 ∨ n < j) : ∀ (fuel : ℕ) (h : ℕ → Rec K) (r : ℕ), r ∈ Icc 1 n → store (up e fuel h r) x j = h j := by
  intro fuel
  induction fuel with
  | zero => intro h r hr; rw [mem_Icc] at hr; exact put_ne _ _ (show j ≠ r by omega)
  | succ fuel ih =>
    intro h r hr
    rw [mem_Icc] at hr
    rw [up]
    split_ifs with h1 h2
    · exact put_ne _ _ (by omega)
    · exact put_ne _ _ (by omega)
    · rw [ih _ _ (mem_Icc.2 ⟨by omega, by omega⟩), put_ne _ _ (by omega)]

/-! ## The order of the list -/

/-- No record has a larger error than its parent. -/
def Ord (h : ℕ → Rec K) (n : ℕ) : Prop := ∀ k, 2 ≤ k → k ≤ n → (h k).err ≤ (h (k / 2)).err

theorem ord_max {h : ℕ → Rec K} {n : ℕ} (ho : Ord h n) : ∀ k, 1 ≤ k → k ≤ n → (h k).err ≤ (h 1).err := by
  intro k
  induction k using Nat.strong_induction_on with
  | _ k ih =>
    intro h1 h2
    by_cases hk : k = 1
    · subst hk; exact le_rfl
    · exact (ho k (by omega) h2).trans (ih (k / 2) (by omega) (by omega) (by omega))

theorem down_ord {n : ℕ} {x : Rec K} : ∀ (fuel : ℕ) (h : ℕ → Rec K) (r : ℕ), 1 ≤ r → r ≤ n → n < r * 2 ^ fuel →
    (∀ k, 2 ≤ k → k ≤ n → k ≠ r → k / 2 ≠ r → (h k).err ≤ (h (k / 2)).err) →
    (2 ≤ r → x.err ≤ (h (r / 2)).err) →
    (∀ k, 2 ≤ k → k ≤ n → k / 2 = r → 2 ≤ r → (h k).err ≤ (h (r / 2)).err) →
    Ord (store (down n x.err fuel h r) x) n := by
  intro fuel
  induction fuel with
  | zero => intro h r h1 h2 h3; simp at h3; omega
  | succ fuel ih =>
    intro h r h1 h2 h3 hA hB hC
    rw [down_succ]
    split_ifs with c1 c2
    · intro k k1 k2
      by_cases e1 : k = r
      · subst e1
        simp only [store]
        rw [put_self, put_ne _ _ (by omega)]; exact hB k1
      · simp only [store]
        rw [put_ne _ _ e1, put_ne _ _ (by omega)]; exact hA k k1 k2 e1 (by omega)
    · obtain ⟨q1, q2, q3, q4, q5⟩ := child_spec (h := h) h1 c1
      intro k k1 k2
      simp only [store]
      by_cases e1 : k = r
      · subst e1
        rw [put_self, put_ne _ _ (by omega)]; exact hB k1
      · rw [put_ne _ _ e1]
        by_cases e2 : k / 2 = r
        · rw [e2, put_self]; exact (q5 k k2 e2).trans c2
        · rw [put_ne _ _ e2]; exact hA k k1 k2 e1 e2
    · obtain ⟨q1, q2, q3, q4, q5⟩ := child_spec (h := h) h1 c1
      generalize child n h r = t at *
      apply ih _ t (by omega) q2
      · rw [pow_succ] at h3
        calc n < r * (2 ^ fuel * 2) := h3
          _ = 2 * r * 2 ^ fuel := by ring
          _ ≤ t * 2 ^ fuel := Nat.mul_le_mul_right _ q4
      · intro k k1 k2 e1 e2
        by_cases e3 : k = r
        · subst e3
          rw [put_self, put_ne _ _ (by omega)]
          exact hC t (by omega) q2 q3 k1
        · rw [put_ne _ _ e3]
          by_cases e4 : k / 2 = r
          · rw [e4, put_self]; exact q5 k k2 e4
          · rw [put_ne _ _ e4]; exact hA k k1 k2 e3 e4
      · intro _
        rw [q3, put_self]; exact (not_le.1 c2).le
      · intro k k1 k2 e1 _
        rw [q3, put_self, put_ne _ _ (by omega)]
        have := hA k k1 k2 (by omega) (by omega)
        rwa [e1] at this

theorem up_ord {n : ℕ} {x : Rec K} : ∀ (fuel : ℕ) (h : ℕ → Rec K) (r : ℕ), 1 ≤ r → r ≤ n → r < 2 ^ fuel →
    (∀ k, 2 ≤ k → k ≤ n → k ≠ r → k / 2 ≠ r → (h k).err ≤ (h (k / 2)).err) →
    (∀ k, 2 ≤ k → k ≤ n → k / 2 = r → (h k).err ≤ x.err ∧ (2 ≤ r → (h k).err ≤ (h (r / 2)).err)) →
    Ord (store (up x.err fuel h r) x) n := by
  intro fuel
  induction fuel with
  | zero => intro h r h1 h2 h3; simp at h3; omega
  | succ fuel ih =>
    intro h r h1 h2 h3 hA hD
    rw [up]
    split_ifs with c1 c2
    · intro k k1 k2
      simp only [store]
      rw [put_ne _ _ (by omega)]
      by_cases e2 : k / 2 = r
      · rw [e2, put_self]; exact (hD k k1 k2 e2).1
      · rw [put_ne _ _ e2]; exact hA k k1 k2 (by omega) e2
    · intro k k1 k2
      simp only [store]
      by_cases e1 : k = r
      · subst e1
        rw [put_self, put_ne _ _ (by omega)]; exact c2
      · rw [put_ne _ _ e1]
        by_cases e2 : k / 2 = r
        · rw [e2, put_self]; exact (hD k k1 k2 e2).1
        · rw [put_ne _ _ e2]; exact hA k k1 k2 e1 e2
    · have hlt := not_le.1 c2
      apply ih _ (r / 2) (by omega) (by omega)
      · rw [pow_succ] at h3; omega
      · intro k k1 k2 e1 e2
        rw [put_ne _ _ (show k ≠ r by rintro rfl; exact e2 rfl)]
        by_cases e4 : k / 2 = r
        · rw [e4, put_self]
          exact (hD k k1 k2 e4).2 (by omega)
        · rw [put_ne _ _ e4]; exact hA k k1 k2 (by rintro rfl; exact e2 rfl) e4
      · intro k k1 k2 e1
        have ht : 2 ≤ r / 2 → (h (r / 2)).err ≤ (h (r / 2 / 2)).err := fun h' => hA (r / 2) h' (by omega) (by omega) (by omega)
        by_cases e3 : k = r
        · subst e3
          rw [put_self]
          refine ⟨hlt.le, fun h' => ?_⟩
          rw [put_ne _ _ (by omega)]; exact ht h'
        · rw [put_ne _ _ e3]
          have hk := hA k k1 k2 e3 (by omega)
          rw [e1] at hk
          refine ⟨hk.trans hlt.le, fun h' => ?_⟩
          rw [put_ne _ _ (by omega)]; exact hk.trans (ht h')

/-! ## The basic rule -/

theorem orderErr_nonneg (I : ℕ → K) (m : ℕ) : 0 ≤ (orderErr I m).1 := by
  unfold orderErr
  dsimp only
  split_ifs with h
  · exact mul_nonneg (abs_nonneg _) (le_max_of_le_left (by positivity))
  · exact abs_nonneg _

theorem orders_spec (s : Sym K) (maxvls : ℕ) (errmin : K) : ∀ (cnt m : ℕ), 0 ≤ (orders s maxvls errmin cnt m).1 ∧ m ≤ (orders s maxvls errmin cnt m).2 ∧ (orders s maxvls errmin cnt m).2 ≤ m + cnt ∧
    (orders s maxvls errmin cnt m).1 = (orderErr s.val (orders s maxvls errmin cnt m).2).1 := by
  intro cnt
  induction cnt with
  | zero => exact fun m => ⟨orderErr_nonneg _ _, le_rfl, le_rfl, rfl⟩
  | succ cnt ih =>
    intro m
    rw [orders]
    dsimp only
    split_ifs
    · exact ⟨orderErr_nonneg _ _, le_rfl, by omega, rfl⟩
    · exact ⟨orderErr_nonneg _ _, le_rfl, by omega, rfl⟩
    · exact ⟨orderErr_nonneg _ _, le_rfl, by omega, rfl⟩
    · obtain ⟨a, b, c, d⟩ := ih (m + 1)
      exact ⟨a, by omega, by omega, d⟩

theorem axes_spec (f : (ℕ → K) → K) (b : Box K) : ∀ (cnt i : ℕ) (s : K × ℕ), s.1 ≤ (axes f b cnt i s).1 ∧ (∀ j, i ≤ j → j < i + cnt → fourth f b j ≤ (axes f b cnt i s).1) ∧
    ((axes f b cnt i s) = s ∨ ∃ j, i ≤ j ∧ j < i + cnt ∧ (axes f b cnt i s) = (fourth f b j, j)) := by
  intro cnt
  induction cnt with
  | zero => exact fun i s => ⟨le_rfl, fun j a c => by omega, Or.inl rfl⟩
  | succ cnt ih =>
    intro i s
    rw [axes]
    obtain ⟨a, c, d⟩ := ih (i + 1) (if fourth f b i < s.1 then s else (fourth f b i, i))
    refine ⟨?_, ?_, ?_⟩
    · refine le_trans ?_ a
      split_ifs with h
      · exact le_rfl
      · exact not_lt.1 h
    · intro j j1 j2
      by_cases hj : j = i
      · subst hj
        refine le_trans ?_ a
        split_ifs with h
        · exact h.le
        · exact le_rfl
      · exact c j (by omega) (by omega)
    · rcases d with d | ⟨j, j1, j2, d⟩
      · by_cases h : fourth f b i < s.1
        · rw [if_pos h] at d ⊢; exact Or.inl d
        · rw [if_neg h] at d ⊢; exact Or.inr ⟨i, le_rfl, by omega, d⟩
      · exact Or.inr ⟨j, by omega, by omega, d⟩

theorem fourth_nonneg (f : (ℕ → K) → K) (b : Box K) (i : ℕ) : 0 ≤ fourth f b i := abs_nonneg _

theorem axes_all (f : (ℕ → K) → K) (b : Box K) {n : ℕ} (hn : 1 ≤ n) : ∃ j, 1 ≤ j ∧ j ≤ n ∧ axes f b n 1 (-1, 0) = (fourth f b j, j) ∧ ∀ i, 1 ≤ i → i ≤ n → fourth f b i ≤ fourth f b j := by
  obtain ⟨a, c, d⟩ := axes_spec f b n 1 (-1, 0)
  rcases d with d | ⟨j, j1, j2, d⟩
  · have := c 1 le_rfl (by omega)
    rw [d] at this
    have := fourth_nonneg f b 1
    dsimp only at *
    linarith
  · refine ⟨j, j1, by omega, d, fun i i1 i2 => ?_⟩
    have := c i i1 (by omega)
    rwa [d] at this

/-- What the main loop needs of a basic rule. -/
structure Good (n : ℕ) (rule : Box K → ℕ → K → ℕ → Rule K) : Prop where
  err : ∀ b m e d, 0 ≤ (rule b m e d).err
  axis : ∀ b m e d, 1 ≤ (rule b m e d).axis ∧ (rule b m e d).axis ≤ n
  calls : ∀ b m e d, 1 ≤ (rule b m e d).calls

theorem bsrl_good (symrl : ((ℕ → K) → K) → Box K → Sym K) {n : ℕ} (hn : 1 ≤ n) (f : (ℕ → K) → K) : Good n (bsrl symrl n f) := by
  refine ⟨fun b m e d => (orders_spec _ _ _ 8 4).1, fun b m e d => ?_, fun b m e d => ?_⟩
  · obtain ⟨j, j1, j2, hj, -⟩ := axes_all f b hn
    unfold bsrl
    dsimp only
    rw [hj]
    dsimp only
    split_ifs
    · exact ⟨by omega, by have := Nat.mod_lt d (show 0 < n by omega); omega⟩
    · exact ⟨j1, j2⟩
  · unfold bsrl; dsimp only; omega

/-! ## Boxes -/

/-- The two halves of a box along an axis. -/
def halves (b : Box K) (i : ℕ) : Box K × Box K :=
  let w := put b.width i (b.width i / 2)
  (⟨put b.center i (b.center i - b.width i / 2), w⟩, ⟨put b.center i (b.center i + b.width i / 2), w⟩)

/-- The point `x` is in the box, which contains its lower but not its upper sides. -/
def Box.Mem (n : ℕ) (b : Box K) (x : ℕ → K) : Prop := ∀ j, 1 ≤ j → j ≤ n → b.center j - b.width j ≤ x j ∧ x j < b.center j + b.width j

/-- The states that the main loop gets to. -/
inductive Reach (g : Args K) (init : ℕ → Rec K) : St K → Prop
  | start : Reach g init (start g init)
  | split {s} : Reach g init s → ¬ ifail g s < 3 → Reach g init (split g s)

theorem split_eq (g : Args K) (s : St K) : ∃ (L R : Rec K) (m : ℕ) (e : K), let top := s.heap 1
    L.box = (halves top.box top.axis).1 ∧ R.box = (halves top.box top.axis).2 ∧
    (let o := g.rule L.box m e top.axis; L.err = o.err ∧ L.val = o.val ∧ L.axis = o.axis) ∧ (let o := g.rule R.box m e top.axis; R.err = o.err ∧ R.val = o.val ∧ R.axis = o.axis) ∧
    split g s = ⟨store (up R.err (s.n + 1) (store (down s.n L.err s.n s.heap 1) L) (s.n + 1)) R, s.n + 1, s.finest - top.val + L.val + R.val, (relerr s).1 - top.err + L.err + R.err,
      s.funcls + (g.rule L.box m e top.axis).calls + (g.rule R.box m e top.axis).calls⟩ := by
  set top := s.heap 1 with htop
  set m := g.maxpts / (2 * s.n)
  set e := |s.finest| * g.eps / ((2 * s.n : ℕ) : K)
  set w := put top.box.width top.axis (top.box.width top.axis * (1 / 2)) with hw
  set left : Box K := ⟨put top.box.center top.axis (top.box.center top.axis - w top.axis), w⟩ with hl
  set right : Box K := ⟨put left.center top.axis (left.center top.axis + 2 * w top.axis), w⟩ with hr
  refine ⟨⟨(g.rule left m e top.axis).err, (g.rule left m e top.axis).val, (g.rule left m e top.axis).axis, left⟩,
    ⟨(g.rule right m e top.axis).err, (g.rule right m e top.axis).val, (g.rule right m e top.axis).axis, right⟩, m, e, ?_, ?_, ⟨rfl, rfl, rfl⟩, ⟨rfl, rfl, rfl⟩, rfl⟩
  · dsimp only
    rw [hl, hw]
    simp only [halves, put_self]
    congr 2
    · ring
    · ring
  · dsimp only
    rw [hr, hl, hw]
    simp only [halves, put_self, put_put]
    congr 2
    · ring
    · ring

/-- The records after a division: those before, without the first, and the two halves. -/
theorem split_sum {s : St K} (hn : 1 ≤ s.n) (f : Rec K → M) (L R : Rec K) :
    (∑ k ∈ Icc 1 (s.n + 1), f (store (up R.err (s.n + 1) (store (down s.n L.err s.n s.heap 1) L) (s.n + 1)) R k)) + f (s.heap 1) = (∑ k ∈ Icc 1 s.n, f (s.heap k)) + f L + f R := by
  rw [up_sum f _ R _ _ _ (mem_Icc.2 ⟨by omega, le_rfl⟩), sum_Icc_succ_top (by omega), put_self]
  have e1 : ∑ k ∈ Icc 1 s.n, f (put (store (down s.n L.err s.n s.heap 1) L) (s.n + 1) R k) = ∑ k ∈ Icc 1 s.n, f (store (down s.n L.err s.n s.heap 1) L k) :=
    sum_congr rfl fun k hk => by rw [mem_Icc] at hk; rw [put_ne _ _ (by omega)]
  rw [e1, down_sum f _ L _ _ _ (mem_Icc.2 ⟨le_rfl, hn⟩)]
  have e2 : ∀ h : ℕ → Rec K, ∑ k ∈ Icc 1 s.n, f (h k) = f (h 1) + ∑ k ∈ Icc 2 s.n, f (h k) := fun h => by
    rw [← Finset.sum_erase_add _ _ (mem_Icc.2 ⟨le_rfl, hn⟩), add_comm]
    congr 1
    refine sum_congr ?_ fun _ _ => rfl
    ext k; simp only [mem_erase, mem_Icc]; omega
  rw [e2, e2 s.heap, put_self]
  have e3 : ∑ k ∈ Icc 2 s.n, f (put s.heap 1 L k) = ∑ k ∈ Icc 2 s.n, f (s.heap k) := sum_congr rfl fun k hk => by rw [mem_Icc] at hk; rw [put_ne _ _ (by omega)]
  rw [e3]
  abel

theorem lt_two_pow' (n : ℕ) : n < 2 ^ n := Nat.lt_two_pow_self

/-- The order of the list after a division. -/
theorem split_ord {s : St K} (hn : 1 ≤ s.n) (ho : Ord s.heap s.n) (L R : Rec K) : Ord (store (up R.err (s.n + 1) (store (down s.n L.err s.n s.heap 1) L) (s.n + 1)) R) (s.n + 1) := by
  have h1 : Ord (store (down s.n L.err s.n s.heap 1) L) s.n := by
    apply down_ord s.n s.heap 1 le_rfl hn
    · rw [one_mul]; exact lt_two_pow' _
    · intro k k1 k2 _ _; exact ho k k1 k2
    · omega
    · omega
  apply up_ord _ _ _ (by omega) le_rfl (lt_two_pow' _)
  · intro k k1 k2 e1 _; exact h1 k k1 (by omega)
  · intro k k1 k2 e1; omega

end Verif.Adapt
