import Verif.Integrate.Dcuhre
import Verif.Integrate.AdaptProps
import Mathlib.Tactic.Order

/-!
# Lemmas about the vector integrator DCUHRE
-/

set_option linter.unusedSectionVars false
set_option linter.unusedSimpArgs false

namespace Verif.Dcuhre

open Finset
open Verif.Adapt (put Box put_self put_ne put_put sum_move halves)

variable {K : Type*} [Field K] [LinearOrder K] [IsStrictOrderedRing K] {M : Type*} [AddCommMonoid M]

/-- A record put into its place. -/
def store (p : (ℕ → Rg K) × ℕ) (x : Rg K) : ℕ → Rg K := put p.1 p.2 x

/-- The child that is compared. -/
def child (n : ℕ) (h : ℕ → Rg K) (r : ℕ) : ℕ := if 2 * r = n then 2 * r else if (h (2 * r)).great < (h (2 * r + 1)).great then 2 * r + 1 else 2 * r

theorem child_spec {n : ℕ} {h : ℕ → Rg K} {r : ℕ} (hr : 1 ≤ r) (h2 : ¬ 2 * r > n) : r < child n h r ∧ child n h r ≤ n ∧ child n h r / 2 = r ∧ 2 * r ≤ child n h r ∧ ∀ k, k ≤ n → k / 2 = r → (h k).great ≤ (h (child n h r)).great := by
  unfold child
  split_ifs with a b
  · refine ⟨by omega, by omega, by omega, by omega, fun k h1 h3 => ?_⟩
    have : k = 2 * r := by omega
    rw [this]
  · refine ⟨by omega, by omega, by omega, by omega, fun k h1 h3 => ?_⟩
    have : k = 2 * r ∨ k = 2 * r + 1 := by omega
    rcases this with rfl | rfl
    · exact b.le
    · exact le_rfl
  · refine ⟨by omega, by omega, by omega, by omega, fun k h1 h3 => ?_⟩
    have : k = 2 * r ∨ k = 2 * r + 1 := by omega
    rcases this with rfl | rfl
    · exact le_rfl
    · exact not_lt.1 b

theorem down_succ (n : ℕ) (e : K) (fuel : ℕ) (h : ℕ → Rg K) (r : ℕ) :
    down n e (fuel + 1) h r = if 2 * r > n then (h, r) else if e ≥ (h (child n h r)).great then (h, r) else down n e fuel (put h r (h (child n h r))) (child n h r) := by
  have e1 : (if 2 * r ≠ n then (if (h (2 * r)).great < (h (2 * r + 1)).great then 2 * r + 1 else 2 * r) else 2 * r) = child n h r := by
    unfold child
    rw [ite_not]
  simp only [down]
  rw [e1]
  by_cases h1 : 2 * r > n
  · rw [if_neg (not_le.2 h1), if_pos h1]
  · rw [if_pos (not_lt.1 h1), if_neg h1]
    by_cases h2 : e ≥ (h (child n h r)).great
    · rw [if_neg (not_lt.2 h2), if_pos h2]
    · rw [if_pos (not_le.1 h2), if_neg h2]

theorem up_succ (e : K) (fuel : ℕ) (h : ℕ → Rg K) (r : ℕ) :
    up e (fuel + 1) h r = if r / 2 < 1 then (h, r) else if e ≤ (h (r / 2)).great then (h, r) else up e fuel (put h r (h (r / 2))) (r / 2) := by
  simp only [up]
  by_cases h1 : r / 2 < 1
  · rw [if_neg (by omega), if_pos h1]
  · rw [if_pos (by omega), if_neg h1]
    by_cases h2 : e ≤ (h (r / 2)).great
    · rw [if_neg (not_lt.2 h2), if_pos h2]
    · rw [if_pos (not_le.1 h2), if_neg h2]

theorem down_sum (g : Rg K → M) {n : ℕ} (e : K) (x : Rg K) : ∀ (fuel : ℕ) (h : ℕ → Rg K) (r : ℕ), r ∈ Icc 1 n →
    ∑ k ∈ Icc 1 n, g (store (down n e fuel h r) x k) = ∑ k ∈ Icc 1 n, g (put h r x k) := by
  intro fuel
  induction fuel with
  | zero => intro h r hr; rfl
  | succ fuel ih =>
    intro h r hr
    rw [mem_Icc] at hr
    rw [down_succ]
    split_ifs with h1 h2
    · rfl
    · rfl
    · obtain ⟨c1, c2, -, -, -⟩ := child_spec (h := h) hr.1 h1
      have hc : child n h r ∈ Icc 1 n := mem_Icc.2 ⟨by omega, c2⟩
      rw [ih _ _ hc, sum_move g h (mem_Icc.2 hr) hc]

theorem up_sum (g : Rg K → M) {n : ℕ} (e : K) (x : Rg K) : ∀ (fuel : ℕ) (h : ℕ → Rg K) (r : ℕ), r ∈ Icc 1 n →
    ∑ k ∈ Icc 1 n, g (store (up e fuel h r) x k) = ∑ k ∈ Icc 1 n, g (put h r x k) := by
  intro fuel
  induction fuel with
  | zero => intro h r hr; rfl
  | succ fuel ih =>
    intro h r hr
    rw [mem_Icc] at hr
    rw [up_succ]
    split_ifs with h1 h2
    · rfl
    · rfl
    · have hc : r / 2 ∈ Icc 1 n := mem_Icc.2 ⟨by omega, by omega⟩
      rw [ih _ _ hc, sum_move g h (mem_Icc.2 hr) hc]

/-- Records outside the list are not touched. -/
theorem down_frame {n : ℕ} (e : K) (x : Rg K) {j : ℕ} (hj : j = 0 ∨ n < j) : ∀ (fuel : ℕ) (h : ℕ → Rg K) (r : ℕ), r ∈ Icc 1 n → store (down n e fuel h r) x j = h j := by
  intro fuel
  induction fuel with
  | zero => intro h r hr; rw [mem_Icc] at hr; exact put_ne _ _ (show j ≠ r by omega)
  | succ fuel ih =>
    intro h r hr
    rw [mem_Icc] at hr
    rw [down_succ]
    split_ifs with h1 h2
    · exact put_ne _ _ (by omega)
    · exact put_ne _ _ (by omega)
    · obtain ⟨c1, c2, -, -, -⟩ := child_spec (h := h) hr.1 h1
      rw [ih _ _ (mem_Icc.2 ⟨by omega, c2⟩), put_ne _ _ (by omega)]

theorem up_frame {n : ℕ} (e : K) (x : Rg K) {j : ℕ} (hj : j = 0 ∨ n < j) : ∀ (fuel : ℕ) (h : ℕ → Rg K) (r : ℕ), r ∈ Icc 1 n → store (up e fuel h r) x j = h j := by
  intro fuel
  induction fuel with
  | zero => intro h r hr; rw [mem_Icc] at hr; exact put_ne _ _ (show j ≠ r by omega)
  | succ fuel ih =>
    intro h r hr
    rw [mem_Icc] at hr
    rw [up_succ]
    split_ifs with h1 h2
    · exact put_ne _ _ (by omega)
    · exact put_ne _ _ (by omega)
    · rw [ih _ _ (mem_Icc.2 ⟨by omega, by omega⟩), put_ne _ _ (by omega)]

/-! ## The order of the list -/

/-- No record has a larger error than its parent. -/
def Ord (h : ℕ → Rg K) (n : ℕ) : Prop := ∀ k, 2 ≤ k → k ≤ n → (h k).great ≤ (h (k / 2)).great

theorem ord_max {h : ℕ → Rg K} {n : ℕ} (ho : Ord h n) : ∀ k, 1 ≤ k → k ≤ n → (h k).great ≤ (h 1).great := by
  intro k
  induction k using Nat.strong_induction_on with
  | _ k ih =>
    intro h1 h2
    by_cases hk : k = 1
    · subst hk; exact le_rfl
    · exact (ho k (by omega) h2).trans (ih (k / 2) (by omega) (by omega) (by omega))

theorem down_ord {n : ℕ} {x : Rg K} : ∀ (fuel : ℕ) (h : ℕ → Rg K) (r : ℕ), 1 ≤ r → r ≤ n → n < r * 2 ^ fuel →
    (∀ k, 2 ≤ k → k ≤ n → k ≠ r → k / 2 ≠ r → (h k).great ≤ (h (k / 2)).great) →
    (2 ≤ r → x.great ≤ (h (r / 2)).great) →
    (∀ k, 2 ≤ k → k ≤ n → k / 2 = r → 2 ≤ r → (h k).great ≤ (h (r / 2)).great) →
    Ord (store (down n x.great fuel h r) x) n := by
  intro fuel
  induction fuel with
  | zero => intro h r h1 h2 h3; simp at h3; omega
  | succ fuel ih =>
    intro h r h1 h2 h3 hA hB hC
    rw [down_succ]
    split_ifs with c1 c2
    · intro k k1 k2
      by_cases e1 : k = r
      · subst e1
        simp only [store]
        rw [put_self, put_ne _ _ (by omega)]; exact hB k1
      · simp only [store]
        rw [put_ne _ _ e1, put_ne _ _ (by omega)]; exact hA k k1 k2 e1 (by omega)
    · obtain ⟨q1, q2, q3, q4, q5⟩ := child_spec (h := h) h1 c1
      intro k k1 k2
      simp only [store]
      by_cases e1 : k = r
      · subst e1
        rw [put_self, put_ne _ _ (by omega)]; exact hB k1
      · rw [put_ne _ _ e1]
        by_cases e2 : k / 2 = r
        · rw [e2, put_self]; exact (q5 k k2 e2).trans c2
        · rw [put_ne _ _ e2]; exact hA k k1 k2 e1 e2
    · obtain ⟨q1, q2, q3, q4, q5⟩ := child_spec (h := h) h1 c1
      generalize child n h r = t at *
      apply ih _ t (by omega) q2
      · rw [pow_succ] at h3
        calc n < r * (2 ^ fuel * 2) := h3
          _ = 2 * r * 2 ^ fuel := by ring
          _ ≤ t * 2 ^ fuel := Nat.mul_le_mul_right _ q4
      · intro k k1 k2 e1 e2
        by_cases e3 : k = r
        · subst e3
          rw [put_self, put_ne _ _ (by omega)]
          exact hC t (by omega) q2 q3 k1
        · rw [put_ne _ _ e3]
          by_cases e4 : k / 2 = r
          · rw [e4, put_self]; exact q5 k k2 e4
          · rw [put_ne _ _ e4]; exact hA k k1 k2 e3 e4
      · intro _
        rw [q3, put_self]; exact (not_le.1 c2).le
      · intro k k1 k2 e1 _
        rw [q3, put_self, put_ne _ _ (by omega)]
        have := hA k k1 k2 (by omega) (by omega)
        rwa [e1] at this

theorem up_ord {n : ℕ} {x : Rg K} : ∀ (fuel : ℕ) (h : ℕ → Rg K) (r : ℕ), 1 ≤ r → r ≤ n → r < 2 ^ fuel →
    (∀ k, 2 ≤ k → k ≤ n → k ≠ r → k / 2 ≠ r → (h k).great ≤ (h (k / 2)).great) →
    (∀ k, 2 ≤ k → k ≤ n → k / 2 = r → (h k).great ≤ x.great ∧ (2 ≤ r → (h k).great ≤ (h (r / 2)).great)) →
    Ord (store (up x.great fuel h r) x) n := by
  intro fuel
  induction fuel with
  | zero => intro h r h1 h2 h3; simp at h3; omega
  | succ fuel ih =>
    intro h r h1 h2 h3 hA hD
    rw [up_succ]
    split_ifs with c1 c2
    · intro k k1 k2
      simp only [store]
      rw [put_ne _ _ (by omega)]
      by_cases e2 : k / 2 = r
      · rw [e2, put_self]; exact (hD k k1 k2 e2).1
      · rw [put_ne _ _ e2]; exact hA k k1 k2 (by omega) e2
    · intro k k1 k2
      simp only [store]
      by_cases e1 : k = r
      · subst e1
        rw [put_self, put_ne _ _ (by omega)]; exact c2
      · rw [put_ne _ _ e1]
        by_cases e2 : k / 2 = r
        · rw [e2, put_self]; exact (hD k k1 k2 e2).1
        · rw [put_ne _ _ e2]; exact hA k k1 k2 e1 e2
    · have hlt := not_le.1 c2
      apply ih _ (r / 2) (by omega) (by omega)
      · rw [pow_succ] at h3; omega
      · intro k k1 k2 e1 e2
        rw [put_ne _ _ (show k ≠ r by rintro rfl; exact e2 rfl)]
        by_cases e4 : k / 2 = r
        · rw [e4, put_self]
          exact (hD k k1 k2 e4).2 (by omega)
        · rw [put_ne _ _ e4]; exact hA k k1 k2 (by rintro rfl; exact e2 rfl) e4
      · intro k k1 k2 e1
        have ht : 2 ≤ r / 2 → (h (r / 2)).great ≤ (h (r / 2 / 2)).great := fun h' => hA (r / 2) h' (by omega) (by omega) (by omega)
        by_cases e3 : k = r
        · subst e3
          rw [put_self]
          refine ⟨hlt.le, fun h' => ?_⟩
          rw [put_ne _ _ (by omega)]; exact ht h'
        · rw [put_ne _ _ e3]
          have hk := hA k k1 k2 e3 (by omega)
          rw [e1] at hk
          refine ⟨hk.trans hlt.le, fun h' => ?_⟩
          rw [put_ne _ _ (by omega)]; exact hk.trans (ht h')


/-! ## Removal and insertion -/

theorem remove_eq {n : ℕ} (h : ℕ → Rg K) (hn : 2 ≤ n) : remove n h = store (down (n - 1) (h n).great n h 1) (h n) := by
  unfold remove
  dsimp only
  rw [if_pos (by omega)]
  rfl

theorem remove_one (h : ℕ → Rg K) : remove 1 h = h := by
  unfold remove
  dsimp only
  rw [if_neg (by omega), down, ]
  simp

theorem insert_eq {n : ℕ} (h : ℕ → Rg K) (hn : 1 ≤ n) : insert n h = store (up (h n).great n h n) (h n) := by
  unfold insert
  dsimp only
  rw [if_pos (by omega)]
  rfl

theorem sum_first (f : Rg K → M) (h : ℕ → Rg K) {n : ℕ} (hn : 1 ≤ n) : ∑ k ∈ Icc 1 n, f (h k) = f (h 1) + ∑ k ∈ Icc 2 n, f (h k) := by
  rw [← Finset.sum_erase_add _ _ (mem_Icc.2 ⟨le_rfl, hn⟩), add_comm]
  congr 1
  refine sum_congr ?_ fun _ _ => rfl
  ext k; simp only [mem_erase, mem_Icc]; omega

theorem remove_sum (f : Rg K → M) (h : ℕ → Rg K) {n : ℕ} (hn : 1 ≤ n) : (∑ k ∈ Icc 1 (n - 1), f (remove n h k)) + f (h 1) = ∑ k ∈ Icc 1 n, f (h k) := by
  by_cases h1 : n = 1
  · subst h1; simp
  · obtain ⟨m, rfl⟩ : ∃ m, n = m + 1 := ⟨n - 1, by omega⟩
    rw [remove_eq h (by omega), Nat.add_sub_cancel, down_sum f _ _ _ _ _ (mem_Icc.2 ⟨le_rfl, by omega⟩), sum_Icc_succ_top (by omega),
      sum_first f _ (by omega), sum_first f h (show 1 ≤ m by omega), put_self]
    have e3 : ∑ k ∈ Icc 2 m, f (put h 1 (h (m + 1)) k) = ∑ k ∈ Icc 2 m, f (h k) := sum_congr rfl fun k hk => by rw [mem_Icc] at hk; rw [put_ne _ _ (by omega)]
    rw [e3]
    abel

theorem remove_frame (h : ℕ → Rg K) {n j : ℕ} (hj : j = 0 ∨ n ≤ j) (hn : 1 ≤ n) : remove n h j = h j := by
  by_cases h1 : n = 1
  · subst h1; rw [remove_one]
  · rw [remove_eq h (by omega)]
    exact down_frame _ _ (by omega) _ _ _ (mem_Icc.2 ⟨le_rfl, by omega⟩)

theorem remove_ord {h : ℕ → Rg K} {n : ℕ} (ho : Ord h n) : Ord (remove n h) (n - 1) := by
  by_cases h1 : n ≤ 1
  · intro k k1 k2; omega
  · rw [remove_eq h (by omega)]
    apply down_ord n h 1 le_rfl (by omega)
    · rw [one_mul]; exact lt_of_le_of_lt (Nat.sub_le _ _) Nat.lt_two_pow_self
    · intro k k1 k2 _ _; exact ho k k1 (by omega)
    · omega
    · omega

theorem insert_sum (f : Rg K → M) (h : ℕ → Rg K) {n : ℕ} (hn : 1 ≤ n) : ∑ k ∈ Icc 1 n, f (insert n h k) = ∑ k ∈ Icc 1 n, f (h k) := by
  rw [insert_eq h hn, up_sum f _ _ _ _ _ (mem_Icc.2 ⟨hn, le_rfl⟩)]
  refine sum_congr rfl fun k _ => ?_
  by_cases hk : k = n
  · subst hk; rw [put_self]
  · rw [put_ne _ _ hk]

theorem insert_frame (h : ℕ → Rg K) {n j : ℕ} (hj : j = 0 ∨ n < j) (hn : 1 ≤ n) : insert n h j = h j := by
  rw [insert_eq h hn]
  exact up_frame _ _ hj _ _ _ (mem_Icc.2 ⟨hn, le_rfl⟩)

theorem insert_ord {h : ℕ → Rg K} {n : ℕ} (hn : 1 ≤ n) (ho : Ord h (n - 1)) : Ord (insert n h) n := by
  rw [insert_eq h hn]
  apply up_ord _ _ _ hn le_rfl Nat.lt_two_pow_self
  · intro k k1 k2 e1 _; exact ho k k1 (by omega)
  · intro k k1 k2 e1; omega

/-! ## A division -/

/-- The two new regions. -/
structure New (g : Args K) (top L R : Rg K) : Prop where
  boxL : L.box = (halves top.box top.dir).1
  boxR : R.box = (halves top.box top.dir).2
  valL : L.val = (g.rule L.box).val
  valR : R.val = (g.rule R.box).val
  dirL : L.dir = (g.rule L.box).dir
  dirR : R.dir = (g.rule R.box).dir
  errL : ∀ j, L.err j = adjust g (top.val j) (R.val j) (L.val j) ((g.rule R.box).err j) ((g.rule L.box).err j) ((g.rule L.box).err j)
  errR : ∀ j, R.err j = adjust g (top.val j) (R.val j) (L.val j) ((g.rule R.box).err j) ((g.rule L.box).err j) ((g.rule R.box).err j)
  greatL : L.great = greatest L.err g.numfun 1 0
  greatR : R.great = greatest R.err g.numfun 1 0

theorem put_four (h : ℕ → Rg K) {n : ℕ} (x y z w : Rg K) : put (put (put (put h n x) (n + 1) y) n z) (n + 1) w = put (put h n z) (n + 1) w := by
  funext k
  by_cases h1 : k = n + 1
  · subst h1; rw [put_self, put_self]
  · rw [put_ne _ _ h1, put_ne _ _ h1]
    by_cases h2 : k = n
    · subst h2; rw [put_self, put_self]
    · rw [put_ne _ _ h2, put_ne _ _ h1, put_ne _ _ h2, put_ne _ _ h2]

theorem split_eq (g : Args K) (s : St K) (hn : 1 ≤ s.n) : ∃ (L R : Rg K) (h : ℕ → Rg K), New g (s.heap 1) L R ∧ (∀ k, k ≠ s.n + 1 → h k = s.heap k) ∧
    split g s = ⟨insert (s.n + 1) (insert s.n (put (put (remove s.n h) s.n R) (s.n + 1) L)), s.n + 1, fun j => s.res j - (s.heap 1).val j + R.val j + L.val j,
      fun j => s.abserr j - (s.heap 1).err j + R.err j + L.err j, s.neval + 2 * g.num⟩ := by
  have en : s.n - 1 + 1 = s.n := by omega
  have en2 : s.n - 1 + 2 = s.n + 1 := by omega
  have hne : s.n + 1 ≠ s.n := by omega
  have hf : ∀ X, remove s.n (put s.heap (s.n + 1) X) (s.n + 1) = X := fun X => by
    rw [remove_frame _ (Or.inr (by omega)) hn, put_self]
  obtain ⟨top, htop⟩ : ∃ t, s.heap 1 = t := ⟨_, rfl⟩
  set l := (halves top.box top.dir).1 with hl
  set r := (halves top.box top.dir).2 with hr
  refine ⟨⟨greatest (fun j => adjust g (top.val j) ((g.rule r).val j) ((g.rule l).val j) ((g.rule r).err j) ((g.rule l).err j) ((g.rule l).err j)) g.numfun 1 0, (g.rule l).dir, (g.rule l).val,
    fun j => adjust g (top.val j) ((g.rule r).val j) ((g.rule l).val j) ((g.rule r).err j) ((g.rule l).err j) ((g.rule l).err j), l⟩,
    ⟨greatest (fun j => adjust g (top.val j) ((g.rule r).val j) ((g.rule l).val j) ((g.rule r).err j) ((g.rule l).err j) ((g.rule r).err j)) g.numfun 1 0, (g.rule r).dir, (g.rule r).val,
    fun j => adjust g (top.val j) ((g.rule r).val j) ((g.rule l).val j) ((g.rule r).err j) ((g.rule l).err j) ((g.rule r).err j), r⟩,
    put s.heap (s.n + 1) { s.heap (s.n + 1) with box := l, dir := top.dir }, ⟨by rw [htop], by rw [htop], rfl, rfl, rfl, rfl, fun _ => by rw [htop], fun _ => by rw [htop], rfl, rfl⟩,
    fun k hk => put_ne _ _ hk, ?_⟩
  unfold split
  simp only [en, en2, put_self, put_put, put_ne _ _ hne, put_ne _ _ hne.symm, hf, apply, htop, put_four]
  simp only [hl, hr, halves]

/-- The list after a division. -/
def after (s : St K) (h : ℕ → Rg K) (L R : Rg K) : ℕ → Rg K := insert (s.n + 1) (insert s.n (put (put (remove s.n h) s.n R) (s.n + 1) L))

/-- The regions after a division: those before, without the first, and the two halves. -/
theorem split_sum {s : St K} (hn : 1 ≤ s.n) {h : ℕ → Rg K} (hh : ∀ k, k ≠ s.n + 1 → h k = s.heap k) (f : Rg K → M) (L R : Rg K) :
    (∑ k ∈ Icc 1 (s.n + 1), f (after s h L R k)) + f (s.heap 1) = (∑ k ∈ Icc 1 s.n, f (s.heap k)) + f L + f R := by
  have e1 : ∑ k ∈ Icc 1 s.n, f (h k) = ∑ k ∈ Icc 1 s.n, f (s.heap k) := sum_congr rfl fun k hk => by rw [mem_Icc] at hk; rw [hh k (by omega)]
  have e2 := remove_sum f h hn
  rw [e1, hh 1 (by omega)] at e2
  obtain ⟨m, hm⟩ : ∃ m, s.n = m + 1 := ⟨s.n - 1, by omega⟩
  unfold after
  rw [insert_sum f _ (by omega), sum_Icc_succ_top (by omega), insert_frame _ (Or.inr (by omega)) hn, put_self, insert_sum f _ hn]
  have e3 : ∑ k ∈ Icc 1 s.n, f (put (put (remove s.n h) s.n R) (s.n + 1) L k) = (∑ k ∈ Icc 1 (s.n - 1), f (remove s.n h k)) + f R := by
    rw [hm, sum_Icc_succ_top (by omega), put_ne _ _ (by omega), put_self, Nat.add_sub_cancel]
    congr 1
    refine sum_congr rfl fun k hk => ?_
    rw [mem_Icc] at hk
    rw [put_ne _ _ (by omega), put_ne _ _ (by omega)]
  rw [e3, ← e2]
  abel

/-- The order of the list after a division. -/
theorem split_ord {s : St K} (hn : 1 ≤ s.n) (ho : Ord s.heap s.n) {h : ℕ → Rg K} (hh : ∀ k, k ≠ s.n + 1 → h k = s.heap k) (L R : Rg K) : Ord (after s h L R) (s.n + 1) := by
  have h1 : Ord h s.n := fun k k1 k2 => by rw [hh k (by omega), hh (k / 2) (by omega)]; exact ho k k1 k2
  have h2 := remove_ord h1
  unfold after
  refine insert_ord (by omega) ?_
  rw [Nat.add_sub_cancel]
  refine insert_ord hn fun k k1 k2 => ?_
  rw [put_ne _ _ (by omega), put_ne _ _ (by omega), put_ne _ _ (by omega), put_ne _ _ (by omega)]
  exact h2 k k1 k2

theorem split_frame {s : St K} (hn : 1 ≤ s.n) {h : ℕ → Rg K} (hh : ∀ k, k ≠ s.n + 1 → h k = s.heap k) (L R : Rg K) {k : ℕ} (hk : k = 0 ∨ s.n + 1 < k) : after s h L R k = s.heap k := by
  unfold after
  rw [insert_frame _ hk (by omega), insert_frame _ (by omega) hn, put_ne _ _ (by omega), put_ne _ _ (by omega), remove_frame _ (by omega) hn, hh k (by omega)]

theorem all_of_sum {n : ℕ} {h : ℕ → Rg K} {P : Rg K → Prop} [DecidablePred P] : (∑ k ∈ Icc 1 n, if P (h k) then 0 else 1) = 0 ↔ ∀ k, 1 ≤ k → k ≤ n → P (h k) := by
  rw [Finset.sum_eq_zero_iff]
  constructor
  · intro H k k1 k2
    by_contra hp
    have := H k (mem_Icc.2 ⟨k1, k2⟩)
    rw [if_neg hp] at this
    omega
  · intro H k hk
    rw [mem_Icc] at hk
    rw [if_pos (H k hk.1 hk.2)]

theorem split_all {s : St K} (hn : 1 ≤ s.n) {h : ℕ → Rg K} (hh : ∀ k, k ≠ s.n + 1 → h k = s.heap k) {P : Rg K → Prop} (hP : ∀ k, 2 ≤ k → k ≤ s.n → P (s.heap k)) {L R : Rg K} (hL : P L) (hR : P R) :
    ∀ k, 1 ≤ k → k ≤ s.n + 1 → P (after s h L R k) := by
  classical
  have key := split_sum hn hh (fun x : Rg K => if P x then 0 else 1) L R
  rw [sum_first (fun x : Rg K => if P x then 0 else 1) s.heap hn, if_pos hL, if_pos hR] at key
  have e : ∑ k ∈ Icc 2 s.n, (if P (s.heap k) then 0 else 1) = 0 := Finset.sum_eq_zero fun k hk => by
    rw [mem_Icc] at hk
    rw [if_pos (hP k hk.1 hk.2)]
  refine (all_of_sum (n := s.n + 1) (h := after s h L R) (P := P)).1 ?_
  omega

theorem greatest_spec (err : ℕ → K) : ∀ (cnt j : ℕ) (e : K), e ≤ greatest err cnt j e ∧ (∀ i, j ≤ i → i < j + cnt → err i ≤ greatest err cnt j e) ∧
    (greatest err cnt j e = e ∨ ∃ i, j ≤ i ∧ i < j + cnt ∧ greatest err cnt j e = err i) := by
  intro cnt
  induction cnt with
  | zero => exact fun j e => ⟨le_rfl, fun i a b => by omega, Or.inl rfl⟩
  | succ cnt ih =>
    intro j e
    rw [greatest]
    obtain ⟨a, b, c⟩ := ih (j + 1) (if err j > e then err j else e)
    have q : e ≤ (if err j > e then err j else e) ∧ err j ≤ (if err j > e then err j else e) := by
      split_ifs with h
      · exact ⟨h.le, le_rfl⟩
      · exact ⟨le_rfl, not_lt.1 h⟩
    refine ⟨q.1.trans a, fun i i1 i2 => ?_, ?_⟩
    · by_cases hi : i = j
      · subst hi; exact q.2.trans a
      · exact b i (by omega) (by omega)
    · rcases c with c | ⟨i, i1, i2, c⟩
      · rw [c]
        split_ifs with h
        · exact Or.inr ⟨j, le_rfl, by omega, rfl⟩
        · exact Or.inl rfl
      · exact Or.inr ⟨i, by omega, by omega, c⟩

/-- The loop needs this of a basic rule: its errors are not negative and the axis it names exists. -/
def Good (n : ℕ) (rule : Box K → Out K) : Prop := ∀ b, (∀ j, 1 ≤ j → j ≤ n → 0 ≤ b.width j) → (∀ j, 0 ≤ (rule b).err j) ∧ 1 ≤ (rule b).dir ∧ (rule b).dir ≤ n

/-- The region holds what the rule gives for its box, with errors that are no smaller. -/
structure From (g : Args K) (x : Rg K) : Prop where
  val : x.val = (g.rule x.box).val
  dir : x.dir = (g.rule x.box).dir
  err : ∀ j, (g.rule x.box).err j ≤ x.err j
  width : ∀ j, 1 ≤ j → j ≤ g.ndim → 0 ≤ x.box.width j

/-- What holds of the regions at label 110. -/
structure Heap (g : Args K) (h : ℕ → Rg K) (n : ℕ) : Prop where
  n1 : 1 ≤ n
  recs : ∀ k, 1 ≤ k → k ≤ n → From g (h k)
  great : 2 ≤ n → ∀ k, 1 ≤ k → k ≤ n → (h k).great = greatest (h k).err g.numfun 1 0
  ord : Ord h n
  tile : ∀ (F : Box K → ℤ), (∀ (b : Box K) i, 1 ≤ i → i ≤ g.ndim → (∀ j, 1 ≤ j → j ≤ g.ndim → 0 ≤ b.width j) → F b = F (halves b i).1 + F (halves b i).2) → ∑ k ∈ Icc 1 n, F (h k).box = F (whole g)
  tileK : ∀ (F : Box K → K), (∀ (b : Box K) i, 1 ≤ i → i ≤ g.ndim → (∀ j, 1 ≤ j → j ≤ g.ndim → 0 ≤ b.width j) → F b = F (halves b i).1 + F (halves b i).2) → ∑ k ∈ Icc 1 n, F (h k).box = F (whole g)

/-- What holds of the totals at label 110. -/
structure Totals (s : St K) : Prop where
  val : ∀ j, s.res j = ∑ k ∈ Icc 1 s.n, (s.heap k).val j
  err : ∀ j, s.abserr j = ∑ k ∈ Icc 1 s.n, (s.heap k).err j

theorem start_eq (g : Args K) (mem : ℕ → Rg K) : start g mem = ⟨put mem 1 ⟨(mem 1).great, (g.rule (whole g)).dir, (g.rule (whole g)).val, (g.rule (whole g)).err, whole g⟩, 1, (g.rule (whole g)).val, (g.rule (whole g)).err, g.num⟩ := by
  unfold start
  have e : ∀ h : ℕ → Rg K, insert 1 h = h := fun h => by
    rw [insert_eq h le_rfl]
    unfold store
    rw [up, if_neg (by omega)]
    funext k
    by_cases hk : k = 1
    · subst hk; rw [put_self]
    · rw [put_ne _ _ hk]
  simp only [e, put_self, put_put, apply, zero_add]

theorem whole_width (g : Args K) (j : ℕ) : 0 ≤ (whole g).width j := by
  unfold whole
  dsimp only
  positivity

theorem heap_start (g : Args K) (mem : ℕ → Rg K) : Heap g (start g mem).heap (start g mem).n := by
  rw [start_eq]
  refine ⟨le_rfl, fun k k1 k2 => ?_, fun h => by dsimp only at h; omega, fun k k1 k2 => by dsimp only at k2; omega, fun F _ => by simp, fun F _ => by simp⟩
  obtain rfl : k = 1 := le_antisymm k2 k1
  dsimp only
  rw [put_self]
  exact ⟨rfl, rfl, fun _ => le_rfl, fun j _ _ => whole_width g j⟩

theorem totals_start (g : Args K) (mem : ℕ → Rg K) : Totals (start g mem) := by
  rw [start_eq]
  exact ⟨fun j => by simp, fun j => by simp⟩

theorem le_adjust {g : Args K} (h5 : 0 ≤ g.c5) (h6 : 0 ≤ g.c6) {old v₁ v₂ e₁ e₂ e : K} (he : 0 ≤ e) : e ≤ adjust g old v₁ v₂ e₁ e₂ e := by
  unfold adjust
  dsimp only
  have a := abs_nonneg (old - (v₁ + v₂))
  have b := mul_nonneg h6 a
  split_ifs with h
  · have : 0 ≤ g.c5 * |old - (v₁ + v₂)| / (e₁ + e₂) := div_nonneg (mul_nonneg h5 a) h.le
    nlinarith [mul_nonneg he this]
  · linarith

theorem split_spec {g : Args K} {s : St K} (hg : Good g.ndim g.rule) (h5 : 0 ≤ g.c5) (h6 : 0 ≤ g.c6) (hs : Heap g s.heap s.n) : Heap g (split g s).heap (split g s).n ∧ (Totals s → Totals (split g s)) ∧ (split g s).n = s.n + 1 ∧
    (split g s).neval = s.neval + 2 * g.num ∧ ∀ k, k = 0 ∨ s.n + 1 < k → (split g s).heap k = s.heap k := by
  obtain ⟨L, R, h, N, hh, e⟩ := split_eq g s hs.n1
  change split g s = ⟨after s h L R, _, _, _, _⟩ at e
  have top := hs.recs 1 le_rfl hs.n1
  have wl : ∀ j, 1 ≤ j → j ≤ g.ndim → 0 ≤ L.box.width j := by rw [N.boxL]; exact (Verif.Adapt.halves_width top.width).1
  have wr : ∀ j, 1 ≤ j → j ≤ g.ndim → 0 ≤ R.box.width j := by rw [N.boxR]; exact (Verif.Adapt.halves_width top.width).2
  have gl := hg L.box wl
  have gr := hg R.box wr
  have gt := hg (s.heap 1).box top.width
  rw [← top.dir] at gt
  have fl : From g L := ⟨N.valL, N.dirL, fun j => by rw [N.errL]; exact le_adjust h5 h6 (gl.1 j), wl⟩
  have fr : From g R := ⟨N.valR, N.dirR, fun j => by rw [N.errR]; exact le_adjust h5 h6 (gr.1 j), wr⟩
  rw [e]
  refine ⟨⟨Nat.succ_le_succ (Nat.zero_le _), ?_, fun _ => ?_, split_ord hs.n1 hs.ord hh L R, ?_, ?_⟩, fun t => ⟨?_, ?_⟩, rfl, rfl, fun k hk => split_frame hs.n1 hh L R hk⟩
  · exact split_all hs.n1 hh (fun k k1 k2 => hs.recs k (by omega) k2) fl fr
  · refine split_all hs.n1 hh (P := fun x => x.great = greatest x.err g.numfun 1 0) (fun k k1 k2 => hs.great (by omega) k (by omega) k2) N.greatL N.greatR
  · intro F hF
    have q := split_sum hs.n1 hh (fun x => F x.box) L R
    dsimp only at q ⊢
    rw [hs.tile F hF, hF _ _ gt.2.1 gt.2.2 top.width, N.boxL, N.boxR] at q
    linarith
  · intro F hF
    have q := split_sum hs.n1 hh (fun x => F x.box) L R
    dsimp only at q ⊢
    rw [hs.tileK F hF, hF _ _ gt.2.1 gt.2.2 top.width, N.boxL, N.boxR] at q
    linarith
  · intro j
    have q := split_sum hs.n1 hh (fun x => x.val j) L R
    dsimp only at q ⊢
    rw [t.val j]
    linarith
  · intro j
    have q := split_sum hs.n1 hh (fun x => x.err j) L R
    dsimp only at q ⊢
    rw [t.err j]
    linarith

theorem loop_spec {g : Args K} (hg : Good g.ndim g.rule) (h5 : 0 ≤ g.c5) (h6 : 0 ≤ g.c6) : ∀ (fuel : ℕ) (s : St K) (r : ℕ × St K), Heap g s.heap s.n → loop g fuel s = some r →
    Heap g r.2.heap r.2.n ∧ (Totals s → Totals r.2) ∧ s.n ≤ r.2.n ∧ r.2.neval = s.neval + 2 * g.num * (r.2.n - s.n) ∧ ((s.n : ℤ) ≤ g.maxsub → (r.2.n : ℤ) ≤ g.maxsub) ∧
    ((s.n : ℤ) + 1 ≤ g.maxsub → s.n + 1 ≤ r.2.n) ∧ (∀ k, k = 0 ∨ r.2.n < k → r.2.heap k = s.heap k) ∧
    (r.1 = 0 ∧ g.minsub ≤ r.2.n ∧ accurate g r.2 g.numfun 1 = true ∨ r.1 = 1 ∧ g.maxsub < r.2.n + 1) := by
  intro fuel
  induction fuel with
  | zero => intro s r _ h; simp [loop] at h
  | succ fuel ih =>
    intro s r hs h
    rw [loop] at h
    split_ifs at h with c1
    · obtain ⟨hH, hT, hn, hv, hf⟩ := split_spec hg h5 h6 hs
      have rc : loop g fuel (split g s) = some r → Heap g r.2.heap r.2.n ∧ (Totals s → Totals r.2) ∧ s.n ≤ r.2.n ∧ r.2.neval = s.neval + 2 * g.num * (r.2.n - s.n) ∧ ((s.n : ℤ) ≤ g.maxsub → (r.2.n : ℤ) ≤ g.maxsub) ∧
          ((s.n : ℤ) + 1 ≤ g.maxsub → s.n + 1 ≤ r.2.n) ∧ (∀ k, k = 0 ∨ r.2.n < k → r.2.heap k = s.heap k) ∧
          (r.1 = 0 ∧ g.minsub ≤ r.2.n ∧ accurate g r.2 g.numfun 1 = true ∨ r.1 = 1 ∧ g.maxsub < r.2.n + 1) := fun hl => by
        obtain ⟨q1, q2, q3, q4, q5, -, q7, q8⟩ := ih _ _ hH hl
        rw [hn] at q3 q4 q5
        refine ⟨q1, fun t => q2 (hT t), by omega, ?_, fun _ => q5 (by push_cast; exact c1), fun _ => q3, fun k hk => ?_, q8⟩
        · rw [q4, hv]
          obtain ⟨m, hm⟩ : ∃ m, r.2.n = s.n + 1 + m := ⟨r.2.n - (s.n + 1), by omega⟩
          rw [hm, show s.n + 1 + m - (s.n + 1) = m by omega, show s.n + 1 + m - s.n = m + 1 by omega]
          ring
        · rw [q7 k hk, hf k (by omega)]
      dsimp only at h
      split_ifs at h with c2 c3
      · exact rc h
      · simp only [Option.some.injEq] at h
        subst h
        refine ⟨hH, hT, by rw [hn]; omega, ?_, fun _ => by rw [hn]; exact_mod_cast c1, fun _ => hn.ge, fun k hk => hf k (by rw [hn] at hk; omega), Or.inl ⟨rfl, not_lt.1 c2, c3⟩⟩
        dsimp only
        rw [hv, hn, show s.n + 1 - s.n = 1 by omega]
        ring
      · exact rc h
    · simp only [Option.some.injEq] at h
      subst h
      exact ⟨hs, id, le_rfl, by simp, id, fun h' => absurd h' c1, fun _ _ => rfl, Or.inr ⟨rfl, not_le.1 c1⟩⟩

theorem loop_ends {g : Args K} (hg : Good g.ndim g.rule) (h5 : 0 ≤ g.c5) (h6 : 0 ≤ g.c6) : ∀ (fuel : ℕ) (s : St K), Heap g s.heap s.n → g.maxsub.toNat - s.n < fuel → ∃ r, loop g fuel s = some r := by
  intro fuel
  induction fuel with
  | zero => intro s _ h; omega
  | succ fuel ih =>
    intro s hs h
    rw [loop]
    split_ifs with c1
    · obtain ⟨hH, -, hn, -, -⟩ := split_spec hg h5 h6 hs
      have : g.maxsub.toNat - (split g s).n < fuel := by rw [hn]; omega
      obtain ⟨r, hr⟩ := ih _ hH this
      dsimp only
      split_ifs
      · exact ⟨r, hr⟩
      · exact ⟨_, rfl⟩
      · exact ⟨r, hr⟩
    · exact ⟨_, rfl⟩

theorem total_eq (v : ℕ → K) : ∀ (cnt i : ℕ) (t : K), total v cnt i t = t + ∑ k ∈ Finset.Ico i (i + cnt), v k := by
  intro cnt
  induction cnt with
  | zero => intro i t; simp [total]
  | succ cnt ih =>
    intro i t
    rw [total, ih, Finset.sum_eq_sum_Ico_succ_bot (show i < i + (cnt + 1) by omega), show i + 1 + cnt = i + (cnt + 1) by omega]
    ring

theorem total_one (v : ℕ → K) (n : ℕ) : total v n 1 0 = ∑ k ∈ Icc 1 n, v k := by
  rw [total_eq, zero_add]
  refine sum_congr ?_ fun _ _ => rfl
  ext k; simp only [Finset.mem_Ico, mem_Icc]; omega

theorem intsgn_eq (a b : ℕ → K) : ∀ (cnt j : ℕ) (s : ℤ), intsgn a b cnt j s = s * ∏ k ∈ Finset.Ico j (j + cnt), if b k < a k then -1 else 1 := by
  intro cnt
  induction cnt with
  | zero => intro j s; simp [intsgn]
  | succ cnt ih =>
    intro j s
    rw [intsgn, ih, Finset.prod_eq_prod_Ico_succ_bot (show j < j + (cnt + 1) by omega), show j + 1 + cnt = j + (cnt + 1) by omega]
    split_ifs <;> ring

theorem intsgn_one (a b : ℕ → K) (n : ℕ) : intsgn a b n 1 1 = ∏ k ∈ Icc 1 n, if b k < a k then -1 else 1 := by
  rw [intsgn_eq, one_mul]
  refine prod_congr ?_ fun _ _ => rfl
  ext k; simp only [Finset.mem_Ico, mem_Icc]; omega

theorem accurate_eq (g : Args K) (s : St K) : ∀ (cnt j : ℕ), accurate g s cnt j = true ↔ ∀ i, j ≤ i → i < j + cnt → s.abserr i ≤ g.epsrel * |s.res i| ∨ s.abserr i ≤ g.epsabs := by
  intro cnt
  induction cnt with
  | zero => intro j; simp only [accurate, true_iff]; intro i a b; omega
  | succ cnt ih =>
    intro j
    rw [accurate]
    split_ifs with h
    · simp only [Bool.false_eq_true, false_iff]
      intro H
      rcases H j le_rfl (by omega) with q | q
      · exact absurd h.1 (not_lt.2 q)
      · exact absurd h.2 (not_lt.2 q)
    · rw [ih]
      constructor
      · intro H i a b
        by_cases hi : i = j
        · subst hi
          by_contra hc
          push Not at hc
          exact h hc
        · exact H i (by omega) (by omega)
      · intro H i a b
        exact H i (by omega) (by omega)

/-- Every point of the box is in exactly one region. -/
theorem tile_mem {g : Args K} {h : ℕ → Rg K} {n : ℕ} (hh : Heap g h n) {x : ℕ → K} (hx : ∀ j, 1 ≤ j → j ≤ g.ndim → min (g.a j) (g.b j) ≤ x j ∧ x j < max (g.a j) (g.b j)) :
    ∃ k, (1 ≤ k ∧ k ≤ n) ∧ (h k).box.Mem g.ndim x ∧ ∀ k', 1 ≤ k' → k' ≤ n → (h k').box.Mem g.ndim x → k' = k := by
  classical
  have key := hh.tile (F := fun b => if b.Mem g.ndim x then 1 else 0) (fun b i i1 i2 hb => by
    obtain ⟨q1, q2⟩ := Verif.Adapt.mem_halves i1 i2 hb x
    by_cases c1 : (halves b i).1.Mem g.ndim x <;> by_cases c2 : (halves b i).2.Mem g.ndim x
    · exact absurd ⟨c1, c2⟩ q2
    · rw [if_pos (q1.2 (Or.inl c1)), if_pos c1, if_neg c2]; rfl
    · rw [if_pos (q1.2 (Or.inr c2)), if_neg c1, if_pos c2]; rfl
    · rw [if_neg (fun hh => (q1.1 hh).elim c1 c2), if_neg c1, if_neg c2]; rfl)
  have hm : (whole g).Mem g.ndim x := by
    intro j j1 j2
    have := hx j j1 j2
    simp only [whole]
    rcases le_total (g.a j) (g.b j) with q | q
    · rw [min_eq_left q, max_eq_right q] at this
      rw [abs_of_nonneg (by linarith)]
      constructor <;> linarith [this.1, this.2]
    · rw [min_eq_right q, max_eq_left q] at this
      rw [abs_of_nonpos (by linarith)]
      constructor <;> linarith [this.1, this.2]
  rw [if_pos hm, ← Finset.sum_filter, Finset.sum_const, nsmul_eq_mul, mul_one] at key
  have hc : (filter (fun k => (h k).box.Mem g.ndim x) (Icc 1 n)).card = 1 := by exact_mod_cast key
  obtain ⟨k, hk⟩ := Finset.card_eq_one.1 hc
  have hk1 : k ∈ filter (fun k => (h k).box.Mem g.ndim x) (Icc 1 n) := by rw [hk]; exact mem_singleton_self k
  rw [mem_filter, mem_Icc] at hk1
  refine ⟨k, hk1.1, hk1.2, fun k' a b c => ?_⟩
  have : k' ∈ filter (fun k => (h k).box.Mem g.ndim x) (Icc 1 n) := mem_filter.2 ⟨mem_Icc.2 ⟨a, b⟩, c⟩
  rw [hk, mem_singleton] at this
  exact this

/-! ## The checks -/

theorem ruleLen_pos (k : ℤ) {n : ℕ} (hn : 2 ≤ n) : 0 < (ruleLen k n).1 := by
  have hp : (0 : ℤ) < 2 ^ n := by positivity
  have h1 : (2 : ℤ) ≤ n := by exact_mod_cast hn
  have h3 : (0 : ℤ) ≤ (n : ℤ) * (n - 1) := by nlinarith
  unfold ruleLen
  dsimp only
  split_ifs
  · norm_num
  · norm_num
  all_goals
    dsimp only
    try have ht : 0 ≤ (4 * (n : ℤ) * (n - 1) * (n - 2)).tdiv 3 := Int.tdiv_nonneg (by nlinarith) (by norm_num)
    nlinarith

theorem ruleLen_wt (k : ℤ) (n : ℕ) : (ruleLen k n).2 ≤ 14 := by
  unfold ruleLen
  dsimp only
  split_ifs <;> norm_num

theorem flat_eq (a b : ℕ → K) : ∀ (cnt j : ℕ), flat a b cnt j = false ↔ ∀ i, j ≤ i → i < j + cnt → a i ≠ b i := by
  intro cnt
  induction cnt with
  | zero => intro j; simp only [flat, true_iff]; intro i a b; omega
  | succ cnt ih =>
    intro j
    rw [flat]
    split_ifs with h
    · simp only [Bool.true_eq_false, false_iff]
      intro H
      exact H j le_rfl (by omega) (sub_eq_zero.1 h)
    · rw [ih]
      constructor
      · intro H i i1 i2
        by_cases hi : i = j
        · subst hi; exact fun h' => h (sub_eq_zero.2 h')
        · exact H i (by omega) (by omega)
      · intro H i i1 i2
        exact H i (by omega) (by omega)

/-- What passes the checks. -/
structure Passed (c : Call K) (p : Plan) : Prop where
  dim : 2 ≤ c.ndim ∧ c.ndim ≤ 15
  fun1 : 1 ≤ c.numfun
  num : 0 < p.num
  wt : p.wtleng ≤ 14
  keyf : p.keyf = Verif.Dcuhre.keyf c.key c.ndim
  three : 3 * p.num ≤ c.maxpts
  maxsub : p.maxsub = (c.maxpts - p.num).tdiv (2 * p.num) + 1
  maxs : p.num * (2 * p.maxsub - 1) ≤ c.maxpts
  max2 : 2 ≤ p.maxsub
  mins : c.minpts ≤ p.num * (2 * p.minsub - 1)
  work : p.maxsub * (2 * c.ndim + 2 * c.numfun + 2) + 17 * c.numfun + 1 ≤ c.nw
  eq : (p.num, p.wtleng) = ruleLen p.keyf c.ndim

theorem dchhre_passed {c : Call K} {p : Plan} (h : dchhre c = .inr p) : Passed c p := by
  have step : ∀ {P : Prop} [Decidable P] {i : ℕ} {z : ℕ ⊕ Plan}, (if P then Sum.inl i else z) = .inr p → ¬ P ∧ z = .inr p := by
    intro P _ i z hz
    by_cases hP : P
    · rw [if_pos hP] at hz; cases hz
    · rw [if_neg hP] at hz; exact ⟨hP, hz⟩
  unfold dchhre at h
  obtain ⟨g1, h⟩ := step h
  obtain ⟨g2, h⟩ := step h
  obtain ⟨g3, h⟩ := step h
  obtain ⟨g4, h⟩ := step h
  dsimp only at h
  obtain ⟨g5, h⟩ := step h
  obtain ⟨g6, h⟩ := step h
  obtain ⟨g7, h⟩ := step h
  obtain ⟨g8, h⟩ := step h
  obtain ⟨g9, h⟩ := step h
  obtain ⟨g10, h⟩ := step h
  obtain ⟨g11, h⟩ := step h
  simp only [Sum.inr.injEq] at h
  subst h
  have hn := ruleLen_pos (keyf c.key c.ndim) (show 2 ≤ c.ndim by omega)
  have hw := ruleLen_wt (keyf c.key c.ndim) c.ndim
  generalize he : ruleLen (keyf c.key c.ndim) c.ndim = e at *
  obtain ⟨num, wt⟩ := e
  dsimp only at *
  have k1 : (c.maxpts - num).tdiv (2 * num) = (c.maxpts - num) / (2 * num) := Int.tdiv_eq_ediv_of_nonneg (by omega)
  have k2 := Int.mul_ediv_add_emod (c.maxpts - num) (2 * num)
  have k3 := Int.emod_nonneg (c.maxpts - num) (show 2 * num ≠ 0 by omega)
  have k4 : 1 ≤ (c.maxpts - num) / (2 * num) := by rw [Int.le_ediv_iff_mul_le (by omega)]; omega
  have k5 := Int.mul_tdiv_add_tmod (c.minpts - num) (2 * num)
  have k6 := Int.tmod_lt_of_pos (c.minpts - num) (show 0 < 2 * num by omega)
  refine ⟨by omega, by omega, hn, hw, rfl, by dsimp only; omega, rfl, ?_, by dsimp only; omega, ?_, by dsimp only; linarith, he.symm⟩
  · dsimp only; rw [k1]; nlinarith
  · dsimp only
    split_ifs with hm
    · have := le_max_right 2 ((c.minpts - num).tdiv (2 * num) + 1 + 1)
      nlinarith
    · have := le_max_right 2 ((c.minpts - num).tdiv (2 * num) + 1)
      push Not at hm
      nlinarith

end Verif.Dcuhre
