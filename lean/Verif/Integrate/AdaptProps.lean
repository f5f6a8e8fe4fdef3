import Verif.Integrate.AdaptLemmas
import Mathlib.Algebra.Order.Floor.Semifield
import Mathlib.Tactic.LinearCombination

/-!
# Adaptive integration (C72, C89, C90)

Definitions from `AdaptLemmas` that are part of statements: `halves`, `Box.Mem`, `Reach`.
-/

set_option linter.unusedSectionVars false
set_option linter.unusedSimpArgs false

namespace Verif.Adapt

open Finset

variable {K : Type*} [Field K] [LinearOrder K] [IsStrictOrderedRing K]

/-! ## Helper lemmas -/

/-- The record holds what the rule gives for its box. -/
def Rec.From (rule : Box K → ℕ → K → ℕ → Rule K) (x : Rec K) : Prop := ∃ m e d, x.err = (rule x.box m e d).err ∧ x.val = (rule x.box m e d).val ∧ x.axis = (rule x.box m e d).axis

/-- The whole box. -/
def whole (g : Args K) : Box K := ⟨fun j => g.a j + (g.b j - g.a j) * (1 / 2), fun j => (g.b j - g.a j) * (1 / 2)⟩

structure Inv (g : Args K) (init : ℕ → Rec K) (s : St K) : Prop where
  n1 : 1 ≤ s.n
  room : 2 * g.ndim + 3 + 2 ≤ g.lenwrk → s.n * (2 * g.ndim + 3) + 2 ≤ g.lenwrk
  frame : ∀ k, k = 0 ∨ s.n < k → s.heap k = init k
  val : s.finest = ∑ k ∈ Icc 1 s.n, (s.heap k).val
  err : s.toterr = ∑ k ∈ Icc 1 s.n, (s.heap k).err
  recs : ∀ k, 1 ≤ k → k ≤ s.n → (s.heap k).From g.rule ∧ ((∀ j, 1 ≤ j → j ≤ g.ndim → 0 ≤ (whole g).width j) → ∀ j, 1 ≤ j → j ≤ g.ndim → 0 ≤ (s.heap k).box.width j)
  ord : Ord s.heap s.n
  calls : ∀ c, (∀ b m e d, c ≤ (g.rule b m e d).calls) → (2 * s.n - 1) * c ≤ s.funcls

theorem start_eq (g : Args K) (init : ℕ → Rec K) : ∃ x : Rec K, x.From g.rule ∧ x.box = whole g ∧ ∃ c, (∃ m e d, c = (g.rule (whole g) m e d).calls) ∧ start g init = ⟨put init 1 x, 1, x.val, x.err, c⟩ := by
  refine ⟨⟨(g.rule (whole g) (min (2 ^ g.ndim + 2 * g.ndim ^ 2 + 6 * g.ndim + 1) g.maxpts) 0 0).err, (g.rule (whole g) (min (2 ^ g.ndim + 2 * g.ndim ^ 2 + 6 * g.ndim + 1) g.maxpts) 0 0).val,
    (g.rule (whole g) (min (2 ^ g.ndim + 2 * g.ndim ^ 2 + 6 * g.ndim + 1) g.maxpts) 0 0).axis, whole g⟩, ⟨_, _, _, rfl, rfl, rfl⟩, rfl, (g.rule (whole g) (min (2 ^ g.ndim + 2 * g.ndim ^ 2 + 6 * g.ndim + 1) g.maxpts) 0 0).calls,
    ⟨_, _, _, rfl⟩, ?_⟩
  unfold start
  simp only [zero_add]
  rfl

theorem all_of_sum {n : ℕ} {h : ℕ → Rec K} {P : Rec K → Prop} [DecidablePred P] : (∑ k ∈ Icc 1 n, if P (h k) then 0 else 1) = 0 ↔ ∀ k, 1 ≤ k → k ≤ n → P (h k) := by
  rw [Finset.sum_eq_zero_iff]
  constructor
  · intro H k k1 k2
    by_contra hp
    have := H k (mem_Icc.2 ⟨k1, k2⟩)
    rw [if_neg hp] at this
    omega
  · intro H k hk
    rw [mem_Icc] at hk
    rw [if_pos (H k hk.1 hk.2)]

theorem split_all {s : St K} (hn : 1 ≤ s.n) {P : Rec K → Prop} (h : ∀ k, 1 ≤ k → k ≤ s.n → P (s.heap k)) {L R : Rec K} (hL : P L) (hR : P R) :
    ∀ k, 1 ≤ k → k ≤ s.n + 1 → P (store (up R.err (s.n + 1) (store (down s.n L.err s.n s.heap 1) L) (s.n + 1)) R k) := by
  classical
  have key := split_sum hn (fun x : Rec K => if P x then 0 else 1) L R
  have e := (all_of_sum (n := s.n) (h := s.heap) (P := P)).2 h
  rw [if_pos (h 1 le_rfl hn), if_pos hL, if_pos hR] at key
  refine (all_of_sum (n := s.n + 1) (h := store (up R.err (s.n + 1) (store (down s.n L.err s.n s.heap 1) L) (s.n + 1)) R) (P := P)).1 ?_
  omega

theorem ifail_room {g : Args K} {s : St K} (h : ¬ ifail g s < 3) : s.n * (2 * g.ndim + 3) + (2 * g.ndim + 3) + 2 ≤ g.lenwrk ∧ s.funcls + s.funcls * (2 * g.ndim + 3) / (s.n * (2 * g.ndim + 3)) ≤ g.maxpts := by
  unfold ifail at h
  dsimp only at h
  by_cases h1 : (relerr s).2 < g.eps ∧ s.funcls ≥ g.minpts
  · rw [if_pos h1] at h; omega
  · rw [if_neg h1] at h
    by_cases h2 : s.funcls + s.funcls * (2 * g.ndim + 3) / (s.n * (2 * g.ndim + 3)) > g.maxpts
    · rw [if_pos h2] at h; omega
    · rw [if_neg h2] at h
      by_cases h3 : s.n * (2 * g.ndim + 3) + (2 * g.ndim + 3) + 2 > g.lenwrk
      · rw [if_pos h3] at h; omega
      · exact ⟨by omega, by omega⟩

theorem halves_width {n : ℕ} {b : Box K} {i : ℕ} (h : ∀ j, 1 ≤ j → j ≤ n → 0 ≤ b.width j) : (∀ j, 1 ≤ j → j ≤ n → 0 ≤ (halves b i).1.width j) ∧ ∀ j, 1 ≤ j → j ≤ n → 0 ≤ (halves b i).2.width j := by
  have : ∀ j, 1 ≤ j → j ≤ n → 0 ≤ put b.width i (b.width i / 2) j := by
    intro j h1 h2
    by_cases hj : j = i
    · subst hj; rw [put_self]; have := h j h1 h2; positivity
    · rw [put_ne _ _ hj]; exact h j h1 h2
  exact ⟨this, this⟩

theorem toterr_eq {g : Args K} {init : ℕ → Rec K} {s : St K} (hg : Good g.ndim g.rule) (h : Inv g init s) : (relerr s).1 = s.toterr := by
  unfold relerr
  dsimp only
  split_ifs with h0
  · refine le_antisymm ?_ h0
    rw [h.err]
    refine sum_nonneg fun k hk => ?_
    rw [mem_Icc] at hk
    obtain ⟨⟨m, e, d, h1, -, -⟩, -⟩ := h.recs k hk.1 hk.2
    rw [h1]; exact hg.err _ _ _ _
  · rfl

theorem inv_reach {g : Args K} {init : ℕ → Rec K} (hg : Good g.ndim g.rule) {s : St K} (h : Reach g init s) : Inv g init s := by
  induction h with
  | start =>
    obtain ⟨x, hx, hb, c, ⟨m, e, d, hc⟩, hs⟩ := start_eq g init
    rw [hs]
    refine ⟨le_rfl, fun h => by simpa using h, fun k hk => put_ne _ _ (by dsimp only at hk; omega), by simp, by simp, ?_, ?_, ?_⟩
    · intro k k1 k2
      have : k = 1 := le_antisymm k2 k1
      subst this
      dsimp only
      rw [put_self]
      exact ⟨hx, fun hw => by rw [hb]; exact hw⟩
    · intro k k1 k2; dsimp only at k2; omega
    · intro c' hc'
      dsimp only
      have := hc' (whole g) m e d
      rw [← hc] at this
      omega
  | split hr hf ih =>
    rename_i s
    obtain ⟨L, R, m, e, hL, hR, oL, oR, hs⟩ := split_eq g s
    have hte := toterr_eq hg ih
    have sv := split_sum ih.n1 (fun x : Rec K => x.val) L R
    have se := split_sum ih.n1 (fun x : Rec K => x.err) L R
    rw [hs]
    dsimp only at *
    refine ⟨Nat.succ_le_succ (Nat.zero_le _), ?_, ?_, ?_, ?_, ?_, split_ord ih.n1 ih.ord L R, ?_⟩
    · intro _
      have := (ifail_room hf).1
      rw [add_mul, one_mul]; exact this
    · intro k hk
      dsimp only at hk ⊢
      rw [up_frame (n := s.n + 1) R.err R hk _ _ _ (mem_Icc.2 ⟨by omega, le_rfl⟩), down_frame (n := s.n) L.err L (by omega) _ _ _ (mem_Icc.2 ⟨le_rfl, ih.n1⟩), ih.frame k (by omega)]
    · rw [ih.val]; linear_combination -sv
    · rw [hte, ih.err]; linear_combination -se
    · have t1 := ih.recs 1 le_rfl ih.n1
      exact split_all ih.n1 (P := fun x => x.From g.rule ∧ ((∀ j, 1 ≤ j → j ≤ g.ndim → 0 ≤ (whole g).width j) → ∀ j, 1 ≤ j → j ≤ g.ndim → 0 ≤ x.box.width j)) ih.recs
        ⟨⟨m, e, _, oL.1, oL.2.1, oL.2.2⟩, fun hw => by rw [hL]; exact (halves_width (t1.2 hw)).1⟩ ⟨⟨m, e, _, oR.1, oR.2.1, oR.2.2⟩, fun hw => by rw [hR]; exact (halves_width (t1.2 hw)).2⟩
    · intro c hc
      have h1 := hc L.box m e (s.heap 1).axis
      have h2 := hc R.box m e (s.heap 1).axis
      have h3 := ih.calls c hc
      have h4 := ih.n1
      have e : 2 * (s.n + 1) - 1 = (2 * s.n - 1) + 2 := by omega
      rw [e, add_mul]
      show _ ≤ s.funcls + (g.rule L.box m _ (s.heap 1).axis).calls + (g.rule R.box m _ (s.heap 1).axis).calls
      omega

/-- Sums over the regions of a function that is additive for divisions do not change. -/
theorem tile_sum {A : Type*} [AddCommGroup A] {g : Args K} {init : ℕ → Rec K} (hg : Good g.ndim g.rule) (hw : ∀ j, 1 ≤ j → j ≤ g.ndim → 0 ≤ (whole g).width j) {F : Box K → A}
    (hF : ∀ (b : Box K) i, 1 ≤ i → i ≤ g.ndim → (∀ j, 1 ≤ j → j ≤ g.ndim → 0 ≤ b.width j) → F b = F (halves b i).1 + F (halves b i).2) {s : St K} (h : Reach g init s) :
    ∑ k ∈ Icc 1 s.n, F (s.heap k).box = F (whole g) := by
  induction h with
  | start =>
    obtain ⟨x, hx, hb, c, -, hs⟩ := start_eq g init
    rw [hs]
    simp [hb]
  | split hr hf ih =>
    rename_i s
    obtain ⟨L, R, m, e, hL, hR, oL, oR, hs⟩ := split_eq g s
    have hi := inv_reach hg hr
    have sv := split_sum hi.n1 (fun x : Rec K => F x.box) L R
    obtain ⟨⟨m', e', d', -, -, hax⟩, hwd⟩ := hi.recs 1 le_rfl hi.n1
    have hax' := hg.axis (s.heap 1).box m' e' d'
    rw [← hax] at hax'
    have hF' := hF (s.heap 1).box (s.heap 1).axis hax'.1 hax'.2 (hwd hw)
    rw [hs]
    dsimp only at *
    rw [ih, hL, hR, add_assoc, ← hF'] at sv
    exact add_right_cancel sv

theorem mem_halves {n : ℕ} {b : Box K} {i : ℕ} (h1 : 1 ≤ i) (h2 : i ≤ n) (hw : ∀ j, 1 ≤ j → j ≤ n → 0 ≤ b.width j) (x : ℕ → K) :
    (b.Mem n x ↔ (halves b i).1.Mem n x ∨ (halves b i).2.Mem n x) ∧ ¬ ((halves b i).1.Mem n x ∧ (halves b i).2.Mem n x) := by
  have hwi := hw i h1 h2
  have hl : (halves b i).1.Mem n x ↔ (∀ j, 1 ≤ j → j ≤ n → j ≠ i → b.center j - b.width j ≤ x j ∧ x j < b.center j + b.width j) ∧ b.center i - b.width i ≤ x i ∧ x i < b.center i := by
    constructor
    · intro h
      refine ⟨fun j j1 j2 hj => ?_, ?_⟩
      · have := h j j1 j2
        simp only [halves] at this
        rwa [put_ne _ _ hj, put_ne _ _ hj] at this
      · have := h i h1 h2
        simp only [halves, put_self] at this
        constructor <;> linarith [this.1, this.2]
    · rintro ⟨h, h', h''⟩ j j1 j2
      simp only [halves]
      by_cases hj : j = i
      · subst hj; rw [put_self, put_self]; constructor <;> linarith
      · rw [put_ne _ _ hj, put_ne _ _ hj]; exact h j j1 j2 hj
  have hr : (halves b i).2.Mem n x ↔ (∀ j, 1 ≤ j → j ≤ n → j ≠ i → b.center j - b.width j ≤ x j ∧ x j < b.center j + b.width j) ∧ b.center i ≤ x i ∧ x i < b.center i + b.width i := by
    constructor
    · intro h
      refine ⟨fun j j1 j2 hj => ?_, ?_⟩
      · have := h j j1 j2
        simp only [halves] at this
        rwa [put_ne _ _ hj, put_ne _ _ hj] at this
      · have := h i h1 h2
        simp only [halves, put_self] at this
        constructor <;> linarith [this.1, this.2]
    · rintro ⟨h, h', h''⟩ j j1 j2
      simp only [halves]
      by_cases hj : j = i
      · subst hj; rw [put_self, put_self]; constructor <;> linarith
      · rw [put_ne _ _ hj, put_ne _ _ hj]; exact h j j1 j2 hj
  rw [hl, hr]
  constructor
  · constructor
    · intro h
      rcases lt_or_ge (x i) (b.center i) with hx | hx
      · exact Or.inl ⟨fun j j1 j2 _ => h j j1 j2, (h i h1 h2).1, hx⟩
      · exact Or.inr ⟨fun j j1 j2 _ => h j j1 j2, hx, (h i h1 h2).2⟩
    · rintro (⟨h, h3, h4⟩ | ⟨h, h3, h4⟩) j j1 j2
      · by_cases hj : j = i
        · subst hj; exact ⟨h3, by linarith⟩
        · exact h j j1 j2 hj
      · by_cases hj : j = i
        · subst hj; exact ⟨by linarith, h4⟩
        · exact h j j1 j2 hj
  · rintro ⟨⟨-, -, h⟩, -, h', -⟩
    linarith

/-- Every point of the whole box is in exactly one region. -/
theorem tile_mem {g : Args K} {init : ℕ → Rec K} (hg : Good g.ndim g.rule) (hab : ∀ j, 1 ≤ j → j ≤ g.ndim → g.a j ≤ g.b j) {s : St K} (h : Reach g init s) {x : ℕ → K}
    (hx : ∀ j, 1 ≤ j → j ≤ g.ndim → g.a j ≤ x j ∧ x j < g.b j) : ∃ k, (1 ≤ k ∧ k ≤ s.n) ∧ (s.heap k).box.Mem g.ndim x ∧ ∀ k', 1 ≤ k' → k' ≤ s.n → (s.heap k').box.Mem g.ndim x → k' = k := by
  classical
  have hw : ∀ j, 1 ≤ j → j ≤ g.ndim → 0 ≤ (whole g).width j := fun j j1 j2 => by
    have := hab j j1 j2
    simp only [whole]
    linarith
  have key := tile_sum (A := ℤ) hg hw (F := fun b => if b.Mem g.ndim x then 1 else 0) (fun b i i1 i2 hb => by
    obtain ⟨q1, q2⟩ := mem_halves i1 i2 hb x
    by_cases c1 : (halves b i).1.Mem g.ndim x <;> by_cases c2 : (halves b i).2.Mem g.ndim x
    · exact absurd ⟨c1, c2⟩ q2
    · rw [if_pos (q1.2 (Or.inl c1)), if_pos c1, if_neg c2]; rfl
    · rw [if_pos (q1.2 (Or.inr c2)), if_neg c1, if_pos c2]; rfl
    · rw [if_neg (fun hh => (q1.1 hh).elim c1 c2), if_neg c1, if_neg c2]; rfl) h
  have hm : (whole g).Mem g.ndim x := by
    intro j j1 j2
    have := hx j j1 j2
    simp only [whole]
    constructor <;> linarith [this.1, this.2]
  rw [if_pos hm, ← Finset.sum_filter, Finset.sum_const, nsmul_eq_mul, mul_one] at key
  have hc : (filter (fun k => (s.heap k).box.Mem g.ndim x) (Icc 1 s.n)).card = 1 := by exact_mod_cast key
  obtain ⟨k, hk⟩ := Finset.card_eq_one.1 hc
  have hk1 : k ∈ filter (fun k => (s.heap k).box.Mem g.ndim x) (Icc 1 s.n) := by rw [hk]; exact mem_singleton_self k
  rw [mem_filter, mem_Icc] at hk1
  refine ⟨k, hk1.1, hk1.2, fun k' a b c => ?_⟩
  have : k' ∈ filter (fun k => (s.heap k).box.Mem g.ndim x) (Icc 1 s.n) := mem_filter.2 ⟨mem_Icc.2 ⟨a, b⟩, c⟩
  rw [hk, mem_singleton] at this
  exact this

theorem loop_reach {g : Args K} {init : ℕ → Rec K} : ∀ (fuel : ℕ) (s s' : St K), Reach g init s → loop g fuel s = some s' → Reach g init s' ∧ ifail g s' < 3 := by
  intro fuel
  induction fuel with
  | zero => intro s s' _ h; simp [loop] at h
  | succ fuel ih =>
    intro s s' hr h
    rw [loop] at h
    split_ifs at h with hf
    · simp only [Option.some.injEq] at h; subst h; exact ⟨hr, hf⟩
    · exact ih _ _ (.split hr hf) h

theorem loop_ends {g : Args K} (hg : Good g.ndim g.rule) : ∀ (fuel : ℕ) (s : St K), g.maxpts + 1 - s.funcls < fuel → ∃ s', loop g fuel s = some s' := by
  intro fuel
  induction fuel with
  | zero => intro s h; omega
  | succ fuel ih =>
    intro s h
    rw [loop]
    split_ifs with hf
    · exact ⟨s, rfl⟩
    · obtain ⟨L, R, m, e, hL, hR, oL, oR, hs⟩ := split_eq g s
      apply ih
      have := le_trans (Nat.le_add_right _ _) (ifail_room hf).2
      have h1 := hg.calls L.box m e (s.heap 1).axis
      rw [hs]
      dsimp only
      omega

/-! ## C72: sizes -/

/-- The arguments that `adapt` gives to `ADAPT`, for the factor `maxfac` (`adapt` always uses 100). -/
def pyArgs (maxfac : ℕ) (symrl : ((ℕ → K) → K) → Box K → Sym K) (f : (ℕ → K) → K) (ndim : ℕ) (lower upper : ℕ → K) (relacc : K) : Args K :=
  ⟨ndim, lower, upper, (adaptSizes ndim maxfac).1, (adaptSizes ndim maxfac).2.1, relacc, ⌊(adaptSizes ndim maxfac).2.2⌋₊, bsrl symrl ndim f⟩

theorem adapt_eq (fuel : ℕ) (symrl : ((ℕ → K) → K) → Box K → Sym K) (init : ℕ → Rec K) (f : (ℕ → K) → K) (ndim : ℕ) (lower upper : ℕ → K) (relacc : K) (mf : ℕ) (wf : K) :
    adapt fuel symrl init f ndim lower upper relacc mf wf = (adaptSub fuel (pyArgs 100 symrl f ndim lower upper relacc) init).map fun o =>
      if o.ifail = 0 then (match o.finest with | some v => .result v o.relerr o.minpts | Option.none => .none)
      else if o.ifail = 1 then .raises .runtime
      else if o.ifail = 2 then .raises .runtime
      else .none := rfl

theorem lenwrk_eq (ndim maxfac : ℕ) : ⌊(adaptSizes ndim maxfac).2.2⌋₊ = (2 * ndim + 3) * (1 + maxfac) / 2 := by
  simp only [adaptSizes]
  have : (((2 : ℚ) * ndim + 3) * (1 + maxfac) / 2) = (((2 * ndim + 3) * (1 + maxfac) : ℕ) : ℚ) / ((2 : ℕ) : ℚ) := by push_cast; ring
  rw [this, Nat.floor_div_eq_div]

/-- C72.  For every dimension and every factor from one on, the largest number of points is at least the least number, which is at least the number the integrator documents, and the length of the work array is the
length the integrator documents. -/
theorem C72_sizes (ndim maxfac : ℕ) (hm : 1 ≤ maxfac) : 2 ^ ndim + 2 * ndim ^ 2 + 6 * ndim + 1 = (adaptSizes ndim maxfac).1 ∧ (adaptSizes ndim maxfac).1 ≤ (adaptSizes ndim maxfac).2.1 ∧
    (2 * ndim + 3) * (1 + (adaptSizes ndim maxfac).2.1 / (2 ^ ndim + 2 * ndim ^ 2 + 6 * ndim + 1)) / 2 = ⌊(adaptSizes ndim maxfac).2.2⌋₊ := by
  refine ⟨rfl, ?_, ?_⟩
  · simp only [adaptSizes]; exact Nat.le_mul_of_pos_left _ hm
  · rw [lenwrk_eq]; simp only [adaptSizes]; rw [Nat.mul_div_cancel _ (by positivity)]

/-- C72.  In every state that the integrator gets to, for every integrand, box and accuracy, and for every factor from two on (`adapt` uses 100), the records of its list lie in the work array, below its last two cells, and
nothing else in it is written. -/
theorem C72_memory {maxfac : ℕ} (hm : 2 ≤ maxfac) (symrl : ((ℕ → K) → K) → Box K → Sym K) (f : (ℕ → K) → K) {ndim : ℕ} (hn : 2 ≤ ndim) (lower upper : ℕ → K) (relacc : K) (init : ℕ → Rec K) {s : St K}
    (h : Reach (pyArgs maxfac symrl f ndim lower upper relacc) init s) :
    s.n * (2 * ndim + 3) + 2 ≤ ⌊(adaptSizes ndim maxfac).2.2⌋₊ ∧ ∀ k, k = 0 ∨ s.n < k → s.heap k = init k := by
  have hi := inv_reach (bsrl_good symrl (show 1 ≤ ndim by omega) f) h
  refine ⟨hi.room ?_, hi.frame⟩
  show 2 * ndim + 3 + 2 ≤ ⌊(adaptSizes ndim maxfac).2.2⌋₊
  rw [lenwrk_eq, Nat.le_div_iff_mul_le (by norm_num)]
  nlinarith

/-- C72.  For even factors from four on (`adapt` uses 100) the work array is never what stops the integrator, as long as the basic rule uses the number of points documented for it: the failure indicator is not two. -/
theorem C72_enough {maxfac : ℕ} (hm : 2 ≤ maxfac) (symrl : ((ℕ → K) → K) → Box K → Sym K) (f : (ℕ → K) → K) {ndim : ℕ} (hn : 2 ≤ ndim) (lower upper : ℕ → K) (relacc : K) (init : ℕ → Rec K)
    (hc : ∀ b m, 4 ≤ m → m ≤ 12 → 2 ^ ndim + 2 * ndim ^ 2 + 2 * ndim + 1 ≤ (symrl f b).cls m) {fuel : ℕ} {o : Out K}
    (h : adaptSub fuel (pyArgs (2 * maxfac) symrl f ndim lower upper relacc) init = some o) : o.ifail ≠ 2 := by
  unfold adaptSub at h
  split_ifs at h with h1 h2
  · simp only [Option.some.injEq] at h; subst h; simp
  · simp only [Option.some.injEq] at h; subst h; simp
  · rcases hl : loop (pyArgs (2 * maxfac) symrl f ndim lower upper relacc) fuel (start (pyArgs (2 * maxfac) symrl f ndim lower upper relacc) init) with _ | s
    · rw [hl] at h; simp at h
    · rw [hl] at h
      simp only [Option.map_some, Option.some.injEq] at h
      subst h
      dsimp only
      obtain ⟨hr, -⟩ := loop_reach _ _ _ .start hl
      have hi := inv_reach (bsrl_good symrl (show 1 ≤ ndim by omega) f) hr
      set r := 2 ^ ndim + 2 * ndim ^ 2 + 6 * ndim + 1 with hrr
      have hcalls := hi.calls r (fun b m e d => by
        show r ≤ (bsrl symrl ndim f b m e d).calls
        unfold bsrl
        dsimp only
        obtain ⟨-, o1, o2, -⟩ := orders_spec (symrl f b) m e 8 4
        have := hc b _ o1 o2
        omega)
      have e1 : (pyArgs (2 * maxfac) symrl f ndim lower upper relacc).lenwrk = (2 * ndim + 3) * (1 + 2 * maxfac) / 2 := lenwrk_eq _ _
      have e2 : (pyArgs (2 * maxfac) symrl f ndim lower upper relacc).maxpts = 2 * maxfac * r := rfl
      have e3 : (pyArgs (2 * maxfac) symrl f ndim lower upper relacc).ndim = ndim := rfl
      unfold ifail
      rw [e1, e2, e3]
      dsimp only
      by_cases c1 : (relerr s).2 < (pyArgs (2 * maxfac) symrl f ndim lower upper relacc).eps ∧ s.funcls ≥ (pyArgs (2 * maxfac) symrl f ndim lower upper relacc).minpts
      · rw [if_pos c1]; omega
      rw [if_neg c1]
      by_cases c2 : s.funcls + s.funcls * (2 * ndim + 3) / (s.n * (2 * ndim + 3)) > 2 * maxfac * r
      · rw [if_pos c2]; omega
      rw [if_neg c2]
      by_cases c3 : s.n * (2 * ndim + 3) + (2 * ndim + 3) + 2 > (2 * ndim + 3) * (1 + 2 * maxfac) / 2
      · exfalso
        apply c2
        have hn1 := hi.n1
        have hnm : maxfac ≤ s.n := by
          by_contra hlt
          have : s.n + 1 ≤ maxfac := by omega
          have h3 : (2 * ndim + 3) * (1 + 2 * maxfac) / 2 < s.n * (2 * ndim + 3) + (2 * ndim + 3) + 2 := c3
          rw [Nat.div_lt_iff_lt_mul (by norm_num)] at h3
          nlinarith
        rw [Nat.mul_div_mul_right _ _ (by omega)]
        have hr7 : 25 ≤ r := by
          have : 2 ^ 2 ≤ 2 ^ ndim := Nat.pow_le_pow_right (by norm_num) hn
          have : 2 ^ 2 ≤ ndim ^ 2 := Nat.pow_le_pow_left hn 2
          omega
        rcases Nat.lt_or_ge maxfac s.n with hlt | hge
        · have : (2 * maxfac + 1) * r ≤ (2 * s.n - 1) * r := Nat.mul_le_mul_right _ (by omega)
          have e4 : (2 * maxfac + 1) * r = 2 * maxfac * r + r := by ring
          have := Nat.zero_le (s.funcls / s.n)
          omega
        · have hEq : s.n = maxfac := le_antisymm hge hnm
          rw [hEq] at hcalls ⊢
          have e4 : (2 * maxfac - 1) * r + r = 2 * maxfac * r := by
            obtain ⟨q, rfl⟩ : ∃ q, maxfac = q + 1 := ⟨maxfac - 1, by omega⟩
            rw [show 2 * (q + 1) - 1 = 2 * q + 1 by omega]; ring
          have hdiv : r + 1 ≤ s.funcls / maxfac := by
            rw [Nat.le_div_iff_mul_le (by omega)]
            refine le_trans ?_ hcalls
            obtain ⟨q, rfl⟩ : ∃ q, maxfac = q + 2 := ⟨maxfac - 2, by omega⟩
            rw [show 2 * (q + 2) - 1 = 2 * q + 3 by omega]
            nlinarith
          omega
      · rw [if_neg c3]; omega

/-- A sequence of values for a box, for examples: all are the value at the centre times the area, but for the fourth, which is off by a fourth power of the width. -/
def demoSym : ((ℕ → ℚ) → ℚ) → Box ℚ → Sym ℚ := fun f b => ⟨fun m => 4 * b.width 1 * b.width 2 * f b.center + (if m = 4 then (b.width 1 * b.width 2) ^ 2 else 0), fun _ => 17⟩

def demoInit : ℕ → Rec ℚ := fun _ => ⟨0, 0, 0, ⟨fun _ => 0, fun _ => 0⟩⟩

def demo (maxfac : ℕ) (eps : ℚ) : Args ℚ := pyArgs maxfac demoSym (fun x => 1 + x 1 ^ 2) 2 (fun _ => 0) (fun _ => 2) eps

/-- Non-vacuity: a run that divides regions, with the number of points documented. -/
example : (adaptSub 10 (demo 100 (1 / 10)) demoInit).map (fun o => (o.ifail, o.minpts)) = some (0, 125) ∧ (∀ b m, 4 ≤ m → m ≤ 12 → 2 ^ 2 + 2 * 2 ^ 2 + 2 * 2 + 1 ≤ (demoSym (fun x => 1 + x 1 ^ 2) b).cls m) ∧
    Reach (demo 100 (1 / 10)) demoInit (split (demo 100 (1 / 10)) (start (demo 100 (1 / 10)) demoInit)) :=
  ⟨by decide +kernel, fun _ _ _ _ => le_rfl, .split .start (by decide +kernel)⟩

/-- C72 does not hold for every factor.  With the factor 0 the largest number of points is less than the least number.  With the factor 3 the length documented is not enough: the integrator stops because the work array is full
when it has used a third of the points allowed. -/
theorem C72_violated : (∀ ndim, (adaptSizes ndim 0).2.1 < (adaptSizes ndim 0).1) ∧
    (adaptSub 10 (demo 3 (1 / 10)) demoInit).map (fun o => (o.ifail, o.minpts)) = some (2, (adaptSizes 2 3).1) ∧ (adaptSizes 2 3).2.1 = 3 * (adaptSizes 2 3).1 := by
  refine ⟨fun ndim => ?_, by decide +kernel, rfl⟩
  simp only [adaptSizes, zero_mul]
  positivity

/-! ## C89: the estimate -/

theorem adapt_sub {fuel : ℕ} {symrl : ((ℕ → K) → K) → Box K → Sym K} {init : ℕ → Rec K} {f : (ℕ → K) → K} {ndim : ℕ} {lower upper : ℕ → K} {relacc : K} {mf : ℕ} {wf : K} {v e : K} {npts : ℕ}
    (h : adapt fuel symrl init f ndim lower upper relacc mf wf = some (.result v e npts)) : (2 ≤ ndim ∧ ndim ≤ 20) ∧ ∃ s, Reach (pyArgs 100 symrl f ndim lower upper relacc) init s ∧ v = s.finest ∧ e = (relerr s).2 ∧
      npts = s.funcls ∧ e < relacc ∧ (adaptSizes ndim 100).1 ≤ npts := by
  rw [adapt_eq] at h
  unfold adaptSub at h
  split_ifs at h with h1 h2
  · simp at h
  · simp at h
  · rcases hl : loop (pyArgs 100 symrl f ndim lower upper relacc) fuel (start (pyArgs 100 symrl f ndim lower upper relacc) init) with _ | s
    · rw [hl] at h; simp at h
    · rw [hl] at h
      obtain ⟨hr, -⟩ := loop_reach _ _ _ .start hl
      simp only [Option.map_some, Option.some.injEq] at h
      by_cases h0 : ifail (pyArgs 100 symrl f ndim lower upper relacc) s = 0
      · rw [if_pos h0] at h
        simp only [Ans.result.injEq] at h
        have hd : 2 ≤ ndim ∧ ndim ≤ 20 := by
          have : ¬ (ndim < 2 ∨ ndim > 20) := h1
          omega
        refine ⟨hd, s, hr, h.1.symm, h.2.1.symm, h.2.2.symm, ?_⟩
        unfold ifail at h0
        dsimp only at h0
        by_cases hc : (relerr s).2 < (pyArgs 100 symrl f ndim lower upper relacc).eps ∧ s.funcls ≥ (pyArgs 100 symrl f ndim lower upper relacc).minpts
        · rw [← h.2.1, ← h.2.2]; exact hc
        · rw [if_neg hc] at h0
          split_ifs at h0
      · rw [if_neg h0] at h
        split_ifs at h

/-- The volume of a box. -/
def Box.vol (n : ℕ) (b : Box K) : K := ∏ j ∈ Icc 1 n, 2 * b.width j

theorem vol_halves {n : ℕ} (b : Box K) {i : ℕ} (h1 : 1 ≤ i) (h2 : i ≤ n) : b.vol n = (halves b i).1.vol n + (halves b i).2.vol n := by
  have hm : i ∈ Icc 1 n := mem_Icc.2 ⟨h1, h2⟩
  have key : ∀ w : ℕ → K, (∀ j, j ≠ i → w j = b.width j) → ∏ j ∈ Icc 1 n, 2 * w j = 2 * w i * ∏ j ∈ (Icc 1 n).erase i, 2 * b.width j := by
    intro w hw
    rw [← Finset.mul_prod_erase _ _ hm]
    congr 1
    exact prod_congr rfl fun j hj => by rw [hw j (Finset.ne_of_mem_erase hj)]
  simp only [Box.vol, halves]
  rw [key b.width (fun _ _ => rfl), key (put b.width i (b.width i / 2)) (fun j hj => put_ne _ _ hj), put_self]
  ring

/-- C89.  When `adapt` returns a result there are regions, given by centres and half widths, such that every point of the box is in exactly one of them and their volumes add up to its volume; the result is the sum of values of
the basic rule of some order from 4 to 12 for them; the error is the sum of the error estimates for these orders divided by the size of the result, but at most one; it is less than the accuracy asked for; and the number of points is at least
the least number. -/
theorem C89_estimate {fuel : ℕ} {symrl : ((ℕ → K) → K) → Box K → Sym K} {init : ℕ → Rec K} {f : (ℕ → K) → K} {ndim : ℕ} {lower upper : ℕ → K} (hab : ∀ j, 1 ≤ j → j ≤ ndim → lower j ≤ upper j) {relacc : K} {mf : ℕ} {wf : K}
    {v e : K} {npts : ℕ} (h : adapt fuel symrl init f ndim lower upper relacc mf wf = some (.result v e npts)) :
    ∃ (n : ℕ) (box : ℕ → Box K) (ord : ℕ → ℕ), (∀ k, 4 ≤ ord k ∧ ord k ≤ 12) ∧
      (∀ x, (∀ j, 1 ≤ j → j ≤ ndim → lower j ≤ x j ∧ x j < upper j) → ∃ k, (1 ≤ k ∧ k ≤ n) ∧ (box k).Mem ndim x ∧ ∀ k', 1 ≤ k' → k' ≤ n → (box k').Mem ndim x → k' = k) ∧
      ∑ k ∈ Icc 1 n, ∏ j ∈ Icc 1 ndim, 2 * (box k).width j = ∏ j ∈ Icc 1 ndim, (upper j - lower j) ∧
      v = ∑ k ∈ Icc 1 n, (symrl f (box k)).val (ord k) ∧
      e = (if v = 0 then 1 else min 1 ((∑ k ∈ Icc 1 n, (orderErr (symrl f (box k)).val (ord k)).1) / |v|)) ∧
      e < relacc ∧ 2 ^ ndim + 2 * ndim ^ 2 + 6 * ndim + 1 ≤ npts := by
  obtain ⟨⟨d1, d2⟩, s, hr, hv, he, hn, ha, hp⟩ := adapt_sub h
  have hg : Good ndim (bsrl symrl ndim f) := bsrl_good symrl (show 1 ≤ ndim by omega) f
  have hi := inv_reach hg hr
  have hrec : ∀ k, ∃ o, (4 ≤ o ∧ o ≤ 12) ∧ (1 ≤ k → k ≤ s.n → (s.heap k).val = (symrl f (s.heap k).box).val o ∧ (s.heap k).err = (orderErr (symrl f (s.heap k).box).val o).1) := by
    intro k
    by_cases hk : 1 ≤ k ∧ k ≤ s.n
    · obtain ⟨⟨m, e', d, q1, q2, -⟩, -⟩ := hi.recs k hk.1 hk.2
      obtain ⟨-, o1, o2, o3⟩ := orders_spec (symrl f (s.heap k).box) m e' 8 4
      exact ⟨_, ⟨o1, o2⟩, fun _ _ => ⟨q2, q1.trans o3⟩⟩
    · exact ⟨4, ⟨le_rfl, by norm_num⟩, fun a b => absurd ⟨a, b⟩ hk⟩
  choose ord ho1 ho2 using hrec
  have hw : ∀ j, 1 ≤ j → j ≤ ndim → 0 ≤ (whole (pyArgs 100 symrl f ndim lower upper relacc)).width j := fun j j1 j2 => by
    have := hab j j1 j2
    simp only [whole, pyArgs]
    linarith
  have hval : s.finest = ∑ k ∈ Icc 1 s.n, (symrl f (s.heap k).box).val (ord k) := by
    rw [hi.val]
    exact sum_congr rfl fun k hk => by rw [mem_Icc] at hk; exact (ho2 k hk.1 hk.2).1
  have herr : s.toterr = ∑ k ∈ Icc 1 s.n, (orderErr (symrl f (s.heap k).box).val (ord k)).1 := by
    rw [hi.err]
    exact sum_congr rfl fun k hk => by rw [mem_Icc] at hk; exact (ho2 k hk.1 hk.2).2
  refine ⟨s.n, fun k => (s.heap k).box, ord, ho1, fun x hx => tile_mem hg hab hr hx, ?_, hv.trans hval, ?_, ha, hp⟩
  · have := tile_sum hg hw (F := fun b => b.vol ndim) (fun b i i1 i2 _ => vol_halves b i1 i2) hr
    refine this.trans (prod_congr rfl fun j _ => ?_)
    simp only [whole, pyArgs]
    ring
  · have hte := toterr_eq hg hi
    rw [he, hv, ← herr]
    unfold relerr at hte ⊢
    dsimp only at hte ⊢
    rw [hte]
    by_cases h0 : s.finest = 0
    · simp [h0]
    · rw [if_pos (abs_ne_zero.2 h0), if_neg h0]
      by_cases h1 : s.toterr / |s.finest| > 1
      · rw [if_pos h1, min_eq_left (le_of_lt h1)]
      · rw [if_neg h1, min_eq_right (not_lt.1 h1)]

/-- C89.  In every state that the integrator gets to, the region it divides next has the largest error estimate of all regions; in the next state that region is replaced by the two halves of it along its axis, and the others are kept. -/
theorem C89_largest {symrl : ((ℕ → K) → K) → Box K → Sym K} {init : ℕ → Rec K} {f : (ℕ → K) → K} {ndim : ℕ} (hn : 2 ≤ ndim) {lower upper : ℕ → K} {relacc : K} {s : St K}
    (h : Reach (pyArgs 100 symrl f ndim lower upper relacc) init s) : ∃ top, (∃ k, 1 ≤ k ∧ k ≤ s.n ∧ s.heap k = top) ∧ (∀ k, 1 ≤ k → k ≤ s.n → (s.heap k).err ≤ top.err) ∧ (1 ≤ top.axis ∧ top.axis ≤ ndim) ∧
      ∃ L R : Rec K, L.box = (halves top.box top.axis).1 ∧ R.box = (halves top.box top.axis).2 ∧ ∃ s', s' = split (pyArgs 100 symrl f ndim lower upper relacc) s ∧
        ((Icc 1 s'.n).val.map s'.heap) + {top} = (Icc 1 s.n).val.map s.heap + {L} + {R} := by
  have hg : Good ndim (bsrl symrl ndim f) := bsrl_good symrl (show 1 ≤ ndim by omega) f
  have hi := inv_reach hg h
  obtain ⟨L, R, m, e, hL, hR, -, -, hs⟩ := split_eq (pyArgs 100 symrl f ndim lower upper relacc) s
  obtain ⟨⟨m', e', d', -, -, hax⟩, -⟩ := hi.recs 1 le_rfl hi.n1
  have hax' := hg.axis (s.heap 1).box m' e' d'
  refine ⟨s.heap 1, ⟨1, le_rfl, hi.n1, rfl⟩, ord_max hi.ord, by rw [hax]; exact hax', L, R, hL, hR, _, rfl, ?_⟩
  have := split_sum hi.n1 (fun x : Rec K => ({x} : Multiset (Rec K))) L R
  rw [hs]
  dsimp only
  have key : ∀ (n : ℕ) (g : ℕ → Rec K), (Icc 1 n).val.map g = ∑ k ∈ Icc 1 n, ({g k} : Multiset (Rec K)) := fun n g => by
    rw [Finset.sum_eq_multiset_sum, ← Multiset.sum_map_singleton ((Icc 1 n).val.map g), Multiset.map_map]; rfl
  rw [key, key]
  exact this

/-- C89.  In two to twenty dimensions `adapt` ends, whatever the integrand, box and accuracy. -/
theorem C89_terminates (symrl : ((ℕ → K) → K) → Box K → Sym K) (init : ℕ → Rec K) (f : (ℕ → K) → K) {ndim : ℕ} (hn : 2 ≤ ndim) (lower upper : ℕ → K) (relacc : K) (mf : ℕ) (wf : K) {fuel : ℕ} (hf : (adaptSizes ndim 100).2.1 + 1 < fuel) :
    ∃ a, adapt fuel symrl init f ndim lower upper relacc mf wf = some a := by
  have hg : Good ndim (bsrl symrl ndim f) := bsrl_good symrl (show 1 ≤ ndim by omega) f
  obtain ⟨s, hs⟩ := loop_ends (g := pyArgs 100 symrl f ndim lower upper relacc) hg fuel (start (pyArgs 100 symrl f ndim lower upper relacc) init) (lt_of_le_of_lt (Nat.sub_le _ _) hf)
  rw [adapt_eq]
  unfold adaptSub
  rw [hs]
  split_ifs <;> exact ⟨_, rfl⟩

/-- Non-vacuity: the box is divided, and a result is returned. -/
example : (adapt 10 demoSym demoInit (fun x => 1 + x 1 ^ 2) 2 (fun _ => 0) (fun _ => 2) (1 / 10) 100 1).map (fun a => match a with | .result v _ n => (v, n) | _ => (0, 0)) = some (75 / 8, 125) := by decide +kernel

/-- C89 does not hold as documented.  In one dimension, and in more than twenty, nothing is returned and nothing is raised.  When the accuracy is not reached the exception asks for a larger `maxfac`, which is not used: the
outcome is the same for every `maxfac` and `wrkfac`. -/
theorem C89_violated (symrl : ((ℕ → K) → K) → Box K → Sym K) (init : ℕ → Rec K) (f : (ℕ → K) → K) (lower upper : ℕ → K) (relacc : K) (mf mf' : ℕ) (wf wf' : K) (fuel : ℕ) :
    (∀ ndim, ndim < 2 ∨ 20 < ndim → adapt fuel symrl init f ndim lower upper relacc mf wf = some .none) ∧
    (∀ ndim, adapt fuel symrl init f ndim lower upper relacc mf wf = adapt fuel symrl init f ndim lower upper relacc mf' wf') := by
  refine ⟨fun ndim h => ?_, fun ndim => rfl⟩
  rw [adapt_eq]
  unfold adaptSub
  rw [if_pos (show (pyArgs 100 symrl f ndim lower upper relacc).ndim < 2 ∨ (pyArgs 100 symrl f ndim lower upper relacc).ndim > 20 from h)]
  rfl

/-! ## C90: the axis -/

/-- C90.  The axis along which a region will be divided is one along which the size of the fourth difference of the integrand through the centre of the region is largest; when that difference is zero along all axes it is the axis
after the last one divided, in cyclic order. -/
theorem C90_axis (symrl : ((ℕ → K) → K) → Box K → Sym K) {ndim : ℕ} (hn : 1 ≤ ndim) (f : (ℕ → K) → K) (b : Box K) (maxvls : ℕ) (errmin : K) (last : ℕ) :
    let at' (i : ℕ) (t : K) := f (put b.center i (b.center i + t * b.width i))
    let dif (i : ℕ) := |(at' i (-(1 / 4)) + at' i (1 / 4) - 2 * f b.center) - (at' i (-(3 / 4)) + at' i (3 / 4) - 2 * f b.center) / 9|
    let ax := (bsrl symrl ndim f b maxvls errmin last).axis
    (1 ≤ ax ∧ ax ≤ ndim) ∧ (∀ i, 1 ≤ i → i ≤ ndim → dif i ≤ dif ax) ∧ ((∀ i, 1 ≤ i → i ≤ ndim → dif i = 0) → ax = last % ndim + 1) := by
  intro at' dif ax
  have hd : ∀ i, dif i = fourth f b i := by
    intro i
    simp only [dif, at', fourth]
    congr 1
    have e1 : (1 : K) / 2 ^ 2 = 1 / 4 := by norm_num
    have e2 : (3 : K) * (1 / 4) = 3 / 4 := by norm_num
    rw [e1, e2]
    ring
  obtain ⟨j, j1, j2, hj, hm⟩ := axes_all f b hn
  have hax : ax = if f b.center = f b.center + fourth f b j / 2 then last % ndim + 1 else j := by
    simp only [ax, bsrl]
    rw [hj]
  have hz : f b.center = f b.center + fourth f b j / 2 ↔ fourth f b j = 0 := by
    constructor
    · intro h; linarith
    · intro h; rw [h]; ring
  have h0 : ∀ i, 0 ≤ fourth f b i := fourth_nonneg f b
  have hml := Nat.mod_lt last (show 0 < ndim by omega)
  by_cases hc : fourth f b j = 0
  · rw [if_pos (hz.2 hc)] at hax
    refine ⟨by rw [hax]; omega, fun i i1 i2 => ?_, fun _ => hax⟩
    rw [hd, hd]
    have := hm i i1 i2
    linarith [h0 ax]
  · rw [if_neg (fun hh => hc (hz.1 hh))] at hax
    refine ⟨by rw [hax]; exact ⟨j1, j2⟩, fun i i1 i2 => by rw [hd, hd, hax]; exact hm i i1 i2, fun hall => absurd ?_ hc⟩
    rw [← hd]; exact hall j j1 j2

/-- Non-vacuity: both cases. -/
example : (bsrl demoSym 2 (fun x => x 2 ^ 4) ⟨fun _ => 0, fun _ => 1⟩ 25 0 2).axis = 2 ∧ (bsrl demoSym 2 (fun x => x 2 ^ 2) ⟨fun _ => 0, fun _ => 1⟩ 25 0 2).axis = 1 := by decide +kernel

end Verif.Adapt
