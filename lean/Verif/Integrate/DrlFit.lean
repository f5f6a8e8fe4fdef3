import Verif.Integrate.DrlMoments
import Verif.Integrate.Dcuhre
import Mathlib.Data.Real.Sqrt
import Mathlib.Tactic.IntervalCases

/-!
# The basic rules of DCUHRE: the tables have the form that the rule needs
-/

set_option linter.unusedSectionVars false

namespace Verif.Drl

open Finset
open Verif.Adapt (put Box)
open Verif.Dcuhre (Out ruleLen)

/-- The values that the literal `0.4707` may have: rounded to single precision, or exact. -/
def Lit (l0 : ℝ) : Prop := l0 = lam0 ∨ l0 = 4707 / 10000

/-- The order of the squares of the values in the generators. -/
structure Ok (l0 : ℝ) : Prop where
  p9 : 625 / 10000 < lam2 l0
  two : lam2 l0 < l0
  zero : l0 < 5625 / 10000
  p7 : 5625 / 10000 < lam3 l0
  three : lam3 l0 < lam1 l0
  one : lam1 l0 < 1

theorem ok_lit {l0 : ℝ} (h : Lit l0) : Ok l0 := by
  rcases h with rfl | rfl
  · constructor <;> norm_num [lam0, lam1, lam2, lam3]
  · constructor <;> norm_num [lam1, lam2, lam3]

/-! ## Lists with zeros at the end -/

section

variable {K : Type*} [Field K] [LinearOrder K] [IsStrictOrderedRing K]

theorem length_gen {n : ℕ} {vs : List K} (h : vs.length ≤ n) : (gen n vs).length = n := by
  simp [gen]; omega

theorem desc_gen {n : ℕ} {vs : List K} (h : vs.Pairwise (· ≥ ·)) (h0 : ∀ m ∈ vs, 0 ≤ m) : (gen n vs).Pairwise (· ≥ ·) := by
  unfold gen
  rw [List.pairwise_append]
  refine ⟨h, ?_, fun a ha b hb => ?_⟩
  · rw [List.pairwise_replicate]; right; exact le_rfl
  · rw [List.eq_of_mem_replicate hb]; exact h0 a ha

theorem mem_gen {n : ℕ} {vs : List K} {m : K} (h : m ∈ gen n vs) : m ∈ vs ∨ m = 0 := by
  rcases List.mem_append.1 h with h | h
  · exact Or.inl h
  · exact Or.inr (List.eq_of_mem_replicate h)

theorem gen_one {n : ℕ} (hn : 1 ≤ n) (v : K) : gen n [v] = ax n 0 v := by
  obtain ⟨n, rfl⟩ : ∃ k, n = k + 1 := ⟨n - 1, by omega⟩
  simp [gen, ax, List.replicate_succ]

theorem gen_nil (n : ℕ) : gen n ([] : List K) = List.replicate n 0 := by simp [gen]

/-- The number of points in an orbit. -/
theorem card_orb {g : List K} (hg : ∀ m ∈ g, 0 ≤ m) : ((orb g).card : K) = PS g ((List.replicate g.length 0).map (2 * ·)) := by
  rw [← sum_orb_mono hg (by simp)]
  have : ∀ y : List K, mono ((List.replicate g.length 0).map (2 * ·)) y = 1 := by
    generalize g.length = n
    induction n with
    | zero => intro y; cases y <;> rfl
    | succ n ih =>
      intro y
      cases y with
      | nil => rfl
      | cons a y => rw [List.replicate_succ, List.map_cons, mono, ih]; simp
  rw [sum_congr rfl fun y _ => this y, sum_const, nsmul_eq_mul, mul_one]

theorem nzs_replicate (n : ℕ) : nzs (List.replicate n 0) = [] := by
  simp [nzs]

theorem card_one {n j : ℕ} (hj : j ≤ n) {v : K} (hv : 0 < v) : ((orb (gen n (List.replicate j v))).card : K) = 2 ^ j * (n.choose j : ℕ) := by
  rw [card_orb fun m hm => by
    rcases mem_gen hm with h | h
    · rw [List.eq_of_mem_replicate h]; exact hv.le
    · rw [h], length_gen (by simpa using hj)]
  unfold gen
  rw [List.length_replicate, PS_one hv.ne' _ j (n - j) (by simp; omega), nzs_replicate]
  simp [oneForm]

theorem card_two {n : ℕ} (hn : 2 ≤ n) {v w : K} (hv : 0 < v) (hw : 0 < w) (h : v ≠ w) : ((orb (gen n [v, w])).card : K) = 4 * n * (n - 1) := by
  rw [card_orb fun m hm => by
    rcases mem_gen hm with h | h
    · simp at h; rcases h with h | h <;> rw [h]
      · exact hv.le
      · exact hw.le
    · rw [h], length_gen (by simpa using hn)]
  unfold gen
  show ((PS (v :: w :: List.replicate (n - 2) 0) _ : K)) = _
  rw [PS_two hv.ne' hw.ne' h _ (n - 2) (by simp; omega), nzs_replicate]
  simp [twoForm]

/-! ## Points -/

theorem pt_getD {c h y : List K} (hc : c.length = y.length) (hh : h.length = y.length) (i : ℕ) (hi : i < y.length) : (pt c h y).getD i 0 = c.getD i 0 + y.getD i 0 * h.getD i 0 := by
  induction y generalizing c h i with
  | nil => simp at hi
  | cons a y ih =>
    cases c with
    | nil => simp at hc
    | cons b c =>
      cases h with
      | nil => simp at hh
      | cons e h =>
        cases i with
        | zero => simp [pt, coords]
        | succ i =>
          have := ih (c := c) (h := h) (by simpa using hc) (by simpa using hh) i (by simpa using hi)
          simpa [pt, coords] using this

theorem pt_length {c h y : List K} (hc : c.length = y.length) (hh : h.length = y.length) : (pt c h y).length = y.length := by
  induction y generalizing c h with
  | nil =>
    cases c with
    | nil => simp [pt, coords]
    | cons => simp at hc
  | cons a y ih =>
    cases c with
    | nil => simp at hc
    | cons b c =>
      cases h with
      | nil => simp at hh
      | cons e h =>
        have := ih (c := c) (h := h) (by simpa using hc) (by simpa using hh)
        simpa [pt, coords] using this

theorem pt_inj {c h : List K} (hh : c.length = h.length) (h0 : ∀ x ∈ h, x ≠ 0) : ∀ y y' : List K, y.length = c.length → y'.length = c.length → pt c h y = pt c h y' → y = y' := by
  induction c generalizing h with
  | nil =>
    intro y y' h1 h2 _
    simp at h1 h2
    rw [h1, h2]
  | cons a c ih =>
    cases h with
    | nil => simp at hh
    | cons b h =>
      intro y y' h1 h2 e
      cases y with
      | nil => simp at h1
      | cons u y =>
        cases y' with
        | nil => simp at h2
        | cons u' y' =>
          simp only [pt, coords, List.map_cons, List.cons.injEq, add_right_inj] at e
          rw [mul_left_inj' (h0 b List.mem_cons_self)] at e
          rw [e.1, ih (h := h) (by simpa using hh) (fun x hx => h0 x (List.mem_cons_of_mem _ hx)) y y' (by simpa using h1) (by simpa using h2) e.2]

/-- What the rule needs for the points to be different and inside: generators that are different, and at most one. -/
structure Apart (t : Tab K) : Prop where
  inj : ∀ i j, 1 ≤ i → i ≤ t.wtleng → 1 ≤ j → j ≤ t.wtleng → t.g i = t.g j → i = j
  le1 : ∀ i, 1 ≤ i → i ≤ t.wtleng → ∀ m ∈ t.g i, m ≤ 1

theorem Fit.all {t : Tab K} {n : ℕ} (ht : Fit t n) (i : ℕ) (h1 : 1 ≤ i) (h2 : i ≤ t.wtleng) : (t.g i).length = n ∧ (t.g i).Pairwise (· ≥ ·) ∧ ∀ m ∈ t.g i, 0 ≤ m := by
  have hax : ∀ v : K, 0 < v → (ax n 0 v).length = n ∧ (ax n 0 v).Pairwise (· ≥ ·) ∧ ∀ m ∈ ax n 0 v, 0 ≤ m := by
    intro v hv
    rw [← gen_one ht.dim]
    refine ⟨length_gen (by simpa using ht.dim), desc_gen (by simp) (by simp [hv.le]), fun m hm => ?_⟩
    rcases mem_gen hm with h | h
    · simp at h; rw [h]; exact hv.le
    · rw [h]
  by_cases h : 4 ≤ i
  · exact ⟨ht.size i h h2, ht.desc i h h2, ht.nonneg i h h2⟩
  · obtain rfl | rfl | rfl : i = 1 ∨ i = 2 ∨ i = 3 := by omega
    · rw [ht.one, ← gen_nil]
      refine ⟨length_gen (by simp), desc_gen (by simp) (by simp), fun m hm => ?_⟩
      rcases mem_gen hm with h | h
      · simp at h
      · rw [h]
    · obtain ⟨v, hv, e⟩ := ht.two
      rw [e]; exact hax v hv
    · obtain ⟨v, hv, e⟩ := ht.three
      rw [e]; exact hax v hv

theorem desc_eq {x y : List K} (hx : x.Pairwise (· ≥ ·)) (hy : y.Pairwise (· ≥ ·)) (h : x.Perm y) : x = y :=
  h.eq_of_pairwise (fun _ _ _ _ h1 h2 => le_antisymm h2 h1) hx hy

/-- The points of the rule. -/
theorem points_spec {t : Tab K} {n : ℕ} (ht : Fit t n) (ha : Apart t) {L : List (List K)} (hL : ∀ y, L.count y = ∑ i ∈ Icc 1 t.wtleng, if y ∈ orb (t.g i) then 1 else 0) :
    L.Nodup ∧ L.length = ∑ i ∈ Icc 1 t.wtleng, (orb (t.g i)).card ∧ ∀ y ∈ L, y.length = n ∧ ∀ v ∈ y, |v| ≤ 1 := by
  have hdis : ∀ i ∈ Icc 1 t.wtleng, ∀ j ∈ Icc 1 t.wtleng, ∀ y, y ∈ orb (t.g i) → y ∈ orb (t.g j) → i = j := by
    intro i hi j hj y h1 h2
    rw [mem_Icc] at hi hj
    obtain ⟨a1, a2, a3⟩ := ht.all i hi.1 hi.2
    obtain ⟨b1, b2, b3⟩ := ht.all j hj.1 hj.2
    rw [mem_orb a3] at h1
    rw [mem_orb b3] at h2
    exact ha.inj i j hi.1 hi.2 hj.1 hj.2 (desc_eq a2 b2 (h1.symm.trans h2))
  have hmem : ∀ y, y ∈ L ↔ ∃ i ∈ Icc 1 t.wtleng, y ∈ orb (t.g i) := by
    intro y
    rw [← List.count_pos_iff, hL]
    constructor
    · intro h
      by_contra hc
      push Not at hc
      rw [sum_eq_zero fun i hi => if_neg (hc i hi)] at h
      omega
    · rintro ⟨i, hi, hy⟩
      rw [Finset.sum_pos_iff]
      exact ⟨i, hi, by rw [if_pos hy]; omega⟩
  have hnd : L.Nodup := by
    rw [List.nodup_iff_count_le_one]
    intro y
    rw [hL]
    by_cases h : ∃ i ∈ Icc 1 t.wtleng, y ∈ orb (t.g i)
    · obtain ⟨i, hi, hy⟩ := h
      rw [sum_eq_single i]
      · rw [if_pos hy]
      · intro j hj hji
        rw [if_neg fun h => hji (hdis j hj i hi y h hy)]
      · intro h; exact absurd hi h
    · push Not at h
      rw [sum_eq_zero fun i hi => if_neg (h i hi)]
      omega
  refine ⟨hnd, ?_, fun y hy => ?_⟩
  · have : L.toFinset = (Icc 1 t.wtleng).biUnion fun i => orb (t.g i) := by
      ext y
      rw [List.mem_toFinset, hmem, mem_biUnion]
    rw [← List.toFinset_card_of_nodup hnd, this, card_biUnion]
    intro i hi j hj hij
    rw [Function.onFun, Finset.disjoint_left]
    exact fun y h1 h2 => hij (hdis i hi j hj y h1 h2)
  · obtain ⟨i, hi, h⟩ := (hmem y).1 hy
    rw [mem_Icc] at hi
    obtain ⟨a1, a2, a3⟩ := ht.all i hi.1 hi.2
    rw [mem_orb a3] at h
    refine ⟨by simpa [a1] using h.length_eq, fun v hv => ha.le1 i hi.1 hi.2 _ (h.subset (List.mem_map_of_mem hv))⟩

end

/-! ## The rules of degree seven and nine -/

theorem gen_full (n : ℕ) (v : ℝ) : gen n (List.replicate n v) = List.replicate n v := by simp [gen]

/-- The roots that are in the generators. -/
structure Roots (a b c d e f : ℝ) : Prop where
  p9 : 0 < a
  two : a < b
  zero : b < c
  p7 : c < d
  three : d < e
  one : e < f
  le : f ≤ 1

theorem Ok.roots {l0 : ℝ} (h : Ok l0) : Roots √(625 / 10000) √(lam2 l0) √l0 √(5625 / 10000) √(lam3 l0) √(lam1 l0) := by
  obtain ⟨h1, h2, h3, h4, h5, h6⟩ := h
  exact ⟨Real.sqrt_pos.2 (by norm_num), Real.sqrt_lt_sqrt (by norm_num) h1, Real.sqrt_lt_sqrt (by linarith) h2, Real.sqrt_lt_sqrt (by linarith) h3, Real.sqrt_lt_sqrt (by norm_num) h4,
    Real.sqrt_lt_sqrt (by linarith) h5, Real.sqrt_le_one.2 h6.le⟩

/-- A list of values that decrease and are not negative. -/
def Nice (n : ℕ) (vs : List ℝ) : Prop := vs.length ≤ n ∧ vs.Pairwise (· ≥ ·) ∧ ∀ m ∈ vs, 0 ≤ m

theorem nice1 {n : ℕ} (hn : 2 ≤ n) {a : ℝ} (h : 0 ≤ a) : Nice n [a] := ⟨by simp; omega, by simp, by simp [h]⟩

theorem nice2 {n : ℕ} (hn : 2 ≤ n) {a b : ℝ} (h : 0 ≤ b) (hb : b ≤ a) : Nice n [a, b] := ⟨by simp; omega, by simp [hb], by simp [h, h.trans hb]⟩

theorem nice3 {n : ℕ} (hn : 3 ≤ n) {a : ℝ} (h : 0 ≤ a) : Nice n [a, a, a] := ⟨by simp; omega, by simp, by simp [h]⟩

theorem niceF (n : ℕ) {a : ℝ} (h : 0 ≤ a) : Nice n (List.replicate n a) :=
  ⟨by simp, by rw [List.pairwise_replicate]; right; exact le_rfl, fun m hm => by rw [List.eq_of_mem_replicate hm]; exact h⟩

theorem fit_of {t : Tab ℝ} {n : ℕ} (hw : 3 ≤ t.wtleng) (hn : 1 ≤ n) {vs : ℕ → List ℝ} (hg : ∀ i, t.g i = gen n (vs i)) (h1 : vs 1 = []) (h2 : ∃ v, 0 < v ∧ vs 2 = [v]) (h3 : ∃ v, 0 < v ∧ vs 3 = [v])
    (h : ∀ i, 4 ≤ i → i ≤ t.wtleng → Nice n (vs i)) : Fit t n := by
  obtain ⟨v2, p2, e2⟩ := h2
  obtain ⟨v3, p3, e3⟩ := h3
  refine ⟨hw, hn, by rw [hg, h1, gen_nil], ⟨v2, p2, by rw [hg, e2, gen_one hn]⟩, ⟨v3, p3, by rw [hg, e3, gen_one hn]⟩, fun i i1 i2 => ?_, fun i i1 i2 => ?_, fun i i1 i2 m hm => ?_⟩
  · rw [hg]; exact length_gen (h i i1 i2).1
  · rw [hg]; exact desc_gen (h i i1 i2).2.1 (h i i1 i2).2.2
  · rw [hg] at hm
    rcases mem_gen hm with q | q
    · exact (h i i1 i2).2.2 m q
    · rw [q]

theorem fit7 {n : ℕ} (hn : 2 ≤ n) {l0 : ℝ} (h : Ok l0) : Fit (d07 n l0) n := by
  obtain ⟨r1, r2, r3, r4, r5, r6, r7⟩ := h.roots
  refine fit_of (by simp [d07]) (by omega) (fun i => rfl) rfl ⟨_, by linarith, rfl⟩ ⟨_, by linarith, rfl⟩ ?_
  intro i h1 h2
  have h2 : i ≤ 6 := h2
  interval_cases i
  · exact nice1 hn (Real.sqrt_nonneg _)
  · exact nice2 hn (Real.sqrt_nonneg _) le_rfl
  · exact niceF n (Real.sqrt_nonneg _)

theorem fit9 {n : ℕ} (hn : 2 ≤ n) {l0 : ℝ} (h : Ok l0) : Fit (d09 n l0) n := by
  obtain ⟨r1, r2, r3, r4, r5, r6, r7⟩ := h.roots
  have hw : ∀ i, i ≤ (d09 n l0).wtleng → i ≤ 9 := by
    intro i hi
    have : (d09 n l0).wtleng ≤ 9 := by simp only [d09]; split_ifs <;> omega
    omega
  refine fit_of (by simp only [d09]; split_ifs <;> omega) (by omega) (fun i => rfl) rfl ⟨_, by linarith, rfl⟩ ⟨_, by linarith, rfl⟩ ?_
  intro i h1 h2
  have h2 := hw i h2
  interval_cases i
  · exact nice1 hn (Real.sqrt_nonneg _)
  · exact nice1 hn (Real.sqrt_nonneg _)
  · exact nice2 hn (Real.sqrt_nonneg _) le_rfl
  · exact nice2 hn (Real.sqrt_nonneg _) (by linarith)
  · show Nice n (if _ then _ else _)
    split_ifs with hb
    · exact nice3 hb (Real.sqrt_nonneg _)
    · exact niceF n (Real.sqrt_nonneg _)
  · exact niceF n (Real.sqrt_nonneg _)

/-- The first three coordinates. -/
def lead (g : List ℝ) : ℝ × ℝ × ℝ := (g.getD 0 0, g.getD 1 0, g.getD 2 0)

theorem lead_cons (n : ℕ) (a : ℝ) (vs : List ℝ) : gen (n + 1) (a :: vs) = a :: gen n vs := by
  simp [gen]

theorem lead_zero (n : ℕ) : gen (n + 1) ([] : List ℝ) = 0 :: gen n [] := by
  simp [gen, List.replicate_succ]

theorem lead_full {n : ℕ} (hn : 2 ≤ n) (v : ℝ) : (lead (gen n (List.replicate n v))).1 = v ∧ (lead (gen n (List.replicate n v))).2.1 = v := by
  obtain ⟨k, rfl⟩ : ∃ k, n = k + 2 := ⟨n - 2, by omega⟩
  simp [gen, List.replicate_succ, lead]

theorem lead0 {n : ℕ} (hn : 2 ≤ n) : lead (gen n []) = (0, 0, 0) := by
  obtain ⟨k, rfl⟩ : ∃ k, n = k + 2 := ⟨n - 2, by omega⟩
  cases k <;> simp [gen, List.replicate_succ, lead]

theorem lead1 {n : ℕ} (hn : 2 ≤ n) (a : ℝ) : lead (gen n [a]) = (a, 0, 0) := by
  obtain ⟨k, rfl⟩ : ∃ k, n = k + 2 := ⟨n - 2, by omega⟩
  cases k <;> simp [gen, List.replicate_succ, lead]

theorem lead2 {n : ℕ} (hn : 2 ≤ n) (a b : ℝ) : lead (gen n [a, b]) = (a, b, 0) := by
  obtain ⟨k, rfl⟩ : ∃ k, n = k + 2 := ⟨n - 2, by omega⟩
  cases k <;> simp [gen, List.replicate_succ, lead]

theorem lead3 (n : ℕ) (a b c : ℝ) : lead (gen n [a, b, c]) = (a, b, c) := by
  simp [gen, lead]

/-- Values that are at most one. -/
def Small (vs : List ℝ) : Prop := ∀ m ∈ vs, m ≤ 1

theorem small_gen {n : ℕ} {vs : List ℝ} (h : Small vs) : Small (gen n vs) := by
  intro m hm
  rcases mem_gen hm with q | q
  · exact h m q
  · rw [q]; exact zero_le_one

theorem apart7 {n : ℕ} (hn : 2 ≤ n) {l0 : ℝ} (h : Ok l0) : Apart (d07 n l0) := by
  obtain ⟨r1, r2, r3, r4, r5, r6, r7⟩ := h.roots
  refine ⟨fun i j i1 i2 j1 j2 e => ?_, fun i i1 i2 => ?_⟩
  · have i2 : i ≤ 6 := i2
    have j2 : j ≤ 6 := j2
    have e1 : (lead ((d07 n l0).g i)).1 = (lead ((d07 n l0).g j)).1 := by rw [e]
    have e2 : (lead ((d07 n l0).g i)).2.1 = (lead ((d07 n l0).g j)).2.1 := by rw [e]
    have f := lead_full hn √l0
    clear e
    interval_cases i <;> interval_cases j <;> first
      | rfl
      | (exfalso
         simp only [d07, lead0 hn, lead1 hn, lead2 hn, f.1, f.2] at e1 e2
         linarith)
  · have i2 : i ≤ 6 := i2
    refine small_gen ?_
    generalize √(625 / 10000) = a at *
    generalize √(5625 / 10000) = b at *
    interval_cases i
    · intro m hm; simp at hm
    · intro m hm; simp at hm; linarith
    · intro m hm; simp at hm; linarith
    · intro m hm; simp at hm; linarith
    · intro m hm; simp at hm; linarith
    · intro m hm; rw [List.eq_of_mem_replicate hm]; linarith

theorem inj9 {n : ℕ} (hn : 2 ≤ n) {l0 : ℝ} (h : Ok l0) (i j : ℕ) (i1 : 1 ≤ i) (i2 : i ≤ (d09 n l0).wtleng) (j1 : 1 ≤ j) (j2 : j ≤ (d09 n l0).wtleng) (e : (d09 n l0).g i = (d09 n l0).g j) : i = j := by
  obtain ⟨r1, r2, r3, r4, r5, r6, r7⟩ := h.roots
  have f := lead_full hn √l0
  have hle : (d09 n l0).wtleng ≤ 9 := by simp only [d09]; split_ifs <;> omega
  have g1 : lead ((d09 n l0).g 1) = (0, 0, 0) := lead0 hn
  have g2 : lead ((d09 n l0).g 2) = (√(lam1 l0), 0, 0) := lead1 hn _
  have g3 : lead ((d09 n l0).g 3) = (√(lam2 l0), 0, 0) := lead1 hn _
  have g4 : lead ((d09 n l0).g 4) = (√(lam3 l0), 0, 0) := lead1 hn _
  have g5 : lead ((d09 n l0).g 5) = (√(625 / 10000), 0, 0) := lead1 hn _
  have g6 : lead ((d09 n l0).g 6) = (√(lam1 l0), √(lam1 l0), 0) := lead2 hn _ _
  have g7 : lead ((d09 n l0).g 7) = (√(lam1 l0), √(lam2 l0), 0) := lead2 hn _ _
  have g9 : (lead ((d09 n l0).g 9)).1 = √l0 ∧ (lead ((d09 n l0).g 9)).2.1 = √l0 := f
  have e1 : (lead ((d09 n l0).g i)).1 = (lead ((d09 n l0).g j)).1 := by rw [e]
  have e2 : (lead ((d09 n l0).g i)).2.1 = (lead ((d09 n l0).g j)).2.1 := by rw [e]
  have e3 : (lead ((d09 n l0).g i)).2.2 = (lead ((d09 n l0).g j)).2.2 := by rw [e]
  clear e f
  by_cases hb : 2 < n
  · have g8 : lead ((d09 n l0).g 8) = (√(lam1 l0), √(lam1 l0), √(lam1 l0)) := by
      show lead (gen n (if _ then _ else _)) = _
      rw [if_pos hb, lead3]
    replace i2 := i2.trans hle
    replace j2 := j2.trans hle
    interval_cases i <;> interval_cases j <;> first
      | rfl
      | (exfalso
         simp only [g1, g2, g3, g4, g5, g6, g7, g8, g9.1, g9.2] at e1 e2 e3
         linarith)
  · have hw : (d09 n l0).wtleng = 8 := by simp only [d09]; rw [if_pos (by omega)]
    have g8 : (lead ((d09 n l0).g 8)).1 = √l0 ∧ (lead ((d09 n l0).g 8)).2.1 = √l0 := by
      show (lead (gen n (if _ then _ else _))).1 = _ ∧ (lead (gen n (if _ then _ else _))).2.1 = _
      rw [if_neg hb]
      exact g9
    rw [hw] at i2 j2
    interval_cases i <;> interval_cases j <;> first
      | rfl
      | (exfalso
         simp only [g1, g2, g3, g4, g5, g6, g7, g8.1, g8.2] at e1 e2
         linarith)

theorem apart9 {n : ℕ} (hn : 2 ≤ n) {l0 : ℝ} (h : Ok l0) : Apart (d09 n l0) := by
  refine ⟨inj9 hn h, fun i i1 i2 => ?_⟩
  obtain ⟨r1, r2, r3, r4, r5, r6, r7⟩ := h.roots
  have hle : (d09 n l0).wtleng ≤ 9 := by simp only [d09]; split_ifs <;> omega
  replace i2 := i2.trans hle
  have full : Small (List.replicate n √l0) := by
    intro m hm; rw [List.eq_of_mem_replicate hm]; linarith
  refine small_gen ?_
  generalize √(625 / 10000) = a at *
  generalize √(5625 / 10000) = b at *
  interval_cases i
  · intro m hm; simp at hm
  · intro m hm; simp at hm; linarith
  · intro m hm; simp at hm; linarith
  · intro m hm; simp at hm; linarith
  · intro m hm; simp at hm; linarith
  · intro m hm; simp at hm; linarith
  · intro m hm; simp at hm; rcases hm with q | q <;> linarith
  · show Small (if _ then _ else _)
    split_ifs with hb
    · intro m hm; simp at hm; linarith
    · exact full
  · exact full

theorem orb_gen_nil (n : ℕ) : ((orb (gen n ([] : List ℝ))).card : ℝ) = 1 := by
  have := card_one (K := ℝ) (n := n) (j := 0) (by omega) one_pos
  simpa using this

theorem orb_gen_one {n : ℕ} (hn : 2 ≤ n) {v : ℝ} (hv : 0 < v) : ((orb (gen n [v])).card : ℝ) = 2 * n := by
  have := card_one (K := ℝ) (n := n) (j := 1) (by omega) hv
  simpa using this

theorem orb_gen_two {n : ℕ} (hn : 2 ≤ n) {v : ℝ} (hv : 0 < v) : ((orb (gen n [v, v])).card : ℝ) = 2 * n * (n - 1) := by
  have := card_one (K := ℝ) (n := n) (j := 2) (by omega) hv
  rw [Nat.cast_choose_two] at this
  rw [show [v, v] = List.replicate 2 v from rfl, this]; ring

theorem choose_three (n : ℕ) : ((n.choose 3 : ℕ) : ℝ) = n * (n - 1) * (n - 2) / 6 := by
  induction n with
  | zero => simp
  | succ n ih =>
    rw [Nat.choose_succ_succ, Nat.cast_add, ih, Nat.cast_choose_two]
    push_cast
    ring

theorem orb_gen_three {n : ℕ} (hn : 3 ≤ n) {v : ℝ} (hv : 0 < v) : ((orb (gen n [v, v, v])).card : ℝ) = 4 * n * (n - 1) * (n - 2) / 3 := by
  have := card_one (K := ℝ) (n := n) (j := 3) hn hv
  rw [choose_three] at this
  rw [show [v, v, v] = List.replicate 3 v from rfl, this]; ring

theorem orb_gen_full (n : ℕ) {v : ℝ} (hv : 0 < v) : ((orb (gen n (List.replicate n v))).card : ℝ) = 2 ^ n := by
  have := card_one (K := ℝ) (n := n) (j := n) le_rfl hv
  simpa using this

/-- `RULPTS`. -/
theorem rulpts7 {n : ℕ} (hn : 2 ≤ n) {l0 : ℝ} (h : Ok l0) {i : ℕ} (h1 : 1 ≤ i) (h2 : i ≤ 6) : ((orb ((d07 n l0).g i)).card : ℝ) = (d07 n l0).rulpts i := by
  obtain ⟨r1, r2, r3, r4, r5, r6, r7⟩ := h.roots
  interval_cases i
  · simpa [d07, pts7] using orb_gen_nil n
  · simpa [d07, pts7] using orb_gen_one hn (by linarith : 0 < √(lam2 l0))
  · simpa [d07, pts7] using orb_gen_one hn (by linarith : 0 < √(lam1 l0))
  · have := orb_gen_one hn (show 0 < √(5625 / 10000) by linarith)
    simp only [d07, pts7]; rw [this]; norm_num
  · simpa [d07, pts7] using orb_gen_two hn (by linarith : 0 < √(lam1 l0))
  · simpa [d07, pts7] using orb_gen_full n (by linarith : 0 < √l0)

theorem rulpts9 {n : ℕ} (hn : 2 ≤ n) {l0 : ℝ} (h : Ok l0) {i : ℕ} (h1 : 1 ≤ i) (h2 : i ≤ (d09 n l0).wtleng) : ((orb ((d09 n l0).g i)).card : ℝ) = (d09 n l0).rulpts i := by
  obtain ⟨r1, r2, r3, r4, r5, r6, r7⟩ := h.roots
  have h3 : i ≤ 9 := h2.trans (by simp only [d09]; split_ifs <;> omega)
  have p := orb_gen_one hn (show 0 < √(625 / 10000) by linarith)
  clear h2
  interval_cases i
  · simpa [d09, pts9] using orb_gen_nil n
  · simpa [d09, pts9] using orb_gen_one hn (by linarith : 0 < √(lam1 l0))
  · simpa [d09, pts9] using orb_gen_one hn (by linarith : 0 < √(lam2 l0))
  · simpa [d09, pts9] using orb_gen_one hn (by linarith : 0 < √(lam3 l0))
  · simp only [d09, pts9]; rw [p]; norm_num
  · simpa [d09, pts9] using orb_gen_two hn (by linarith : 0 < √(lam1 l0))
  · have := card_two (K := ℝ) hn (by linarith : 0 < √(lam1 l0)) (by linarith : 0 < √(lam2 l0)) (by linarith : √(lam2 l0) < √(lam1 l0)).ne'
    simpa [d09, pts9] using this
  · by_cases hb : 2 < n
    · simpa [d09, pts9, hb] using orb_gen_three (by omega) (by linarith : 0 < √(lam1 l0))
    · simpa [d09, pts9, hb] using orb_gen_full n (by linarith : 0 < √l0)
  · simpa [d09, pts9] using orb_gen_full n (by linarith : 0 < √l0)

end Verif.Drl
